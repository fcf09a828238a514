import Verif.BuildTop
import Verif.PropsArith

/-!
# C35 – C38: reconstruction, hole filling, extrema

The specification (`Carried`, `IsBuild`) is in `Verif.BuildSpec`.
-/

namespace Smil
open StrElt
variable {α : Type} {t : PT}

/-! ## C35 -/

/-- **C35** (partial: unsigned types; the queue is broken for signed types, see `C34_signed_bug`):
`build` never fails on accepted images and computes the reconstruction: at `p`, the largest level `v`
such that some path ends at `p`, starts where the marker is ≥ `v` and stays where the mask is ≥ `v`.
This covers the dispatch to `binBuild`. -/
theorem C35_build_partial (hs : t.signed = false) (hb : t.bits ≤ 64) (E : Env (Px t)) (se : StrElt)
    (im ms out : Img (Px t)) (h : Accepts3 E im ms out) :
    ∃ r, build E false se im ms out = some (.ok r) ∧ IsBuild (seRel se) im ms r :=
  build_spec hs hb E se im ms out h

/-- **C35**, the largest path value spelled out: the value `v` of the result is carried to `p`, and no
larger value is. -/
theorem C35_paths_partial (hs : t.signed = false) (hb : t.bits ≤ 64) (E : Env (Px t)) (se : StrElt)
    (im ms out r : Img (Px t)) (hm : ms.dims = im.dims)
    (h : build E false se im ms out = some (.ok r)) (p : IntPoint) (u : Px t)
    (hu : r.at? p = some u) :
    Carried (seRel se) im ms u p ∧ ∀ v, Carried (seRel se) im ms v p → v ≤ u :=
  ⟨((build_rel hs hb hm h).at hu).1, fun _ hv => ((build_rel hs hb hm h).at hu).2 hv⟩

/-- **C35**, dual reconstruction. -/
theorem C35_dualBuild_partial (hs : t.signed = false) (hb : t.bits ≤ 64) (E : Env (Px t))
    (se : StrElt) (im ms out : Img (Px t)) (h : Accepts3 E im ms out) :
    ∃ r, dualBuild E false se im ms out = some (.ok r) ∧ IsDualBuild (seRel se) im ms r :=
  dualBuild_spec hs hb E se im ms out h

/-- **C35**: `build` is the smallest image above `inf(marker, mask)` that is stable under geodesic
dilation. -/
theorem C35_least_partial (hs : t.signed = false) (hb : t.bits ≤ 64) (E : Env (Px t)) (se : StrElt)
    (im ms out r : Img (Px t)) (hm : ms.dims = im.dims)
    (h : build E false se im ms out = some (.ok r)) :
    (∀ p a b c, im.at? p = some a → ms.at? p = some b → r.at? p = some c → min a b ≤ c) ∧
    (∀ q p a b c, seRel se q p → r.at? q = some a → ms.at? p = some b → r.at? p = some c →
      min a b ≤ c) ∧
    ∀ s : Img (Px t), s.dims = im.dims →
      (∀ p a b c, im.at? p = some a → ms.at? p = some b → s.at? p = some c → min a b ≤ c) →
      (∀ q p a b c, seRel se q p → s.at? q = some a → ms.at? p = some b → s.at? p = some c →
        min a b ≤ c) → Img.Le r s := by
  have hr := build_rel hs hb hm h
  exact ⟨fun p a b c ha hb hc => (hr.at hc).2 (.base ha hb (min_le_left _ _) (min_le_right _ _)),
    fun q p a b c hn ha hb hc => hr.closed hn ha hb hc, fun s hd h1 h2 => hr.least hd h1 h2⟩

/-- **C35**: the iterated geodesic dilation `geoBuild` terminates and reconstructs along paths of
`se.size` steps (unrestricted by the mask in between), for every pixel type. -/
theorem C35_geoBuild_partial (E : Env (Px t)) (se : StrElt) (im ms out : Img (Px t))
    (h : Accepts3 E im ms out) (hse : SEOk im.dims se) (h0 : ⟨0, 0, 0⟩ ∈ se.points) :
    (∃ fuel r, geoBuild E se fuel im ms out = some r) ∧
    ∀ fuel r, geoBuild E se fuel im ms out = some r →
      ∃ b, r = .ok b ∧ IsBuild (pathRel im.dims (seRel se) se.size) im ms b :=
  geoBuild_spec E se im ms out h hse h0

/-- **C35**: `build` and `geoBuild` agree for an element of size 1 containing its origin. -/
theorem C35_build_eq_geoBuild_partial (hs : t.signed = false) (hb : t.bits ≤ 64) (E E' : Env (Px t))
    (se : StrElt) (im ms out out' r : Img (Px t)) (fuel : Nat) (hm : ms.dims = im.dims)
    (hse : SEOk im.dims se) (h0 : ⟨0, 0, 0⟩ ∈ se.points) (h1 : se.size = 1)
    (h : build E false se im ms out = some (.ok r)) (h' : Accepts3 E' im ms out')
    (g : Except Int (Img (Px t))) (hg : geoBuild E' se fuel im ms out' = some g) :
    ∃ r', g = .ok r' ∧ Img.Same r r' := by
  obtain ⟨r', e, h2⟩ := (geoBuild_spec E' se im ms out' h' hse h0).2 fuel g hg
  refine ⟨r', e, IsBuild.unique (Img.Same.refl _) (Img.Same.refl _) (build_rel hs hb hm h) ?_⟩
  rw [h1] at h2
  exact h2.congr fun q p _ hp => pathRel_one _ _ q p hp

/-- **C35**, dual: `dualBuild` follows the element forwards and `geoDualBuild` (erosions) backwards;
they agree for a symmetric element of size 1 containing its origin. -/
theorem C35_dual_eq_geo_partial (hs : t.signed = false) (hb : t.bits ≤ 64) (E E' : Env (Px t))
    (se : StrElt) (im ms out out' r : Img (Px t)) (fuel : Nat) (hm : ms.dims = im.dims)
    (hse : SEOk im.dims se) (h0 : ⟨0, 0, 0⟩ ∈ se.points) (h1 : se.size = 1)
    (hsym : ∀ q p, seRel se q p ↔ seRel se p q)
    (h : dualBuild E false se im ms out = some (.ok r)) (h' : Accepts3 E' im ms out')
    (g : Except Int (Img (Px t))) (hg : geoDualBuild E' se fuel im ms out' = some g) :
    ∃ r', g = .ok r' ∧ Img.Same r r' := by
  obtain ⟨r', e, h2⟩ := (geoDualBuild_spec E' se im ms out' h' hse h0).2 fuel g hg
  refine ⟨r', e, IsBuild.unique (α := (Px t)ᵒᵈ) (Img.Same.refl _) (Img.Same.refl _)
    (dualBuild_rel hs hb hm h) ?_⟩
  rw [h1] at h2
  exact IsBuild.congr (α := (Px t)ᵒᵈ) (fun q p _ hp => (pathRel_one _ _ q p hp).trans (hsym p q)) h2

/-! ## C36 -/

/-- **C36**: increasing in both arguments. -/
theorem C36_increasing_partial (hs : t.signed = false) (hb : t.bits ≤ 64) (E E' : Env (Px t))
    (se : StrElt) (im ms out r im' ms' out' r' : Img (Px t)) (hm : ms.dims = im.dims)
    (h1 : Img.Le im im') (h2 : Img.Le ms ms')
    (h : build E false se im ms out = some (.ok r))
    (h' : build E' false se im' ms' out' = some (.ok r')) : Img.Le r r' :=
  (build_rel hs hb hm h).mono (fun _ _ h => h) h1 h2
    (build_rel hs hb (h2.1.symm.trans (hm.trans h1.1)) h')

/-- **C36**: between the infimum of marker and mask, and the mask; applying it again changes
nothing. -/
theorem C36_bounds_idempotent_partial (hs : t.signed = false) (hb : t.bits ≤ 64) (E E' : Env (Px t))
    (se : StrElt) (im ms out r out' r' : Img (Px t)) (hm : ms.dims = im.dims)
    (h : build E false se im ms out = some (.ok r))
    (h' : build E' false se r ms out' = some (.ok r')) :
    (∀ i, Img.IsMap2 min im ms i → Img.Le i r) ∧ Img.Le r ms ∧ Img.Same r' r := by
  have hr := build_rel hs hb hm h
  exact ⟨fun i hi => hr.inf_le hi, hr.le_mask,
    hr.idem (build_rel hs hb (hm.trans hr.2.1.symm) h')⟩

/-- **C36**: the dual reconstruction of the complements is the complement of the reconstruction. -/
theorem C36_duality_partial (hs : t.signed = false) (hb : t.bits ≤ 64) (E1 E2 E3 E4 : Env (Px t))
    (se : StrElt) (im ms o1 o2 o3 o4 im' ms' r r' : Img (Px t)) (hm : ms.dims = im.dims)
    (h1 : invImg E1 im o1 = some (.ok im')) (h2 : invImg E2 ms o2 = some (.ok ms'))
    (h3 : build E3 false se im ms o3 = some (.ok r))
    (h4 : dualBuild E4 false se im' ms' o4 = some (.ok r')) : Img.IsMap Px.compl r r' := by
  have m1 := invImg_map (Or.inl hs) h1
  have m2 := invImg_map (Or.inl hs) h2
  exact IsBuild.compl Px.compl Px.compl_anti Px.compl_compl (build_rel hs hb hm h3)
    (dualBuild_rel hs hb (m2.1.trans (hm.trans m1.1.symm)) h4) m1 m2

/-! ## C37 -/

/-- The pixels reached from the border through values at most `v`. -/
inductive FromBorder [LE α] (N : IntPoint → IntPoint → Prop) (B : IntPoint → Prop) (f : Img α) (v : α) :
    IntPoint → Prop
  | base {p a} : B p → f.at? p = some a → a ≤ v → FromBorder N B f v p
  | step {q p a} : FromBorder N B f v q → N q p → f.at? p = some a → a ≤ v → FromBorder N B f v p

/-- The border of an image, said without the code: the first and the last position of each direction that
has more than two of them. -/
def OnBorder (D : Dims) (p : IntPoint) : Prop :=
  (2 < D.w ∧ (p.x = 0 ∨ p.x + 1 = D.w)) ∨ (2 < D.h ∧ (p.y = 0 ∨ p.y + 1 = D.h)) ∨
    (2 < D.d ∧ (p.z = 0 ∨ p.z + 1 = D.d))

theorem onFace_iff (D : Dims) (p : IntPoint) : onFace D p = true ↔ OnBorder D p := by
  unfold onFace OnBorder
  simp only [Bool.or_eq_true, Bool.and_eq_true, decide_eq_true_eq, beq_iff_eq]
  omega

theorem FromBorder.mono_level {N : IntPoint → IntPoint → Prop} {B : IntPoint → Prop} [LinearOrder α] {f : Img α}
    {v w : α} (hvw : v ≤ w) {p : IntPoint} (h : FromBorder N B f v p) : FromBorder N B f w p := by
  induction h with
  | base hB hf hle => exact .base hB hf (hle.trans hvw)
  | step _ hn hf hle ih => exact .step ih hn hf (hle.trans hvw)

section fill
variable {E : Env (Px t)} {se : StrElt} {im out r : Img (Px t)}

theorem fillHoles_rel (hs : t.signed = false) (hb : t.bits ≤ 64)
    (h : fillHoles E false se im out = some (.ok r)) :
    IsDualBuild (seRel se) (holeMarker t im.dims) im r := by
  unfold fillHoles at h
  cases hc : checkSize E im out with
  | error c => rw [hc] at h; simp at h
  | ok o => rw [hc] at h; exact dualBuild_rel hs hb rfl h

theorem marker_at (D : Dims) (p : IntPoint) (a : Px t)
    (h : (holeMarker t D).at? p = some a) :
    Img.In D p ∧ a = if onFace D p then ⊥ else ⊤ := by
  have hin : Img.In D p := Img.at?_eq_some_in _ _ _ h
  have := Img.buf_offOf (holeMarker t D) p hin
  rw [h] at this
  unfold holeMarker at this
  simp only [coordPt_offOf hin] at this
  exact ⟨hin, Option.some.inj this⟩

theorem marker_at' (D : Dims) (p : IntPoint) (hin : Img.In D p) :
    (holeMarker t D).at? p =
      some (if onFace D p then ⊥ else ⊤) := by
  have := Img.buf_offOf (holeMarker t D) p hin
  rw [this]
  unfold holeMarker
  simp only [coordPt_offOf hin]

/-- **C37**: `fillHoles` always succeeds on accepted images. -/
theorem C37_fillHoles_total (hs : t.signed = false) (hb : t.bits ≤ 64) (E : Env (Px t)) (se : StrElt)
    (im out : Img (Px t)) (h : Accepts E im out) :
    ∃ r, fillHoles E false se im out = some (.ok r) := by
  obtain ⟨o, ho, hd⟩ := checkSize_ok E im out h
  obtain ⟨r, h1, _⟩ := dualBuild_spec hs hb E se
    (holeMarker t im.dims) im o
    ⟨h.1, alloc_of_dims hd h.1, rfl, Or.inl hd⟩
  refine ⟨r, ?_⟩
  unfold fillHoles; rw [ho]; exact h1

/-- **C37**: `fillHoles` is extensive. -/
theorem C37_fillHoles_extensive_partial (hs : t.signed = false) (hb : t.bits ≤ 64)
    (h : fillHoles E false se im out = some (.ok r)) : Img.Le im r :=
  Img.le_dual.mp (IsBuild.le_mask (α := (Px t)ᵒᵈ) (fillHoles_rel hs hb h))

/-- Every pixel below the maximum is reached from the border without climbing above its value. -/
theorem fillHoles_reach (hs : t.signed = false) (hb : t.bits ≤ 64)
    (h : fillHoles E false se im out = some (.ok r)) (p : IntPoint) (v : Px t)
    (hv : r.at? p = some v) (hlt : v < ⊤) :
    FromBorder (seRel se) (fun q => onFace im.dims q = true) r v p := by
  have hr := fillHoles_rel hs hb h
  have key : ∀ (w : Px t) p, Carried (α := (Px t)ᵒᵈ) (seRel se)
      (holeMarker t im.dims) im w p → w < ⊤ →
      FromBorder (seRel se) (fun q => onFace im.dims q = true) r w p := by
    intro w p hc hw
    induction hc with
    | @base p a b ha hb' hva hvb =>
      obtain ⟨hin, rfl⟩ := marker_at _ _ _ ha
      have hf : onFace im.dims p = true := by
        by_contra hf
        rw [if_neg hf] at hva
        exact absurd (lt_of_lt_of_le hw (show (⊤ : Px t) ≤ w from hva)) (lt_irrefl _)
      have hrp := Img.at?_some r p (hr.2.1 ▸ hin)
      refine .base hf hrp ?_
      exact (IsBuild.at (α := (Px t)ᵒᵈ) hr hrp).2 (Carried.base ha hb' hva hvb)
    | @step q p b hc hn hb' hvb ih =>
      have hin : Img.In im.dims p := Img.at?_eq_some_in _ _ _ hb'
      have hrp := Img.at?_some r p (hr.2.1 ▸ hin)
      refine .step ih hn hrp ?_
      exact (IsBuild.at (α := (Px t)ᵒᵈ) hr hrp).2 (Carried.step hc hn hb' hvb)
  exact key v p (IsBuild.at (α := (Px t)ᵒᵈ) hr hv).1 hlt

/-- **C37**: after `fillHoles` no regional minimum is left away from the border: a set `S` of pixels
at a common level `c` below the maximum, from outside which every neighbouring pixel is higher,
meets the border. -/
theorem C37_fillHoles_minima_partial (hs : t.signed = false) (hb : t.bits ≤ 64)
    (h : fillHoles E false se im out = some (.ok r)) (S : IntPoint → Prop) (c : Px t) (hlt : c < ⊤)
    (p : IntPoint) (hp : S p) (hS : ∀ q, S q → r.at? q = some c)
    (hout : ∀ q s, S s → seRel se q s → ¬ S q → ∀ a, r.at? q = some a → c < a) :
    ∃ q, S q ∧ OnBorder im.dims q := by
  suffices hx : ∃ q, S q ∧ onFace im.dims q = true by
    obtain ⟨q, h1, h2⟩ := hx
    exact ⟨q, h1, (onFace_iff _ _).1 h2⟩
  have hfb := fillHoles_reach hs hb h p c (hS p hp) hlt
  induction hfb with
  | @base p a hB _ _ => exact ⟨p, hp, hB⟩
  | @step q p a hq hn _ _ ih =>
    by_cases hSq : S q
    · exact ih hSq
    · cases hq with
      | base _ hf hle => exact absurd (hout _ _ hp hn hSq _ hf) (not_lt.mpr hle)
      | step _ _ hf hle => exact absurd (hout _ _ hp hn hSq _ hf) (not_lt.mpr hle)

/-- **C37**: the values of `fillHoles`: a pixel ends at most at the level `w` exactly when it can be reached
from the border of the image by a path of neighbours whose values in the input are at most `w`. -/
theorem C37_fillHoles_value_partial (hs : t.signed = false) (hb : t.bits ≤ 64)
    (h : fillHoles E false se im out = some (.ok r)) (p : IntPoint) (v w : Px t)
    (hv : r.at? p = some v) (hlt : w < ⊤) : v ≤ w ↔ FromBorder (seRel se) (OnBorder im.dims) im w p := by
  have hr := fillHoles_rel hs hb h
  constructor
  · intro hvw
    have key : ∀ (u : Px t) p, Carried (α := (Px t)ᵒᵈ) (seRel se)
        (holeMarker t im.dims) im u p → u < ⊤ →
        FromBorder (seRel se) (OnBorder im.dims) im u p := by
      intro u p hc hu
      induction hc with
      | @base p a b ha hb' hva hvb =>
        obtain ⟨hin, rfl⟩ := marker_at _ _ _ ha
        have hf : onFace im.dims p = true := by
          by_contra hf
          rw [if_neg hf] at hva
          exact absurd (lt_of_lt_of_le hu (show (⊤ : Px t) ≤ u from hva)) (lt_irrefl _)
        exact .base ((onFace_iff _ _).1 hf) hb' hvb
      | @step q p b hc hn hb' hvb ih => exact .step ih hn hb' hvb
    exact (key v p (IsBuild.at (α := (Px t)ᵒᵈ) hr hv).1 (lt_of_le_of_lt hvw hlt)).mono_level hvw
  · intro hfb
    have key : ∀ p, FromBorder (seRel se) (OnBorder im.dims) im w p →
        Carried (α := (Px t)ᵒᵈ) (seRel se) (holeMarker t im.dims) im w p := by
      intro p hp
      induction hp with
      | @base p a hB hf hle =>
        have hin := Img.at?_eq_some_in _ _ _ hf
        refine Carried.base (marker_at' im.dims p hin) hf ?_ hle
        rw [if_pos ((onFace_iff _ _).2 hB)]
        exact (bot_le : (⊥ : Px t) ≤ w)
      | step _ hn hf hle ih => exact Carried.step ih hn hf hle
    exact (IsBuild.at (α := (Px t)ᵒᵈ) hr hv).2 (key p hfb)

/-- **C37**: `fillHoles` is idempotent. -/
theorem C37_fillHoles_idempotent_partial (hs : t.signed = false) (hb : t.bits ≤ 64) {E' : Env (Px t)}
    {out' r' : Img (Px t)} (h : fillHoles E false se im out = some (.ok r))
    (h' : fillHoles E' false se r out' = some (.ok r')) : Img.Same r' r := by
  have hr := fillHoles_rel hs hb h
  have hr' := fillHoles_rel hs hb h'
  have hd : r.dims = im.dims := hr.2.1
  refine Img.Le.antisymm ?_ (C37_fillHoles_extensive_partial hs hb h')
  refine ⟨hr'.2.1, fun p u v hu hv => ?_⟩
  rcases eq_or_lt_of_le (le_top : v ≤ ⊤) with e | hlt
  · rw [e]; exact le_top
  · have hfb := fillHoles_reach hs hb h p v hv hlt
    have key : ∀ p, FromBorder (seRel se) (fun q => onFace im.dims q = true) r v p →
        Carried (α := (Px t)ᵒᵈ) (seRel se)
          (holeMarker t r.dims) r v p := by
      intro p hp
      induction hp with
      | @base p a hB hf hle =>
        have hin := Img.at?_eq_some_in _ _ _ hf
        refine Carried.base (marker_at' r.dims p hin) hf ?_ hle
        rw [hd, if_pos hB]
        exact (bot_le : (⊥ : Px t) ≤ v)
      | step _ hn hf hle ih => exact Carried.step ih hn hf hle
    exact (IsBuild.at (α := (Px t)ᵒᵈ) hr' hu).2 (key p hfb)

/-- **C37**: `fillHoles` is increasing. -/
theorem C37_fillHoles_increasing_partial (hs : t.signed = false) (hb : t.bits ≤ 64) {E' : Env (Px t)}
    {im' out' r' : Img (Px t)} (hle : Img.Le im im')
    (h : fillHoles E false se im out = some (.ok r))
    (h' : fillHoles E' false se im' out' = some (.ok r')) : Img.Le r r' := by
  have hr' := fillHoles_rel hs hb h'
  rw [← hle.1] at hr'
  exact Img.le_dual.mp (IsBuild.mono (α := (Px t)ᵒᵈ) (fun _ _ h => h) (Img.Le.refl _)
    ((Img.le_dual (α := Px t)).mpr hle) hr' (fillHoles_rel hs hb h))

end fill

section ropen
variable {E : Env (Px t)} {se : StrElt} {im out r : Img (Px t)}

theorem buildOpen_rel (hs : t.signed = false) (hb : t.bits ≤ 64) (hse : SEOk im.dims se)
    (h : buildOpen E false se im out = some (.ok r)) :
    ∃ m, IterRel (IsEroBy (seRel se)) se.size im m ∧ IsBuild (seRel se) m im r := by
  unfold buildOpen at h
  cases hc : checkSize E im out with
  | error c => rw [hc] at h; simp at h
  | ok o =>
    rw [hc] at h
    have hacc := (checkSize_ok_iff E im out o hc)
    obtain ⟨m, h1, h2⟩ := erode_spec E false se im ⟨im.dims, E.raw⟩ (accepts_of_dims E hacc.1.1 rfl) hse
    simp only [andThen, h1, Option.bind_some] at h
    exact ⟨m, h2, build_rel hs hb (iterEro_dims h2).symm h⟩

/-- A pixel whose `n`-step window stays at least at `v` carries `v` along every path of `k ≤ n`
steps. -/
theorem ero_window [LinearOrder α] {N : IntPoint → IntPoint → Prop} (hrefl : ∀ p, N p p) (n : Nat)
    {f m : Img α} (h : IterRel (IsEroBy N) n f m) {q p : IntPoint} {k : Nat} (hk : k ≤ n)
    (hp : pathRel f.dims N k q p) (hpin : Img.In f.dims p) {a b : α} (ha : m.at? q = some a)
    (hb : f.at? p = some b) : a ≤ b := by
  induction n generalizing f m q a k with
  | zero =>
    obtain rfl : k = 0 := by omega
    cases hp
    rw [← h.2] at ha
    rw [ha] at hb; cases hb; exact le_refl _
  | succ n ih =>
    obtain ⟨e, h1, h2⟩ := (IterRel.last isEroBy_respects n f m).mp h
    have hd : e.dims = f.dims := iterEro_dims h1
    have hq : Img.In e.dims q := h2.1 ▸ Img.at?_eq_some_in _ _ _ ha
    obtain ⟨a', ha', hg⟩ := h2.2 q hq
    rw [ha] at ha'; cases ha'
    cases k with
    | zero =>
      cases hp
      have he := Img.at?_some e p hq
      exact (hg.1 ⟨p, hrefl p, he⟩).trans (ih h1 (k := 0) (by omega) rfl hpin he hb)
    | succ k =>
      obtain ⟨s, hs, hn, hp⟩ := hp
      have he := Img.at?_some e s (hd ▸ hs)
      exact (hg.1 ⟨s, hn, he⟩).trans (ih h1 (k := k) (by omega) hp hpin he hb)

/-- A level below the whole `n`-step window is below the erosion. -/
theorem ero_glb [LinearOrder α] {N : IntPoint → IntPoint → Prop} (n : Nat) {f m : Img α}
    (h : IterRel (IsEroBy N) n f m) {q : IntPoint} {a u : α} (ha : m.at? q = some a)
    (hall : ∀ s b, pathRel f.dims N n q s → f.at? s = some b → u ≤ b) : u ≤ a := by
  induction n generalizing f m q a with
  | zero =>
    rw [← h.2] at ha
    exact hall q a rfl ha
  | succ n ih =>
    obtain ⟨e, h1, h2⟩ := (IterRel.last isEroBy_respects n f m).mp h
    obtain ⟨a', ha', hg⟩ := h2.2 q (h2.1 ▸ Img.at?_eq_some_in _ _ _ ha)
    rw [ha] at ha'; cases ha'
    refine hg.2 ?_
    rintro c ⟨s, hn, hc⟩
    refine ih h1 hc fun y b hy hb => hall y b ⟨s, ?_, hn, hy⟩ hb
    rw [← iterEro_dims h1]; exact Img.at?_eq_some_in _ _ _ hc

/-- … so the level is carried to the end of the path. -/
theorem window_carried [LinearOrder α] {N : IntPoint → IntPoint → Prop} {mk f : Img α} {v : α} (n : Nat)
    {q p : IntPoint} (hp : pathRel f.dims N n q p) (hq : Carried N mk f v q)
    (hall : ∀ k ≤ n, ∀ s b, pathRel f.dims N k q s → f.at? s = some b → v ≤ b) :
    Carried N mk f v p := by
  induction n generalizing q with
  | zero => cases hp; exact hq
  | succ n ih =>
    obtain ⟨s, hs, hn, hp⟩ := hp
    have hf := Img.at?_some f s hs
    refine ih hp (.step hq hn hf (hall 1 (by omega) s _ ⟨s, hs, hn, rfl⟩ hf)) fun k hk u b hu hb => ?_
    exact hall (k + 1) (by omega) u b ⟨s, hs, hn, hu⟩ hb

/-- **C37**: the opening by reconstruction is anti-extensive. -/
theorem C37_buildOpen_antiextensive_partial (hs : t.signed = false) (hb : t.bits ≤ 64)
    (hse : SEOk im.dims se) (h : buildOpen E false se im out = some (.ok r)) : Img.Le r im := by
  obtain ⟨m, _, h2⟩ := buildOpen_rel hs hb hse h
  exact h2.le_mask

/-- **C37**: it is increasing. -/
theorem C37_buildOpen_increasing_partial (hs : t.signed = false) (hb : t.bits ≤ 64)
    (hse : SEOk im.dims se) {E' : Env (Px t)} {im' out' r' : Img (Px t)} (hle : Img.Le im im')
    (h : buildOpen E false se im out = some (.ok r))
    (h' : buildOpen E' false se im' out' = some (.ok r')) : Img.Le r r' := by
  obtain ⟨m, h1, h2⟩ := buildOpen_rel hs hb hse h
  obtain ⟨m', h3, h4⟩ := buildOpen_rel hs hb (hle.1 ▸ hse) h'
  exact h2.mono (fun _ _ h => h) (ero_mono _ hle h1 h3) hle h4

/-- **C37**: it is above the opening, when the element contains its origin. -/
theorem C37_buildOpen_above_open_partial (hs : t.signed = false) (hb : t.bits ≤ 64)
    (hse : SEOk im.dims se) (h0 : ⟨0, 0, 0⟩ ∈ se.points) {E' : Env (Px t)} {i : Bool}
    {out' g : Img (Px t)} (h : buildOpen E false se im out = some (.ok r))
    (h' : morphOpen E' i se im out' = some (.ok g)) : Img.Le g r := by
  obtain ⟨m, h1, h2⟩ := buildOpen_rel hs hb hse h
  obtain ⟨m', h3, h4⟩ := open_rel hse h'
  have hmm : Img.Same m' m := IterRel.unique (fun _ _ _ _ hs a b => isEroBy_unique hs a b)
    (Img.Same.refl im) h3 h1
  have hdm : m'.dims = im.dims := iterEro_dims h3
  refine ⟨(iterDil_dims h4).trans (hdm.trans (h2.1.trans h2.2.1.symm)), fun p u v hu hv => ?_⟩
  have hd := iterDil_path _ _ _ _ h4
  have hp : Img.In m'.dims p := hd.1 ▸ Img.at?_eq_some_in _ _ _ hu
  obtain ⟨u', hu', hl⟩ := hd.2 p hp
  rw [hu] at hu'; cases hu'
  refine hl.2 ?_
  rintro w ⟨q, hq, hw⟩
  rw [hdm] at hq
  have hw' : m.at? q = some w := by rw [← hmm.2]; exact hw
  have hqin : Img.In im.dims q := hdm ▸ Img.at?_eq_some_in _ _ _ hw
  have hwin : ∀ k ≤ se.size, ∀ s b, pathRel im.dims (seRel se) k q s → im.at? s = some b → w ≤ b :=
    fun k hk s b hpath hb => ero_window (seRel_refl se h0) _ h1 hk hpath (Img.at?_eq_some_in _ _ _ hb)
      hw' hb
  refine (h2.at hv).2 (window_carried se.size hq (.base hw' (Img.at?_some im q hqin) (le_refl _) ?_) hwin)
  exact hwin 0 (by omega) q _ rfl (Img.at?_some im q hqin)

/-- **C37**: it is idempotent, when the element contains its origin. -/
theorem C37_buildOpen_idempotent_partial (hs : t.signed = false) (hb : t.bits ≤ 64)
    (hse : SEOk im.dims se) (h0 : ⟨0, 0, 0⟩ ∈ se.points) {E' : Env (Px t)} {out' r' : Img (Px t)}
    (h : buildOpen E false se im out = some (.ok r))
    (h' : buildOpen E' false se r out' = some (.ok r')) : Img.Same r' r := by
  obtain ⟨m, h1, h2⟩ := buildOpen_rel hs hb hse h
  have hdm : m.dims = im.dims := iterEro_dims h1
  have hdr : r.dims = im.dims := h2.2.1.trans hdm
  have hse' : SEOk r.dims se := hdr.symm ▸ hse
  obtain ⟨m', h3, h4⟩ := buildOpen_rel hs hb hse' h'
  refine Img.Le.antisymm h4.le_mask ⟨(h4.2.1.trans (iterEro_dims h3)).symm, fun p u v hu hv => ?_⟩
  -- every level carried in `im` from the erosion is carried in `r` from its erosion
  have key : ∀ p, Carried (seRel se) m im u p → Carried (seRel se) m' r u p := by
    intro p hc
    induction hc with
    | @base q a b ha hb' hva hvb =>
      have hqin : Img.In im.dims q := Img.at?_eq_some_in _ _ _ hb'
      have hrq := Img.at?_some r q (hdr.symm ▸ hqin)
      have hmq := Img.at?_some m' q (by rw [iterEro_dims h3, hdr]; exact hqin)
      refine .base hmq hrq ?_ ((h2.at hrq).2 (.base ha hb' hva hvb))
      refine ero_glb _ h3 hmq fun s c hpath hc => ?_
      rw [hdr] at hpath
      refine (h2.at hc).2 (window_carried se.size hpath (.base ha hb' hva hvb) fun k hk y d hy hd => ?_)
      exact hva.trans (ero_window (seRel_refl se h0) _ h1 hk hy (Img.at?_eq_some_in _ _ _ hd) ha hd)
    | @step q p b hc hn hb' hvb ih =>
      have hin : Img.In im.dims p := Img.at?_eq_some_in _ _ _ hb'
      have hrp := Img.at?_some r p (hdr.symm ▸ hin)
      exact .step ih hn hrp ((h2.at hrp).2 (Carried.step hc hn hb' hvb))
  exact (h4.at hv).2 (key p (h2.at hu).1)

/-- **C37**: the closing by reconstruction is extensive and below the closing's bound: it is the dual
reconstruction of the image from its dilation. -/
theorem C37_buildClose_partial (hs : t.signed = false) (hb : t.bits ≤ 64) (hse : SEOk im.dims se)
    (h : buildClose E false se im out = some (.ok r)) :
    Img.Le im r ∧ ∃ m, IterRel (IsDilBy (seRel se)) se.size im m ∧ IsDualBuild (seRel se) m im r := by
  unfold buildClose at h
  cases hc : checkSize E im out with
  | error c => rw [hc] at h; simp at h
  | ok o =>
    rw [hc] at h
    have hacc := (checkSize_ok_iff E im out o hc)
    obtain ⟨m, h1, h2⟩ := dilate_spec E false se im ⟨im.dims, E.raw⟩ (accepts_of_dims E hacc.1.1 rfl) hse
    simp only [andThen, h1, Option.bind_some] at h
    have hr := dualBuild_rel hs hb (iterDil_dims h2).symm h
    exact ⟨Img.le_dual.mp (IsBuild.le_mask (α := (Px t)ᵒᵈ) hr), m, h2, hr⟩

/-- **C37**: the h-reconstruction lies between the lowered image and the image, and is the
reconstruction of the image from the lowered one. -/
theorem C37_hBuild_partial (hs : t.signed = false) (hb : t.bits ≤ 64) (E : Env (Px t)) (se : StrElt)
    (k : Px t) (im out : Img (Px t)) (h : Accepts E im out) :
    ∃ m r, hBuild E false se k im out = some (.ok r) ∧ IsBuild (seRel se) m im r ∧
      (∀ p a, im.at? p = some a → ∃ b, m.at? p = some b ∧ b.val = clampSpec t.lo t.hi (a.val - k.val)) ∧
      Img.Le m r ∧ Img.Le r im := by
  obtain ⟨o, ho, hd⟩ := checkSize_ok E im out h
  obtain ⟨m, hm⟩ := Img.mapK_total (fun a => kSub a k) im (fun p u _ => by
    obtain ⟨r, h1, _⟩ := C06_sub_unsigned hs u k; rw [h1]; rfl)
  obtain ⟨hmd, hmv⟩ := Img.mapK_some _ _ _ hm
  have hma := alloc_of_dims hmd h.1
  obtain ⟨b, h1, h2⟩ := build_spec hs hb E se m im m ⟨hma, hma, hmd.symm, Or.inl rfl⟩
  have hval : ∀ p a, im.at? p = some a → ∃ b, m.at? p = some b ∧
      b.val = clampSpec t.lo t.hi (a.val - k.val) := by
    intro p a ha
    obtain ⟨v, hv, hv'⟩ := hmv p a ha
    obtain ⟨v', e1, e2⟩ := C06_sub_unsigned hs a k
    rw [hv] at e1; cases e1
    exact ⟨v, hv', e2⟩
  refine ⟨m, b, ?_, h2, hval, ?_, h2.le_mask⟩
  · unfold hBuild
    rw [ho]
    simp only [protectedInput, Bool.false_eq_true, if_false, hm, Option.bind_some, h1]
  · refine ⟨h2.2.1.symm, fun p u v hu hv => ?_⟩
    have ha := Img.at?_some im p (hmd ▸ Img.at?_eq_some_in _ _ _ hu)
    refine (h2.at hv).2 (.base hu ha (le_refl _) ?_)
    obtain ⟨w, hw, e⟩ := hval p _ ha
    rw [hu] at hw; cases hw
    rw [Px.le_iff, e]
    generalize im.px p.x.toNat p.y.toNat p.z.toNat = a at *
    have := a.lo_le; have := a.le_hi; have := k.lo_le
    have h0 := lo_unsigned hs
    unfold clampSpec; split_ifs <;> omega

end ropen

/-! ## C38 -/

/-- `q` is linked to `p` by steps of `N` through pixels of value `c`. -/
inductive Plateau (N : IntPoint → IntPoint → Prop) (f : Img α) (c : α) (p : IntPoint) : IntPoint → Prop
  | refl : f.at? p = some c → Plateau N f c p p
  | cons {q s} : N q s → f.at? q = some c → Plateau N f c p s → Plateau N f c p q

/-- `p` belongs to a regional maximum: no pixel of its plateau has a higher neighbour. -/
def IsRegMax [LE α] (N : IntPoint → IntPoint → Prop) (f : Img α) (p : IntPoint) : Prop :=
  ∃ c, f.at? p = some c ∧ ∀ q, Plateau N f c p q → ∀ s a, N s q → f.at? s = some a → a ≤ c

/-- `p` belongs to a regional minimum: no pixel of its plateau has a lower neighbour. -/
def IsRegMin [LE α] (N : IntPoint → IntPoint → Prop) (f : Img α) (p : IntPoint) : Prop :=
  ∃ c, f.at? p = some c ∧ ∀ q, Plateau N f c p q → ∀ s a, N s q → f.at? s = some a → c ≤ a

section extrema

theorem plateau_carried [LinearOrder α] {N : IntPoint → IntPoint → Prop} {mk f : Img α} {c : α}
    {p q : IntPoint} (h : Plateau N f c p q) (hc : Carried N mk f c q) : Carried N mk f c p := by
  induction h with
  | refl _ => exact hc
  | @cons q s hn hq hs ih =>
    have hfs : f.at? s = some c := by cases hs <;> assumption
    exact ih (.step hc hn hfs (le_refl _))

/-- Lowering by one step and reconstructing lowers exactly the regional maxima. -/
theorem regMax_of_build [LinearOrder α] [OrderBot α] {N : IntPoint → IntPoint → Prop}
    {dec : α → α} (h1 : ∀ v a, v < a → v ≤ dec a) (h2 : ∀ a, a ≤ dec a → a = ⊥) {mk f r : Img α}
    (hm : Img.IsMap dec f mk) (hr : IsBuild N mk f r) {p : IntPoint} {c u : α}
    (hc : f.at? p = some c) (hu : r.at? p = some u) : u < c ↔ IsRegMax N f p ∧ c ≠ ⊥ := by
  constructor
  · intro hlt
    refine ⟨⟨c, hc, fun q hq s a hn ha => ?_⟩, fun e => not_lt_bot (e ▸ hlt)⟩
    by_contra hna
    have hca : c < a := not_le.mp hna
    have hfq : f.at? q = some c := by cases hq <;> assumption
    have : Carried N mk f c p := plateau_carried hq
      (.step (.base (hm.2 _ _ ha) ha (h1 _ _ hca) hca.le) hn hfq (le_refl _))
    exact absurd ((hr.at hu).2 this) (not_le.mpr hlt)
  · rintro ⟨⟨c', hc', hreg⟩, hbot⟩
    rw [hc] at hc'; cases hc'
    by_contra hnlt
    have hcar : Carried N mk f c p := (hr.at hu).1.mono_level (not_lt.mp hnlt)
    have key : ∀ q, Carried N mk f c q → ¬ Plateau N f c p q := by
      intro q hq
      induction hq with
      | @base q a b ha hb hva hvb =>
        intro hpl
        have hfq : f.at? q = some c := by cases hpl <;> assumption
        have := hm.2 _ _ hfq
        rw [ha] at this; cases this
        exact hbot (h2 c hva)
      | @step q s b hq hn hb hvb ih =>
        intro hpl
        obtain ⟨d, hd, hle⟩ := hq.mask
        have hdc := hreg s hpl q d hn hd
        have : d = c := le_antisymm hdc hle
        subst this
        exact ih (.cons hn hd hpl)
    exact key p hcar (.refl hc)

variable {E : Env (Px t)} {se : StrElt} {im out r : Img (Px t)}

theorem wrap_one (hs : t.signed = false) (hb : 1 ≤ t.bits) : (t.wrap 1).val = 1 := by
  apply t.wrap_of_mem
  · rw [lo_unsigned hs]; omega
  · unfold PT.hi
    rw [hs]
    have := Nat.pow_le_pow_right (n := 2) (by norm_num) hb
    simp only [Bool.false_eq_true, if_false]
    omega

/-- The step used by `minima`: the saturated addition of one. -/
theorem add_one (hs : t.signed = false) (hb : 1 ≤ t.bits) (a : Px t) :
    ∃ r, kAdd a (t.wrap 1) = some r ∧ (∀ v, a < v → r ≤ v) ∧ (r ≤ a → a = ⊤) := by
  obtain ⟨r, h1, h2⟩ := C06_add_unsigned hs a (t.wrap 1)
  rw [wrap_one hs hb] at h2
  refine ⟨r, h1, fun v hv => ?_, fun h => ?_⟩
  · rw [Px.lt_iff] at hv
    rw [Px.le_iff, h2]
    have := v.le_hi; have := a.lo_le
    unfold clampSpec; split_ifs <;> omega
  · rw [Px.le_iff, h2] at h
    apply Px.ext
    rw [Px.top_val]
    have := a.le_hi; have := a.lo_le
    unfold clampSpec at h; split_ifs at h <;> omega

theorem sub_one (hs : t.signed = false) (hb : 1 ≤ t.bits) (a : Px t) :
    ∃ r, kSub a (t.wrap 1) = some r ∧ (∀ v, v < a → v ≤ r) ∧ (a ≤ r → a = ⊥) := by
  obtain ⟨r, h1, h2⟩ := C06_sub_unsigned hs a (t.wrap 1)
  rw [wrap_one hs hb] at h2
  refine ⟨r, h1, fun v hv => ?_, fun h => ?_⟩
  · rw [Px.lt_iff] at hv
    rw [Px.le_iff, h2]
    have := v.lo_le; have := a.le_hi
    unfold clampSpec; split_ifs <;> omega
  · rw [Px.le_iff, h2] at h
    apply Px.ext
    rw [Px.bot_val]
    have := a.le_hi; have := a.lo_le
    unfold clampSpec at h; split_ifs at h <;> omega

/-- **C38** (partial: unsigned types, and regional minima at the maximum of the type are not marked):
`minima` into another image is the maximum of the type exactly on the regional minima below the
maximum, and 0 elsewhere. -/
theorem C38_minima_partial (hs : t.signed = false) (hb1 : 1 ≤ t.bits) (hb : t.bits ≤ 64)
    (E : Env (Px t)) (se : StrElt) (im out : Img (Px t)) (h : Accepts E im out) :
    ∃ r, minima E false se im out = some (.ok r) ∧ r.dims = im.dims ∧
      ∀ p c, im.at? p = some c →
        (IsRegMin (seRel se) im p ∧ c ≠ ⊤ → r.at? p = some ⊤) ∧
        (¬ (IsRegMin (seRel se) im p ∧ c ≠ ⊤) → r.at? p = some Px.zero) := by
  obtain ⟨o, ho, hd⟩ := checkSize_ok E im out h
  obtain ⟨m, hm⟩ := Img.mapK_total (fun a => kAdd a (t.wrap 1)) im (fun p u _ => by
    obtain ⟨r, h1, _⟩ := add_one hs hb1 u; rw [h1]; rfl)
  obtain ⟨hmd, hmv⟩ := Img.mapK_some _ _ _ hm
  have hma := alloc_of_dims hmd h.1
  obtain ⟨b, h1, h2⟩ := dualBuild_spec hs hb E se m im m ⟨hma, hma, hmd.symm, Or.inl rfl⟩
  have hbd : b.dims = im.dims := h2.2.1.trans hmd
  refine ⟨Img.zipF kLow im b, ?_, rfl, fun p c hc => ?_⟩
  · unfold minima
    rw [ho]
    simp only [protectedInput, Bool.false_eq_true, if_false, hm, Option.bind_some, andThen, h1]
  · have hu := Img.at?_some b p (hbd.symm ▸ Img.at?_eq_some_in _ _ _ hc)
    rw [(zipF_map2 kLow hbd).2.2 p _ _ hc hu]
    have hmap : Img.IsMap (fun a => (kAdd a (t.wrap 1)).getD ⊥) im m :=
      ⟨hmd, fun p u hu => by
        obtain ⟨v, hv, hv'⟩ := hmv p u hu
        rw [hv']
        show some v = some ((kAdd u (t.wrap 1)).getD ⊥)
        rw [hv]; rfl⟩
    have key := regMax_of_build (α := (Px t)ᵒᵈ) (N := seRel se)
      (dec := fun a => (kAdd (t := t) a (t.wrap 1)).getD ⊥)
      (fun v a hva => by
        obtain ⟨r, e, e1, _⟩ := add_one hs hb1 a
        show (kAdd (t := t) a (t.wrap 1)).getD ⊥ ≤ (show Px t from v)
        rw [e]; exact e1 _ hva)
      (fun a ha => by
        obtain ⟨r, e, _, e2⟩ := add_one hs hb1 a
        have ha' : (kAdd (t := t) a (t.wrap 1)).getD ⊥ ≤ (show Px t from a) := ha
        rw [e] at ha'; exact e2 ha') hmap h2 hc hu
    generalize b.px p.x.toNat p.y.toNat p.z.toNat = u at *
    have key' : c < u ↔ IsRegMin (seRel se) im p ∧ c ≠ ⊤ := key
    unfold kLow
    refine ⟨fun hh => by rw [if_pos (key'.mpr hh)], fun hh => by rw [if_neg (fun e => hh (key'.mp e))]⟩

/-- **C38**, maxima (partial: unsigned types, and regional maxima at 0 are not marked). -/
theorem C38_maxima_partial (hs : t.signed = false) (hb1 : 1 ≤ t.bits) (hb : t.bits ≤ 64)
    (E : Env (Px t)) (se : StrElt) (im out : Img (Px t)) (h : Accepts E im out) :
    ∃ r, maxima E false se im out = some (.ok r) ∧ r.dims = im.dims ∧
      ∀ p c, im.at? p = some c →
        (IsRegMax (seRel se) im p ∧ c ≠ ⊥ → r.at? p = some ⊤) ∧
        (¬ (IsRegMax (seRel se) im p ∧ c ≠ ⊥) → r.at? p = some Px.zero) := by
  obtain ⟨o, ho, hd⟩ := checkSize_ok E im out h
  obtain ⟨m, hm⟩ := Img.mapK_total (fun a => kSub a (t.wrap 1)) im (fun p u _ => by
    obtain ⟨r, h1, _⟩ := sub_one hs hb1 u; rw [h1]; rfl)
  obtain ⟨hmd, hmv⟩ := Img.mapK_some _ _ _ hm
  have hma := alloc_of_dims hmd h.1
  obtain ⟨b, h1, h2⟩ := build_spec hs hb E se m im m ⟨hma, hma, hmd.symm, Or.inl rfl⟩
  have hbd : b.dims = im.dims := h2.2.1.trans hmd
  refine ⟨Img.zipF kGrt im b, ?_, rfl, fun p c hc => ?_⟩
  · unfold maxima
    rw [ho]
    simp only [protectedInput, Bool.false_eq_true, if_false, hm, Option.bind_some, andThen, h1]
  · have hu := Img.at?_some b p (hbd.symm ▸ Img.at?_eq_some_in _ _ _ hc)
    rw [(zipF_map2 kGrt hbd).2.2 p _ _ hc hu]
    have hmap : Img.IsMap (fun a => (kSub a (t.wrap 1)).getD ⊥) im m :=
      ⟨hmd, fun p u hu => by
        obtain ⟨v, hv, hv'⟩ := hmv p u hu
        rw [hv']
        show some v = some ((kSub u (t.wrap 1)).getD ⊥)
        rw [hv]; rfl⟩
    have key := regMax_of_build (N := seRel se) (dec := fun a => (kSub (t := t) a (t.wrap 1)).getD ⊥)
      (fun v a hva => by
        obtain ⟨r, e, e1, _⟩ := sub_one hs hb1 a
        simp only [e]; exact e1 _ hva)
      (fun a ha => by
        obtain ⟨r, e, _, e2⟩ := sub_one hs hb1 a
        simp only [e] at ha; exact e2 ha) hmap h2 hc hu
    unfold kGrt
    refine ⟨fun hh => by rw [if_pos (key.mpr hh)], fun hh => by rw [if_neg (fun e => hh (key.mp e))]⟩

end extrema

/-! ## Failures of the code -/

/-- Small images of bytes. -/
def im8 (D : Dims) (l : List Nat) : Img (Px UINT8) := ⟨D, fun i => UINT8.wrap (l.getD i 0)⟩

/-- The pixels of a result. -/
def vals8 : Option (Except Int (Img (Px UINT8))) → List Int
  | some (.ok r) => (List.range r.dims.count).map fun i => (r.buf i).val
  | _ => []

/-- **C38 fails** at saturated values: in a constant image at the maximum every pixel belongs to a
regional minimum, but none is marked. -/
theorem C38_saturated_bug :
    IsRegMin (seRel (SquSE 1)) (im8 ⟨2, 2, 1⟩ [255, 255, 255, 255]) ⟨0, 0, 0⟩ ∧
    vals8 (minima exEnv8 false (SquSE 1) (im8 ⟨2, 2, 1⟩ [255, 255, 255, 255])
      (im8 ⟨2, 2, 1⟩ [])) = [0, 0, 0, 0] := by
  refine ⟨⟨⊤, by decide, fun q _ s a _ ha => ?_⟩, by decide +kernel⟩
  obtain ⟨i, hi, rfl, _⟩ := Img.at?_buf _ _ _ ha
  have hi' : i < 4 := hi
  have : ∀ i < 4, (⊤ : Px UINT8) ≤ (im8 ⟨2, 2, 1⟩ [255, 255, 255, 255]).buf i := by decide
  exact this i hi'

/-- **C38 fails** in place: the result depends only on uninitialised memory. -/
theorem C38_inplace_bug (E : Env (Px t)) (se : StrElt) (a b : Img (Px t)) (hd : a.dims = b.dims) :
    minima E true se a a = minima E true se b b ∧ maxima E true se a a = maxima E true se b b := by
  have hc : ∀ (c : Img (Px t)), checkSize E c c =
      if c.alloc = false then .error errBadAllocation else .ok c := by
    intro c; unfold checkSize; by_cases h : c.alloc = false <;> simp [h]
  have ha : a.alloc = b.alloc := by unfold Img.alloc; rw [hd]
  constructor
  · unfold minima
    rw [hc, hc, ha]
    by_cases h : b.alloc = false
    · simp [h]
    · rw [if_neg h, if_neg h]
      simp only [protectedInput, if_true, hd]
  · unfold maxima
    rw [hc, hc, ha]
    by_cases h : b.alloc = false
    · simp [h]
    · rw [if_neg h, if_neg h]
      simp only [protectedInput, if_true, hd]

/-- **C37 fails** for `hBuild` and `hDualBuild` in place, for the same reason. -/
theorem C37_hBuild_inplace_bug (E : Env (Px t)) (se : StrElt) (k : Px t) (a b : Img (Px t))
    (hd : a.dims = b.dims) :
    hBuild E true se k a a = hBuild E true se k b b ∧
      hDualBuild E true se k a a = hDualBuild E true se k b b := by
  have hc : ∀ (c : Img (Px t)), checkSize E c c =
      if c.alloc = false then .error errBadAllocation else .ok c := by
    intro c; unfold checkSize; by_cases h : c.alloc = false <;> simp [h]
  have ha : a.alloc = b.alloc := by unfold Img.alloc; rw [hd]
  constructor
  · unfold hBuild
    rw [hc, hc, ha]
    by_cases h : b.alloc = false
    · simp [h]
    · rw [if_neg h, if_neg h]
      simp only [protectedInput, if_true, hd]
  · unfold hDualBuild
    rw [hc, hc, ha]
    by_cases h : b.alloc = false
    · simp [h]
    · rw [if_neg h, if_neg h]
      simp only [protectedInput, if_true, hd]

/-- A 3×3 image without hole. -/
def exFlat : Img (Px UINT8) := im8 ⟨3, 3, 1⟩ [0, 0, 0, 0, 0, 0, 0, 0, 0]

/-- **C37 fails** for `fillHoles` in place: the supremum of marker and mask overwrites the mask, and an
image without any hole is filled with the maximum. -/
theorem C37_fillHoles_inplace_bug :
    vals8 (fillHoles exEnv8 false (SquSE 1) exFlat exFlat) = [0, 0, 0, 0, 0, 0, 0, 0, 0] ∧
    vals8 (fillHoles exEnv8 true (SquSE 1) exFlat exFlat) = [0, 0, 0, 0, 255, 0, 0, 0, 0] := by
  decide +kernel

/-- **C37 fails** for `buildOpen` in place: it returns the erosion. -/
theorem C37_buildOpen_inplace_bug :
    vals8 (buildOpen exEnv8 false exSe (im8 ⟨4, 1, 1⟩ [9, 9, 9, 1]) (im8 ⟨4, 1, 1⟩ [])) = [9, 9, 9, 1] ∧
    vals8 (buildOpen exEnv8 true exSe (im8 ⟨4, 1, 1⟩ [9, 9, 9, 1]) (im8 ⟨4, 1, 1⟩ [])) = [9, 9, 1, 1] := by
  decide +kernel

/-- **C35 fails** for elements of size 2: `geoBuild` jumps over a gap of the mask, `build` does not. -/
theorem C35_size_bug :
    let se : StrElt := ⟨false, .generic, 2, [⟨-1, 0, 0⟩, ⟨0, 0, 0⟩, ⟨1, 0, 0⟩]⟩
    let mk := im8 ⟨3, 1, 1⟩ [9, 0, 0]
    let ms := im8 ⟨3, 1, 1⟩ [9, 0, 9]
    vals8 (build exEnv8 false se mk ms mk) = [9, 0, 0] ∧
    vals8 (geoBuild exEnv8 se 9 mk ms mk) = [9, 0, 9] := by
  decide +kernel

/-! ## Examples -/

example : vals8 (build exEnv8 false (SquSE 1) (im8 ⟨3, 2, 1⟩ [7, 0, 0, 0, 0, 0])
    (im8 ⟨3, 2, 1⟩ [5, 4, 9, 1, 2, 6]) (im8 ⟨3, 2, 1⟩ [])) = [5, 4, 4, 1, 2, 4] := by decide +kernel

example : vals8 (dualBuild exEnv8 false (SquSE 1) (im8 ⟨3, 2, 1⟩ [1, 9, 9, 9, 9, 9])
    (im8 ⟨3, 2, 1⟩ [0, 4, 2, 1, 7, 6]) (im8 ⟨3, 2, 1⟩ [])) = [1, 4, 4, 1, 7, 6] := by decide +kernel

example : vals8 (build exEnv8 false (SquSE 1) (im8 ⟨4, 1, 1⟩ [0, 255, 0, 0])
    (im8 ⟨4, 1, 1⟩ [255, 255, 0, 255]) (im8 ⟨4, 1, 1⟩ [])) = [255, 255, 0, 0] := by decide +kernel

example : vals8 (fillHoles exEnv8 false (SquSE 1) (im8 ⟨4, 3, 1⟩ [5, 5, 5, 5, 5, 1, 3, 5, 5, 4, 5, 5])
    (im8 ⟨4, 3, 1⟩ [])) = [5, 5, 5, 5, 5, 4, 4, 5, 5, 4, 5, 5] := by decide +kernel

example : vals8 (minima exEnv8 false (SquSE 1) (im8 ⟨4, 1, 1⟩ [3, 3, 5, 4]) (im8 ⟨4, 1, 1⟩ [])) =
    [255, 255, 0, 255] := by decide +kernel

example : vals8 (maxima exEnv8 false (SquSE 1) (im8 ⟨4, 1, 1⟩ [3, 3, 5, 4]) (im8 ⟨4, 1, 1⟩ [])) =
    [0, 0, 255, 0] := by decide +kernel

/-- The hypotheses of the theorems above are met by the square element on a 3×2 image of bytes. -/
example : UINT8.signed = false ∧ 1 ≤ UINT8.bits ∧ UINT8.bits ≤ 64 ∧
    Accepts3 exEnv8 (im8 ⟨3, 2, 1⟩ []) (im8 ⟨3, 2, 1⟩ []) (im8 ⟨3, 2, 1⟩ []) ∧
    Accepts exEnv8 (im8 ⟨3, 2, 1⟩ []) (im8 ⟨3, 2, 1⟩ []) ∧
    (⟨0, 0, 0⟩ : IntPoint) ∈ (SquSE 1).points ∧ seOk ⟨3, 2, 1⟩ (SquSE 1) = true := by
  refine ⟨rfl, by decide, by decide, ⟨by decide, by decide, rfl, Or.inl rfl⟩,
    ⟨by decide, by decide, Or.inl rfl⟩, by decide, by decide⟩

end Smil
