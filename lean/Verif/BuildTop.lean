import Verif.BuildSpec
import Mathlib.Data.Set.Finite.Range
import Mathlib.Data.Fintype.Basic
import Mathlib.Order.Preorder.Finite

/-! # What the reconstruction entry points compute -/

namespace Smil
open StrElt
variable {α : Type} {t : PT}

theorem zipF_map2 {β γ : Type} (F : α → β → γ) {a : Img α} {b : Img β} (h : b.dims = a.dims) :
    Img.IsMap2 F a b (Img.zipF F a b) := by
  refine ⟨rfl, h, fun p u v hu hv => ?_⟩
  have hin := Img.at?_eq_some_in _ _ _ hu
  have e1 := a.buf_offOf p hin
  have e2 := b.buf_offOf p (h.symm ▸ hin)
  have e3 := (Img.zipF F a b).buf_offOf p hin
  rw [h] at e2
  rw [hu] at e1; rw [hv] at e2
  cases e1; cases e2
  exact e3

/-- The three images pass the checks and the mask has the size of the marker. -/
def Accepts3 (E : Env α) (im ms out : Img α) : Prop :=
  im.alloc = true ∧ out.alloc = true ∧ ms.dims = im.dims ∧ (out.dims = im.dims ∨ E.auto = true)

theorem checkSize3_ok {E : Env α} {im ms out : Img α} (h : Accepts3 E im ms out) :
    checkSize3 E im ms out = .ok ms := by
  obtain ⟨h1, h2, h3, h4⟩ := h
  have h5 : ms.alloc = true := by unfold Img.alloc at *; rw [h3]; exact h1
  unfold checkSize3
  rw [if_neg (by rw [h1, h2, h5]; simp)]
  by_cases hd : out.dims = im.dims
  · rw [if_pos ⟨h3, hd⟩]
  · rw [if_neg (fun h => hd h.2), if_pos (by simpa [hd] using h4), if_pos h3]

theorem checkSize3_ok_iff {E : Env α} {im ms out m : Img α} (h : checkSize3 E im ms out = .ok m)
    (hm : ms.dims = im.dims) : Accepts3 E im ms out := by
  unfold checkSize3 at h
  split at h
  · cases h
  · rename_i h1
    simp only [not_or, Bool.not_eq_false] at h1
    refine ⟨h1.1, h1.2.2, hm, ?_⟩
    split at h
    · rename_i h2; exact Or.inl h2.2
    · split at h
      · exact Or.inr (by assumption)
      · cases h

theorem cfg_ok (hs : t.signed = false) (hb : t.bits ≤ 64) (se : StrElt) (D : Dims) (m : Nat → Px t) :
    (⟨hqParam t true, hqLevel, min, m, nbOffsets D se, false⟩ : BuildCfg (Px t)).Ok D.count where
  P := hqParam_ok t true hs hb
  lev := hqLevel_lt true
  ord := fun a b => by
    show better true _ _ ↔ _
    rw [better_true]; exact hqLevel_lt_iff b a
  oper := rfl
  nbs := fun _ hi _ hj => nbOffsets_lt hi hj
  shared := rfl

theorem cfg_ok_dual (hs : t.signed = false) (hb : t.bits ≤ 64) (se : StrElt) (D : Dims)
    (m : Nat → Px t) :
    BuildCfg.Ok (α := (Px t)ᵒᵈ)
      (⟨hqParam t false, hqLevel, max, m, nbOffsets D se, false⟩ : BuildCfg (Px t)) D.count where
  P := hqParam_ok t false hs hb
  lev := hqLevel_lt (t := t) false
  ord := fun a b => by
    show better false _ _ ↔ _
    rw [better_false]; exact hqLevel_lt_iff (t := t) a b
  oper := rfl
  nbs := fun _ hi _ hj => nbOffsets_lt hi hj
  shared := rfl

theorem zero_eq_bot (hs : t.signed = false) : (Px.zero : Px t) = ⊥ := by
  apply Px.ext
  rw [Px.bot_val, lo_unsigned hs]; rfl

theorem build_spec (hs : t.signed = false) (hb : t.bits ≤ 64) (E : Env (Px t)) (se : StrElt)
    (im ms out : Img (Px t)) (h : Accepts3 E im ms out) :
    ∃ r, build E false se im ms out = some (.ok r) ∧ IsBuild (seRel se) im ms r := by
  have hc := checkSize3_ok h
  have hok := cfg_ok hs hb se im.dims ms.buf
  unfold build
  split
  · unfold binBuild
    rw [hc]
    simp only
    obtain ⟨s, h1, h2⟩ := buildRun_spec hok (fun v => decide (v ≠ ⊥))
      (fun i => min (im.buf i) (ms.buf i))
      (fun i => if (if false = true then min (im.buf i) (ms.buf i) else ms.buf i) ≠ Px.zero then
        HQStat.candidate else .final) (fun p _ => min_le_right _ _) (fun v hv => by simpa using hv)
      (fun p _ => by
        by_cases hz : ms.buf p = Px.zero
        · right
          refine ⟨by simp [hz], by rw [zero_eq_bot hs] at hz; exact hz, by simp⟩
        · left; simp [hz])
    refine ⟨⟨im.dims, s.val⟩, by rw [h1]; rfl, ?_⟩
    exact isBuild_of_run h.2.2.1 (fun _ _ => rfl) h2
  · rw [hc]
    simp only
    obtain ⟨s, h1, h2⟩ := buildRun_spec hok (fun _ => true) (fun i => min (im.buf i) (ms.buf i))
      (fun _ => .candidate) (fun p _ => min_le_right _ _) (fun _ _ => rfl) (fun _ _ => Or.inl rfl)
    refine ⟨⟨im.dims, s.val⟩, by rw [h1]; rfl, ?_⟩
    exact isBuild_of_run h.2.2.1 (fun _ _ => rfl) h2

theorem dualBuild_spec (hs : t.signed = false) (hb : t.bits ≤ 64) (E : Env (Px t)) (se : StrElt)
    (im ms out : Img (Px t)) (h : Accepts3 E im ms out) :
    ∃ r, dualBuild E false se im ms out = some (.ok r) ∧ IsDualBuild (seRel se) im ms r := by
  have hc := checkSize3_ok h
  have hok := cfg_ok_dual hs hb se im.dims ms.buf
  unfold dualBuild
  rw [hc]
  simp only
  have hle : ∀ p, ms.buf p ≤ max (im.buf p) (ms.buf p) := fun p => le_max_right _ _
  generalize hval : (fun i => max (im.buf i) (ms.buf i)) = val
  have hle' : ∀ p, ms.buf p ≤ val p := by intro p; rw [← hval]; exact hle p
  obtain ⟨s, h1, h2⟩ := buildRun_spec (α := (Px t)ᵒᵈ) hok (fun _ => true)
    val (fun _ => .candidate)
    (fun p _ => hle' p) (fun _ _ => rfl) (fun _ _ => Or.inl rfl)
  refine ⟨⟨im.dims, s.val⟩, (congrArg (Option.map _) h1 :), ?_⟩
  exact isBuild_of_run (α := (Px t)ᵒᵈ) (mk := im) (ms := ms) h.2.2.1
    (fun i _ => (congrFun hval i).symm) h2

theorem accepts_of_build {E : Env (Px t)} {se : StrElt} {im ms out r : Img (Px t)} {b : Bool}
    (hm : ms.dims = im.dims) (h : build E b se im ms out = some (.ok r)) : Accepts3 E im ms out := by
  cases hc : checkSize3 E im ms out with
  | ok m => exact checkSize3_ok_iff hc hm
  | error c =>
    unfold build binBuild at h
    rw [hc] at h
    split at h <;> simp at h

theorem accepts_of_dualBuild {E : Env (Px t)} {se : StrElt} {im ms out r : Img (Px t)} {b : Bool}
    (hm : ms.dims = im.dims) (h : dualBuild E b se im ms out = some (.ok r)) :
    Accepts3 E im ms out := by
  cases hc : checkSize3 E im ms out with
  | ok m => exact checkSize3_ok_iff hc hm
  | error c =>
    unfold dualBuild at h
    rw [hc] at h
    simp at h

theorem build_rel (hs : t.signed = false) (hb : t.bits ≤ 64) {E : Env (Px t)} {se : StrElt}
    {im ms out r : Img (Px t)} (hm : ms.dims = im.dims)
    (h : build E false se im ms out = some (.ok r)) : IsBuild (seRel se) im ms r := by
  obtain ⟨r', h1, h2⟩ := build_spec hs hb E se im ms out (accepts_of_build hm h)
  rw [h] at h1; cases h1; exact h2

theorem dualBuild_rel (hs : t.signed = false) (hb : t.bits ≤ 64) {E : Env (Px t)} {se : StrElt}
    {im ms out r : Img (Px t)} (hm : ms.dims = im.dims)
    (h : dualBuild E false se im ms out = some (.ok r)) : IsDualBuild (seRel se) im ms r := by
  obtain ⟨r', h1, h2⟩ := dualBuild_spec hs hb E se im ms out (accepts_of_dualBuild hm h)
  rw [h] at h1; cases h1; exact h2

/-! ### The iterated geodesic dilation -/

section geo
variable [LinearOrder α] {M : IntPoint → IntPoint → Prop}

/-- A measure that detects changes of an increasing sequence of images. -/
structure VolOk (vol g : Img α → Int) : Prop where
  mono : ∀ a b, Img.Le a b → g a ≤ g b
  same : ∀ a b, Img.Le a b → g a = g b → Img.Same a b
  iff : ∀ a b, vol a = vol b ↔ g a = g b

structure GeoInv (M : IntPoint → IntPoint → Prop) (mk ms a : Img α) : Prop where
  dims : a.dims = mk.dims
  lo : ∀ p u v w, mk.at? p = some u → ms.at? p = some v → a.at? p = some w → min u v ≤ w
  hi : Img.Le a ms
  sound : ∀ p v, a.at? p = some v → Carried M mk ms v p

theorem geo_step {mk ms a d : Img α} (hm : ms.dims = mk.dims) (hr : ∀ p, Img.In mk.dims p → M p p)
    (h : GeoInv M mk ms a) (hd : IsDilBy M a d) :
    GeoInv M mk ms (Img.zipF min d ms) ∧ Img.Le a (Img.zipF min d ms) ∧
      (Img.Same a (Img.zipF min d ms) → IsBuild M mk ms (Img.zipF min d ms)) := by
  have hz := zipF_map2 (min : α → α → α) (a := d) (b := ms) (hm.trans (hd.1.trans h.dims).symm)
  have hle : Img.Le a (Img.zipF min d ms) := by
    refine ⟨hd.1.symm, fun p u v hu hv => ?_⟩
    obtain ⟨x, y, hx, hy, rfl⟩ := hz.at p v hv
    refine le_min ?_ (h.hi.2 p _ _ hu hy)
    have hin := Img.at?_eq_some_in _ _ _ hu
    obtain ⟨x', hx', hl⟩ := hd.2 p hin
    rw [hx] at hx'; cases hx'
    exact hl.1 ⟨p, hr p (h.dims ▸ hin), hu⟩
  have hinv : GeoInv M mk ms (Img.zipF min d ms) := by
    refine ⟨hd.1.trans h.dims, fun p u v w hu hv hw => ?_, ⟨hd.1.trans (h.dims.trans hm.symm), ?_⟩, ?_⟩
    · have ha := Img.at?_some a p (h.dims ▸ Img.at?_eq_some_in _ _ _ hu)
      exact (h.lo p _ _ _ hu hv ha).trans (hle.2 p _ _ ha hw)
    · intro p u v hu hv
      obtain ⟨x, y, hx, hy, rfl⟩ := hz.at p u hu
      rw [hv] at hy; cases hy
      exact min_le_right _ _
    · intro p v hv
      obtain ⟨x, y, hx, hy, rfl⟩ := hz.at p v hv
      obtain ⟨x', hx', hl⟩ := hd.2 p (hd.1 ▸ Img.at?_eq_some_in _ _ _ hx)
      rw [hx] at hx'; cases hx'
      -- the supremum of a finite set of carried levels
      by_contra hn
      have hin : Img.In a.dims p := hd.1 ▸ Img.at?_eq_some_in _ _ _ hx
      have hub : ∀ u ∈ {u | ∃ q, M q p ∧ a.at? q = some u}, u < min x y := by
        rintro u ⟨q, hq, hu⟩
        by_contra hlt
        exact hn (.step ((h.sound q u hu).mono_level (not_lt.mp hlt)) hq hy (min_le_right _ _))
      -- the supremum is attained
      have hfin : (({u | ∃ q, M q p ∧ a.at? q = some u} : Set α)).Finite := by
        apply Set.Finite.subset (Set.finite_range fun i : Fin a.dims.count => a.buf i)
        rintro u ⟨q, _, hu⟩
        obtain ⟨i, hi, e, _⟩ := Img.at?_buf a q u hu
        exact ⟨⟨i, hi⟩, e⟩
      have hne : ({u | ∃ q, M q p ∧ a.at? q = some u} : Set α).Nonempty :=
        ⟨_, p, hr p (h.dims ▸ hin), Img.at?_some a p hin⟩
      obtain ⟨u, hu, hmax⟩ := hfin.exists_maximal hne
      have : x ≤ u := hl.2 (fun w hw => by
        rcases le_total w u with h | h
        · exact h
        · exact hmax hw h)
      exact absurd (hub u hu) (not_lt.mpr ((min_le_left _ _).trans this))
  refine ⟨hinv, hle, fun hsame => ?_⟩
  refine isBuild_of_least hm hinv.dims hinv.lo (fun q p u v w hq hu hv hw => ?_) hinv.sound
  have hu' : a.at? q = some u := by rw [hsame.2]; exact hu
  obtain ⟨x, y, hx, hy, rfl⟩ := hz.at p w hw
  rw [hv] at hy; cases hy
  obtain ⟨x', hx', hl⟩ := hd.2 p (hd.1 ▸ Img.at?_eq_some_in _ _ _ hx)
  rw [hx] at hx'; cases hx'
  exact min_le_min_right _ (hl.1 ⟨q, hq, hu'⟩)

theorem geo_init {mk ms : Img α} (hm : ms.dims = mk.dims) : GeoInv M mk ms (Img.zipF min mk ms) := by
  have hz := zipF_map2 (min : α → α → α) hm
  refine ⟨rfl, fun p u v w hu hv hw => ?_, ⟨hm.symm, fun p u v hu hv => ?_⟩, fun p v hv => ?_⟩
  · have := hz.2.2 p _ _ hu hv
    rw [hw] at this; cases this; exact le_refl _
  · obtain ⟨x, y, hx, hy, rfl⟩ := hz.at p u hu
    rw [hv] at hy; cases hy; exact min_le_right _ _
  · obtain ⟨x, y, hx, hy, rfl⟩ := hz.at p v hv
    exact .base hx hy (min_le_left _ _) (min_le_right _ _)

theorem geoLoop_sound {vol g : Img α → Int} (hv : VolOk vol g)
    {morph : Img α → Option (Except Int (Img α))} {mk ms : Img α} (hm : ms.dims = mk.dims)
    (hr : ∀ p, Img.In mk.dims p → M p p)
    (hmo : ∀ a, a.dims = mk.dims → ∃ d, morph a = some (.ok d) ∧ IsDilBy M a d) (fuel : Nat) :
    ∀ a, GeoInv M mk ms a → ∀ r, geoLoop vol morph min ms fuel a = some r →
      ∃ b, r = .ok b ∧ IsBuild M mk ms b := by
  induction fuel with
  | zero => intro a _ r h; cases h
  | succ fuel ih =>
    intro a ha r h
    obtain ⟨d, hd, hdil⟩ := hmo a ha.dims
    obtain ⟨h1, h2, h3⟩ := geo_step hm hr ha hdil
    unfold geoLoop andThen at h
    rw [hd] at h
    simp only [Option.bind_some] at h
    split at h
    · rename_i hvol
      cases h
      exact ⟨_, rfl, h3 (hv.same _ _ h2 ((hv.iff _ _).mp hvol.symm))⟩
    · exact ih _ h1 r h

theorem geoLoop_total {vol g : Img α → Int} (hv : VolOk vol g)
    {morph : Img α → Option (Except Int (Img α))} {mk ms : Img α} (hm : ms.dims = mk.dims)
    (hr : ∀ p, Img.In mk.dims p → M p p)
    (hmo : ∀ a, a.dims = mk.dims → ∃ d, morph a = some (.ok d) ∧ IsDilBy M a d) (fuel : Nat) :
    ∀ a, GeoInv M mk ms a → g ms - g a < fuel → ∃ r, geoLoop vol morph min ms fuel a = some r := by
  induction fuel with
  | zero =>
    intro a ha h
    have := hv.mono _ _ ha.hi
    omega
  | succ fuel ih =>
    intro a ha h
    obtain ⟨d, hd, hdil⟩ := hmo a ha.dims
    obtain ⟨h1, h2, h3⟩ := geo_step hm hr ha hdil
    unfold geoLoop andThen
    rw [hd]
    simp only [Option.bind_some]
    split
    · exact ⟨_, rfl⟩
    · rename_i hvol
      have h4 := hv.mono _ _ h2
      have h5 : g a ≠ g (Img.zipF min d ms) := fun e => hvol ((hv.iff _ _).mpr e.symm)
      exact ih _ h1 (by push_cast at h; omega)

end geo

theorem sum_eq_of_le {f g : Nat → Int} (l : List Nat) (h : ∀ i ∈ l, f i ≤ g i)
    (hs : (l.map f).sum = (l.map g).sum) : ∀ i ∈ l, f i = g i := by
  induction l with
  | nil => simp
  | cons a l ih =>
    simp only [List.map_cons, List.sum_cons] at hs
    have h1 := h a (by simp)
    have h2 : (l.map f).sum ≤ (l.map g).sum := List.sum_le_sum fun i hi => h i (by simp [hi])
    intro i hi
    rcases List.mem_cons.mp hi with rfl | hi
    · omega
    · exact ih (fun j hj => h j (by simp [hj])) (by omega) i hi

theorem vol_strict {a b : Img (Px t)} (h : Img.Le a b) (hv : a.vol = b.vol) : Img.Same a b := by
  refine ⟨h.1, fun p => ?_⟩
  by_cases hp : Img.In a.dims p
  · have e1 := a.buf_offOf p hp
    have e2 := b.buf_offOf p (h.1 ▸ hp)
    rw [← h.1] at e2
    rw [e1, e2]
    congr 1
    apply Px.ext
    unfold Img.vol at hv
    rw [← h.1] at hv
    refine sum_eq_of_le (f := fun i => (a.buf i).val) (g := fun i => (b.buf i).val) _ (fun i hi => ?_) hv
      _ (List.mem_range.mpr (offOf_lt hp))
    rw [List.mem_range] at hi
    obtain ⟨hin, hoff⟩ := coordPt_in hi
    have f1 := a.buf_offOf _ hin
    have f2 := b.buf_offOf _ (h.1 ▸ hin)
    rw [← h.1] at f2
    rw [hoff] at f1 f2
    exact h.2 _ _ _ f1 f2
  · rw [Img.at?_none a p hp, Img.at?_none b p (h.1 ▸ hp)]

theorem volOk : VolOk (α := Px t) Img.vol Img.vol :=
  ⟨fun _ _ h => vol_le h, fun _ _ h e => vol_strict h e, fun _ _ => Iff.rfl⟩

theorem volOk_dual : VolOk (α := (Px t)ᵒᵈ) (Img.vol (t := t)) (fun a => - Img.vol (t := t) a) where
  mono := fun a b h => by
    have := vol_le (t := t) (Img.le_dual.mp h)
    show - Img.vol (t := t) a ≤ - Img.vol (t := t) b
    omega
  same := fun a b h e => by
    have e' : - Img.vol (t := t) a = - Img.vol (t := t) b := e
    exact (vol_strict (t := t) (Img.le_dual.mp h) (by omega)).symm
  iff := fun a b => by
    show Img.vol (t := t) a = Img.vol (t := t) b ↔ - Img.vol (t := t) a = - Img.vol (t := t) b
    omega

theorem pathRel_refl (D : Dims) (N : IntPoint → IntPoint → Prop) (h : ∀ p, N p p) (n : Nat)
    (p : IntPoint) (hp : Img.In D p) : pathRel D N n p p := by
  induction n with
  | zero => rfl
  | succ n ih => exact ⟨p, hp, h p, ih⟩

theorem geoBuild_spec (E : Env (Px t)) (se : StrElt) (im ms out : Img (Px t))
    (h : Accepts3 E im ms out) (hse : SEOk im.dims se) (h0 : ⟨0, 0, 0⟩ ∈ se.points) :
    (∃ fuel r, geoBuild E se fuel im ms out = some r) ∧
    ∀ fuel r, geoBuild E se fuel im ms out = some r →
      ∃ b, r = .ok b ∧ IsBuild (pathRel im.dims (seRel se) se.size) im ms b := by
  have hc := checkSize3_ok h
  have hmo : ∀ a : Img (Px t), a.dims = im.dims → ∃ d, dilate E true se a a = some (.ok d) ∧
      IsDilBy (pathRel im.dims (seRel se) se.size) a d := by
    intro a ha
    obtain ⟨d, h1, h2⟩ := dilate_spec E true se a a
      (accepts_of_dims E (alloc_of_dims ha h.1) rfl) (ha.symm ▸ hse)
    refine ⟨d, h1, ?_⟩
    rw [← ha]; exact iterDil_path _ _ _ _ h2
  have hr := pathRel_refl im.dims (seRel se) (seRel_refl se h0) se.size
  unfold geoBuild
  rw [hc]
  constructor
  · obtain ⟨r, hr'⟩ := geoLoop_total volOk h.2.2.1 hr hmo ((ms.vol - (Img.zipF min im ms).vol + 1).toNat)
      _ (geo_init h.2.2.1) (by
        have := volOk.mono _ _ (geo_init (M := pathRel im.dims (seRel se) se.size) h.2.2.1).hi
        omega)
    exact ⟨_, r, hr'⟩
  · intro fuel r hr'
    exact geoLoop_sound volOk h.2.2.1 hr hmo fuel _ (geo_init h.2.2.1) r hr'

theorem geoDualBuild_spec (E : Env (Px t)) (se : StrElt) (im ms out : Img (Px t))
    (h : Accepts3 E im ms out) (hse : SEOk im.dims se) (h0 : ⟨0, 0, 0⟩ ∈ se.points) :
    (∃ fuel r, geoDualBuild E se fuel im ms out = some r) ∧
    ∀ fuel r, geoDualBuild E se fuel im ms out = some r →
      ∃ b, r = .ok b ∧ IsDualBuild (pathRel im.dims (fun q p => seRel se p q) se.size) im ms b := by
  have hc := checkSize3_ok h
  have hmo : ∀ a : Img (Px t), a.dims = im.dims → ∃ d, erode E true se a a = some (.ok d) ∧
      IsDilBy (α := (Px t)ᵒᵈ) (pathRel im.dims (fun q p => seRel se p q) se.size) a d := by
    intro a ha
    obtain ⟨d, h1, h2⟩ := erode_spec E true se a a
      (accepts_of_dims E (alloc_of_dims ha h.1) rfl) (ha.symm ▸ hse)
    refine ⟨d, h1, ?_⟩
    rw [← ha]
    exact iterDil_path (α := (Px t)ᵒᵈ) (fun q p => seRel se p q) _ a d h2
  have hr := pathRel_refl im.dims (fun q p => seRel se p q) (seRel_refl se h0) se.size
  unfold geoDualBuild
  rw [hc]
  constructor
  · obtain ⟨r, hr'⟩ := geoLoop_total (α := (Px t)ᵒᵈ) volOk_dual h.2.2.1 hr hmo
      (((Img.zipF max im ms).vol - ms.vol + 1).toNat)
      _ (geo_init (α := (Px t)ᵒᵈ) h.2.2.1) (by
        have := volOk_dual.mono _ _
          (geo_init (α := (Px t)ᵒᵈ) (M := pathRel im.dims (fun q p => seRel se p q) se.size) h.2.2.1).hi
        have e : - Img.vol (t := t) (Img.zipF max im ms) ≤ - Img.vol (t := t) ms := this
        show - Img.vol (t := t) ms - - Img.vol (t := t) (Img.zipF max im ms) < _
        omega)
    exact ⟨_, r, hr'⟩
  · intro fuel r hr'
    exact geoLoop_sound (α := (Px t)ᵒᵈ) volOk_dual h.2.2.1 hr hmo fuel _
      (geo_init (α := (Px t)ᵒᵈ) h.2.2.1) r hr'

theorem IsBuild.congr [LinearOrder α] {N N' : IntPoint → IntPoint → Prop} {mk ms r : Img α}
    (hN : ∀ q p, Img.In mk.dims q → Img.In mk.dims p → (N q p ↔ N' q p)) (h : IsBuild N mk ms r) :
    IsBuild N' mk ms r := by
  have key : ∀ {N N' : IntPoint → IntPoint → Prop}, ms.dims = mk.dims →
      (∀ q p, Img.In mk.dims q → Img.In mk.dims p → (N q p ↔ N' q p)) → ∀ v p,
      Carried N mk ms v p → Carried N' mk ms v p := by
    intro N N' hm hN v p hc
    induction hc with
    | base h1 h2 h3 h4 => exact .base h1 h2 h3 h4
    | @step q p b hc hn hb hv ih =>
      obtain ⟨c, hc, _⟩ := hc.mask
      exact .step ih ((hN q p (hm ▸ Img.at?_eq_some_in _ _ _ hc) (hm ▸ Img.at?_eq_some_in _ _ _ hb)).mp hn)
        hb hv
  refine ⟨h.1, h.2.1, fun p hp => ?_⟩
  obtain ⟨v, hv, hg⟩ := h.2.2 p hp
  exact ⟨v, hv, key h.1 hN _ _ hg.1, fun u hu => hg.2 (key h.1 (fun q p hq hp => (hN q p hq hp).symm) _ _ hu)⟩

theorem pathRel_one (D : Dims) (N : IntPoint → IntPoint → Prop) (q p : IntPoint) (hp : Img.In D p) :
    pathRel D N 1 q p ↔ N q p := by
  constructor
  · rintro ⟨r, _, h, rfl⟩; exact h
  · intro h; exact ⟨p, hp, h, rfl⟩

end Smil
