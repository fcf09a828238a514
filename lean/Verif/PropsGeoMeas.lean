import Verif.GeoMeasPts
import Verif.PropsStretch
import Verif.PropsLabel
import Verif.PropsBuild

/-!
# Geodesic measures and geodesic path opening (C91)

Specification: walks from neighbour to neighbour (26 neighbours, 8 in a plane) inside the connected components of a set, with their lengths. `root`
stands for the square root.
-/

namespace Smil
section
variable {t u : PT}

/-- `root` behaves like a square root as far as the signs go. -/
def RootLike (root : ℚ → ℚ) : Prop := (∀ q, 0 ≤ q → 0 ≤ root q) ∧ ∀ q, 0 < q → 0 < root q

/-- Every step to a neighbour has at least the length `r` and at most the length `R`. -/
def StepsWithin (root : ℚ → ℚ) (ax ay az r R : ℚ) : Prop :=
  0 ≤ r ∧ 0 ≤ R ∧ ∀ p q, Touch26 p q → r ≤ root (gridSq ax ay az p q) ∧ root (gridSq ax ay az p q) ≤ R

/-- `s` is a point of `B`, every point of `B` is the end of a walk in `B` from `s` of length at most `L - 1`, and some walk from `s` has
this length. If `h` steps are needed from `s` to the points of `B`, `L` lies between `1 + r * h` and `1 + R * (h + 1)`, where `r` and `R` bound the lengths of
the steps. -/
def WalkRadius (root : ℚ → ℚ) (ax ay az r R : ℚ) (B : IntPoint → Prop) (s : IntPoint) (L : ℚ) : Prop :=
  B s ∧ (∀ q, B q → ∃ ℓ, LenWalk root ax ay az B s q ℓ ∧ 1 + ℓ ≤ L) ∧ (∃ q, LenWalk root ax ay az B s q (L - 1)) ∧
    ∃ h, MaxHops B s h ∧ 1 + r * h ≤ L ∧ L ≤ 1 + R * (h + 1)

/-- `L` is such a length for a point of `B` that is at the greatest distance from its barycentre. The scales of the distances to the barycentre are `sx`, `sy`,
`sz`, those of the steps of the walks `ax`, `ay`, `az`. -/
def IsLength (root : ℚ → ℚ) (sx sy sz ax ay az r R : ℚ) (B : IntPoint → Prop) (L : ℚ) : Prop :=
  ∃ pts s, pts.Nodup ∧ (∀ q, q ∈ pts ↔ B q) ∧ (∀ q, B q → fromMean sx sy sz pts q ≤ fromMean sx sy sz pts s) ∧ WalkRadius root ax ay az r R B s L

/-- The output has the dimensions of the input, is 0 outside of the set `P`, and on every component of `P` for the relation `N` the integer part
of the length of the component. -/
def IsDiameter (root : ℚ → ℚ) (sx sy sz ax ay az r R : ℚ) (N : IntPoint → IntPoint → Prop) (P : IntPoint → Prop) (D : Dims) (g : Img (Px u)) : Prop :=
  g.dims = D ∧ (∀ p, Img.In D p → ¬ P p → ∃ w, g.at? p = some w ∧ w.val = 0) ∧
    ∀ p, P p → ∃ L, IsLength root sx sy sz ax ay az r R (SetPath N P p) L ∧ ∀ q, SetPath N P p q → ∃ w, g.at? q = some w ∧ w.val = ⌊L⌋

/-- The slice `z` of an image, as an image. -/
def planeOf {α : Type} (im : Img α) (z : Nat) : Img α := ⟨⟨im.dims.w, im.dims.h, 1⟩, fun j => im.buf (z * im.dims.w * im.dims.h + j)⟩

theorem LenWalk.hops {root : ℚ → ℚ} {ax ay az r R : ℚ} (hR : StepsWithin root ax ay az r R) {B : IntPoint → Prop} {p q : IntPoint} {ℓ : ℚ}
    (h : LenWalk root ax ay az B p q ℓ) : ∃ n : Nat, HopWalk B p n q ∧ r * n ≤ ℓ := by
  induction h with
  | nil h => exact ⟨0, .nil h, by simp⟩
  | snoc _ h2 h3 ih =>
    obtain ⟨n, k1, k2⟩ := ih
    refine ⟨n + 1, .snoc k1 h2 h3, ?_⟩
    have := (hR.2.2 _ _ h2).1
    push_cast
    linarith

theorem BlobVal.radius {root : ℚ → ℚ} {sx sy sz r R : ℚ} {B : IntPoint → Prop} {pts : List IntPoint} {s : IntPoint} {e : Option IntPoint} {L : ℚ}
    (hR : StepsWithin root sy sz sx r R) (h : BlobVal root sx sy sz B pts s e L R) : WalkRadius root sy sz sx r R B s L := by
  obtain ⟨m, k1, k2⟩ := h.hop
  refine ⟨h.start, h.reach, h.wit, m, k1, ?_, k2⟩
  obtain ⟨q, hq, hmin⟩ := k1.2
  obtain ⟨ℓ, w1, w2⟩ := h.reach q hq
  obtain ⟨n, n1, n2⟩ := w1.hops hR
  have : (m : ℚ) ≤ n := by exact_mod_cast hmin n n1
  have := mul_le_mul_of_nonneg_left this hR.1
  linarith

theorem touch_symm : ∀ p q, Touch26 p q → Touch26 q p := fun _ _ h => h.symm

/-! ### The conversion to the output -/

theorem truncPx_floor {q : ℚ} (h : 0 ≤ q) (h' : q < u.hi + 1) : ∃ w : Px u, truncPx u q = some w ∧ w.val = ⌊q⌋ := by
  have h1 : u.lo ≤ ⌊q⌋ := u.lo_nonpos.trans (Int.floor_nonneg.mpr h)
  have h2 : ⌊q⌋ ≤ u.hi := by
    have : ⌊q⌋ < u.hi + 1 := Int.floor_lt.mpr (by exact_mod_cast h')
    omega
  refine ⟨u.wrap ⌊q⌋, ?_, u.wrap_of_mem h1 h2⟩
  unfold truncPx
  simp only [if_pos h]
  rw [if_pos ⟨h1, h2⟩]

theorem truncPx_val {q : ℚ} (h : 0 ≤ q) {w : Px u} (hw : truncPx u q = some w) : w.val = ⌊q⌋ := by
  unfold truncPx at hw
  simp only [if_pos h] at hw
  split at hw
  · rename_i h1
    cases hw
    exact u.wrap_of_mem h1.1 h1.2
  · cases hw

theorem gmOut_some {D : Dims} {o : Nat → ℚ} {g : Img (Px u)} (h : gmOut u D o = some g) :
    g.dims = D ∧ ∀ p, Img.In D p → ∃ w, truncPx u (o (offOf D p)) = some w ∧ g.at? p = some w := by
  unfold gmOut at h
  split at h
  · rename_i h1
    cases h
    refine ⟨rfl, fun p hp => ?_⟩
    have := List.all_eq_true.mp h1 (offOf D p) (List.mem_range.mpr (offOf_lt hp))
    obtain ⟨w, hw⟩ := Option.isSome_iff_exists.mp this
    refine ⟨w, hw, ?_⟩
    rw [Img.buf_offOf _ p hp]
    show some ((truncPx u (o (offOf D p))).getD _) = _
    rw [hw]
    rfl
  · cases h

theorem gmOut_fits {D : Dims} {o : Nat → ℚ} (h : ∀ p, Img.In D p → 0 ≤ o (offOf D p) ∧ o (offOf D p) < u.hi + 1) :
    ∃ g, gmOut u D o = some g := by
  unfold gmOut
  rw [if_pos]
  · exact ⟨_, rfl⟩
  · rw [List.all_eq_true]
    intro i hi
    obtain ⟨a1, a2⟩ := coordPt_in (List.mem_range.mp hi)
    have := h _ a1
    rw [a2] at this
    obtain ⟨w, hw, -⟩ := truncPx_floor this.1 this.2
    rw [hw]
    rfl

theorem checkOneOut_ok {auto : Bool} {di dout : Dims} (h : di.count ≠ 0 ∧ (dout = di ∨ auto = true)) : checkOneOut auto di dout = .ok () := by
  unfold checkOneOut
  rw [if_neg h.1]
  rcases h.2 with h | h
  · rw [if_pos h]
  · rw [h]
    split <;> rfl

/-! ### The runs -/

theorem link_above (im : Img (Px t)) (v : Int) :
    GmLink im.dims (fun _ => 0) (fun i => i < im.dims.count ∧ decide (v ≤ (im.buf i).val) = true) (Above im v) Touch26 := by
  refine ⟨fun i hi => hi.1, fun p ⟨a, h, _⟩ => Img.at?_eq_some_in _ _ _ h, fun p hp => ?_, fun p q _ _ => ?_⟩
  · unfold Above
    rw [Img.buf_offOf im p hp, decide_eq_true_iff]
    constructor
    · rintro ⟨-, h⟩; exact ⟨_, rfl, h⟩
    · rintro ⟨a, h1, h2⟩
      cases h1
      exact ⟨offOf_lt hp, h2⟩
  · simp

section
variable {root : ℚ → ℚ} {r R : ℚ}

theorem binary_pts (hr : RootLike root) {sx sy sz : ℚ} (hx : 0 < sx) (hy : 0 < sy) (hz : 0 < sz) (hR : StepsWithin root sy sz sx r R) (im : Img (Px t))
    (hc : im.dims.count ≠ 0) (v : Int) {method : Int} (hm0 : 0 ≤ method) (hm3 : method ≤ 3)
    (hsing : method = 3 → ∀ p, Above im v p → ∃ q, q ≠ p ∧ SetPath Touch26 (Above im v) p q) :
    ∃ o, gmBinary root im.dims.w im.dims.h im.dims.d sx sy sz method (fun i => v ≤ (im.buf i).val) = some o ∧
      (∀ p, Img.In im.dims p → ¬ Above im v p → o (offOf im.dims p) = 0) ∧
      ∀ p, Above im v p → ∃ pts s e L, BlobVal root sx sy sz (SetPath Touch26 (Above im v) p) pts s e L R ∧ L ≤ 1 + R * im.dims.count ∧
        ∀ q, SetPath Touch26 (Above im v) p q → o (offOf im.dims q) =
          zoneWrite root im.dims.d sx sy sz ⟨0, 0, 0⟩ method pts s e L q := by
  unfold gmBinary
  have h0 : coordPt im.dims ((some 0 : Option Nat).getD 0) = ⟨0, 0, 0⟩ := by simp [coordPt]
  rw [← h0]
  refine gmRun_pts hx hy hz hr.1 hr.2 (fun p q h => (hR.2.2 p q h).2) hR.2.1 hm0 hm3 (fun e he => ?_) (link_above im v) (fun h p hp => ?_)
  · cases he; omega
  · rcases h with h | h
    · exact hsing h p hp
    · cases h.2

theorem measure_eq (auto : Bool) (sel : Int) (dz : ℚ) (im : Img (Px t)) (dout : Dims)
    (hacc : im.dims.count ≠ 0 ∧ (dout = im.dims ∨ auto = true)) {a b : Px t} (hab : IsRange im a b) :
    (geodesicMeasure root auto false sel false dz im dout : Option (Except Int (Img (Px u)))) =
      ((gmBinary root im.dims.w im.dims.h im.dims.d 1 1 dz sel fun i => b.val.tdiv 2 ≤ (im.buf i).val).bind (gmOut u im.dims)).map .ok := by
  have hb : maxValOf false im = b := ((rangeVal_isRange im hacc.1).2.unique hab).2
  unfold geodesicMeasure
  rw [checkOneOut_ok hacc]
  simp only [gmIn, Bool.false_eq_true, if_false, hb]

theorem diameter_fits {D : Dims} {N : IntPoint → IntPoint → Prop} {P : IntPoint → Prop} {sx sy sz : ℚ} {o : Nat → ℚ} {e0 : IntPoint}
    (h1 : ∀ p, Img.In D p → ¬ P p → o (offOf D p) = 0)
    (h2 : ∀ p, P p → ∃ pts s e L, BlobVal root sx sy sz (SetPath N P p) pts s e L R ∧ L ≤ 1 + R * D.count ∧
        ∀ q, SetPath N P p q → o (offOf D q) = zoneWrite root D.d sx sy sz e0 0 pts s e L q) (hfit : 1 + R * D.count < u.hi + 1) :
    ∀ p, Img.In D p → 0 ≤ o (offOf D p) ∧ o (offOf D p) < u.hi + 1 := by
  intro p hp
  by_cases hP : P p
  · obtain ⟨pts, s, e, L, k1, k2, k3⟩ := h2 p hP
    rw [k3 p (.refl hP)]
    unfold zoneWrite
    rw [if_pos rfl]
    exact ⟨le_trans (by norm_num) k1.one, lt_of_le_of_lt k2 hfit⟩
  · rw [h1 p hp hP]
    refine ⟨le_refl _, ?_⟩
    have : (0 : ℚ) ≤ u.hi := by exact_mod_cast u.hi_nonneg
    linarith

theorem diameter_is {D : Dims} {N : IntPoint → IntPoint → Prop} {P : IntPoint → Prop} {sx sy sz : ℚ} (hR : StepsWithin root sy sz sx r R) (hPin : ∀ p, P p → Img.In D p) {o : Nat → ℚ}
    {e0 : IntPoint} (h1 : ∀ p, Img.In D p → ¬ P p → o (offOf D p) = 0)
    (h2 : ∀ p, P p → ∃ pts s e L, BlobVal root sx sy sz (SetPath N P p) pts s e L R ∧ L ≤ 1 + R * D.count ∧
        ∀ q, SetPath N P p q → o (offOf D q) = zoneWrite root D.d sx sy sz e0 0 pts s e L q) {g : Img (Px u)} (hd : g.dims = D)
    (hg : ∀ p, Img.In D p → ∃ w, truncPx u (o (offOf D p)) = some w ∧ g.at? p = some w) :
    IsDiameter root sx sy sz sy sz sx r R N P D g := by
  refine ⟨hd, fun p hp hn => ?_, fun p hp => ?_⟩
  · obtain ⟨w, h3, h4⟩ := hg p hp
    have := truncPx_val (by rw [h1 p hp hn]) h3
    rw [h1 p hp hn, Int.floor_zero] at this
    exact ⟨w, h4, this⟩
  · obtain ⟨pts, s, e, L, k1, -, k3⟩ := h2 p hp
    refine ⟨L, ⟨pts, s, k1.nodup, k1.mem, k1.first, k1.radius hR⟩, fun q hq => ?_⟩
    obtain ⟨w, h3, h4⟩ := hg q (hPin q hq.ends.2)
    have e1 : o (offOf D q) = L := by
      rw [k3 q hq]
      exact if_pos rfl
    rw [e1] at h3
    exact ⟨w, h4, truncPx_val (le_trans (by norm_num) k1.one) h3⟩

/-! ### The diameter -/

/-- **C91**, `geodesicDiameter` of the whole image: 0 outside of the set of the pixels of at least half of the maximum, and on every component of this set one plus the length
of a walk from a point farthest from the barycentre, which no point needs to exceed. Partial: the code computes with `double`; the length is not the least one, see
`C91_longer_than_needed`; the scale `dz` is applied to `y`. -/
theorem C91_diameter_partial (hr : RootLike root) {dz : ℚ} (hz : 0 < dz) (hR : StepsWithin root 1 dz 1 r R) (auto : Bool) (im : Img (Px t)) (dout : Dims)
    (hacc : im.dims.count ≠ 0 ∧ (dout = im.dims ∨ auto = true)) {a b : Px t} (hab : IsRange im a b) (hfit : 1 + R * im.dims.count < u.hi + 1) :
    ∃ out : Img (Px u), geodesicMeasure root auto false 0 false dz im dout = some (.ok out) ∧
      IsDiameter root 1 1 dz 1 dz 1 r R Touch26 (Above im (b.val.tdiv 2)) im.dims out := by
  obtain ⟨o, h0, h1, h2⟩ := binary_pts (sx := 1) (sy := 1) hr one_pos one_pos hz hR im hacc.1 (b.val.tdiv 2) (method := 0) (le_refl _) (by norm_num) (by norm_num)
  obtain ⟨g, hg⟩ := gmOut_fits (u := u) (diameter_fits h1 h2 hfit)
  obtain ⟨g1, g2⟩ := gmOut_some hg
  refine ⟨g, ?_, diameter_is hR (fun p ⟨a, h, _⟩ => Img.at?_eq_some_in _ _ _ h) h1 h2 g1 g2⟩
  rw [measure_eq auto 0 dz im dout hacc hab, h0]
  simp only [Option.bind_some, hg, Option.map_some]

/-- **C91**, the measures other than the diameter, where they are defined: elongation, from the length, the number of points and a constant. -/
theorem C91_elongation_partial (hr : RootLike root) {dz : ℚ} (hz : 0 < dz) (hR : StepsWithin root 1 dz 1 r R) (auto : Bool) (im : Img (Px t)) (dout : Dims)
    (hacc : im.dims.count ≠ 0 ∧ (dout = im.dims ∨ auto = true)) {a b : Px t} (hab : IsRange im a b) (out : Img (Px u))
    (hout : geodesicMeasure root auto false 1 false dz im dout = some (.ok out)) :
    out.dims = im.dims ∧ (∀ p, Img.In im.dims p → ¬ Above im (b.val.tdiv 2) p → ∃ w, out.at? p = some w ∧ w.val = 0) ∧
      ∀ p, Above im (b.val.tdiv 2) p → ∃ (pts : List IntPoint) (s : IntPoint) (L : ℚ), pts.Nodup ∧ (∀ q, q ∈ pts ↔ SetPath Touch26 (Above im (b.val.tdiv 2)) p q) ∧
        WalkRadius root 1 dz 1 r R (SetPath Touch26 (Above im (b.val.tdiv 2)) p) s L ∧
        ∀ q ∈ pts, ∃ w, out.at? q = some w ∧
          w.val = if im.dims.d = 1 then ⌊L ^ 2 / pts.length * (785398 / 1000000)⌋ else ⌊L ^ 3 / (pts.length * dz) * (523599 / 1000000)⌋ := by
  obtain ⟨o, h0, h1, h2⟩ := binary_pts (sx := 1) (sy := 1) hr one_pos one_pos hz hR im hacc.1 (b.val.tdiv 2) (method := 1) (by norm_num) (by norm_num) (by norm_num)
  rw [measure_eq auto 1 dz im dout hacc hab, h0, Option.bind_some] at hout
  obtain ⟨g, hg, e⟩ := Option.map_eq_some_iff.mp hout
  cases e
  obtain ⟨g1, g2⟩ := gmOut_some hg
  refine ⟨g1, fun p hp hn => ?_, fun p hp => ?_⟩
  · obtain ⟨w, h3, h4⟩ := g2 p hp
    have := truncPx_val (by rw [h1 p hp hn]) h3
    rw [h1 p hp hn, Int.floor_zero] at this
    exact ⟨w, h4, this⟩
  · obtain ⟨pts, s, e, L, k1, -, k3⟩ := h2 p hp
    refine ⟨pts, s, L, k1.nodup, k1.mem, k1.radius hR, fun q hq => ?_⟩
    have hq' := (k1.mem q).mp hq
    obtain ⟨w, h3, h4⟩ := g2 q (by obtain ⟨a, h, _⟩ := hq'.ends.2; exact Img.at?_eq_some_in _ _ _ h)
    refine ⟨w, h4, ?_⟩
    have hL : 0 ≤ L := le_trans (by norm_num) k1.one
    rw [k3 q hq'] at h3
    unfold zoneWrite at h3
    rw [if_neg (by norm_num), if_pos rfl] at h3
    split at h3
    · rename_i hd
      rw [if_pos hd, truncPx_val (mul_nonneg (div_nonneg (mul_nonneg hL hL) (by positivity)) (by norm_num)) h3]
      rw [mul_one, mul_one, pow_two]
    · rename_i hd
      rw [if_neg hd, truncPx_val (mul_nonneg (div_nonneg (mul_nonneg (mul_nonneg hL hL) hL) (by positivity)) (by norm_num)) h3]
      rw [mul_one, mul_one]
      congr 2
      ring

/-- **C91**, tortuosity: the length over the distance from the first point to the last one, for the components of at least two points. -/
theorem C91_tortuosity_partial (hr : RootLike root) {dz : ℚ} (hz : 0 < dz) (hR : StepsWithin root 1 dz 1 r R) (auto : Bool) (im : Img (Px t)) (dout : Dims)
    (hacc : im.dims.count ≠ 0 ∧ (dout = im.dims ∨ auto = true)) {a b : Px t} (hab : IsRange im a b) (out : Img (Px u))
    (hout : geodesicMeasure root auto false 2 false dz im dout = some (.ok out)) :
    out.dims = im.dims ∧ (∀ p, Img.In im.dims p → ¬ Above im (b.val.tdiv 2) p → ∃ w, out.at? p = some w ∧ w.val = 0) ∧
      ∀ p q0, q0 ≠ p → SetPath Touch26 (Above im (b.val.tdiv 2)) p q0 → ∃ s e L, e ≠ s ∧
        WalkRadius root 1 dz 1 r R (SetPath Touch26 (Above im (b.val.tdiv 2)) p) s L ∧
        LenWalk root 1 dz 1 (SetPath Touch26 (Above im (b.val.tdiv 2)) p) s e (L - 1) ∧
        ∀ q, SetPath Touch26 (Above im (b.val.tdiv 2)) p q → ∃ w, out.at? q = some w ∧ w.val = ⌊L / root (gridSq 1 1 dz s e)⌋ := by
  obtain ⟨o, h0, h1, h2⟩ := binary_pts (sx := 1) (sy := 1) hr one_pos one_pos hz hR im hacc.1 (b.val.tdiv 2) (method := 2) (by norm_num) (by norm_num) (by norm_num)
  rw [measure_eq auto 2 dz im dout hacc hab, h0, Option.bind_some] at hout
  obtain ⟨g, hg, e⟩ := Option.map_eq_some_iff.mp hout
  cases e
  obtain ⟨g1, g2⟩ := gmOut_some hg
  refine ⟨g1, fun p hp hn => ?_, fun p q0 hne hq0 => ?_⟩
  · obtain ⟨w, h3, h4⟩ := g2 p hp
    have := truncPx_val (by rw [h1 p hp hn]) h3
    rw [h1 p hp hn, Int.floor_zero] at this
    exact ⟨w, h4, this⟩
  · obtain ⟨pts, s, e, L, k1, -, k3⟩ := h2 p hq0.ends.1
    have hL : 0 ≤ L := le_trans (by norm_num) k1.one
    cases e with
    | none =>
      have := (k1.eNone rfl).2
      exact absurd ((this q0 hq0).trans (this p (.refl hq0.ends.1)).symm) hne
    | some e =>
      obtain ⟨m1, m2, m3⟩ := k1.eSome e rfl
      refine ⟨s, e, L, m2, k1.radius hR, m3, fun q hq' => ?_⟩
      obtain ⟨w, h3, h4⟩ := g2 q (by obtain ⟨a, h, _⟩ := hq'.ends.2; exact Img.at?_eq_some_in _ _ _ h)
      refine ⟨w, h4, ?_⟩
      rw [k3 q hq'] at h3
      unfold zoneWrite at h3
      have hpos : 0 < root (gridSq 1 1 dz s e) := hr.2 _ (gridSq_pos one_pos one_pos hz m2.symm)
      rw [if_neg (by norm_num), if_neg (by norm_num), if_pos rfl, Option.getD_some, if_pos hpos.ne'] at h3
      exact truncPx_val (div_nonneg hL hpos.le) h3

/-- **C91**, extremities: if no component is a single point, every component has exactly one pixel of value 1, at the greatest distance from the barycentre, and one pixel of value 2, the
end of a walk whose length no other point needs to exceed; all other pixels are 0. -/
theorem C91_extremities_partial (hr : RootLike root) {dz : ℚ} (hz : 0 < dz) (hR : StepsWithin root 1 dz 1 r R) (auto : Bool) (im : Img (Px t)) (dout : Dims)
    (hacc : im.dims.count ≠ 0 ∧ (dout = im.dims ∨ auto = true)) {a b : Px t} (hab : IsRange im a b) (hu : 2 ≤ u.hi)
    (hsing : ∀ p, Above im (b.val.tdiv 2) p → ∃ q, q ≠ p ∧ SetPath Touch26 (Above im (b.val.tdiv 2)) p q) :
    ∃ out : Img (Px u), geodesicMeasure root auto false 3 false dz im dout = some (.ok out) ∧ out.dims = im.dims ∧
      (∀ p, Img.In im.dims p → ¬ Above im (b.val.tdiv 2) p → ∃ w, out.at? p = some w ∧ w.val = 0) ∧
      ∀ p, Above im (b.val.tdiv 2) p → ∃ (pts : List IntPoint) (s e : IntPoint) (L : ℚ), pts.Nodup ∧ (∀ q, q ∈ pts ↔ SetPath Touch26 (Above im (b.val.tdiv 2)) p q) ∧ e ≠ s ∧
        (∀ q ∈ pts, fromMean 1 1 dz pts q ≤ fromMean 1 1 dz pts s) ∧
        WalkRadius root 1 dz 1 r R (SetPath Touch26 (Above im (b.val.tdiv 2)) p) s L ∧
        LenWalk root 1 dz 1 (SetPath Touch26 (Above im (b.val.tdiv 2)) p) s e (L - 1) ∧
        ∀ q ∈ pts, ∃ w, out.at? q = some w ∧ w.val = if q = e then 2 else if q = s then 1 else 0 := by
  obtain ⟨o, h0, h1, h2⟩ := binary_pts (sx := 1) (sy := 1) hr one_pos one_pos hz hR im hacc.1 (b.val.tdiv 2) (method := 3) (by norm_num) (by norm_num)
    (fun _ => hsing)
  have h2' : ∀ p, Above im (b.val.tdiv 2) p → ∃ pts s e L, BlobVal root 1 1 dz (SetPath Touch26 (Above im (b.val.tdiv 2)) p) pts s (some e) L R ∧
      ∀ q, SetPath Touch26 (Above im (b.val.tdiv 2)) p q → o (offOf im.dims q) = ((if q = e then 2 else if q = s then 1 else 0 : Int) : ℚ) := by
    intro p hp
    obtain ⟨pts, s, e, L, k1, -, k3⟩ := h2 p hp
    cases e with
    | none =>
      have := (k1.eNone rfl).2
      obtain ⟨q0, hne, hq0⟩ := hsing p hp
      exact absurd ((this q0 hq0).trans (this p (.refl hp)).symm) hne
    | some e =>
      refine ⟨pts, s, e, L, k1, fun q hq => ?_⟩
      rw [k3 q hq]
      unfold zoneWrite
      rw [if_neg (by norm_num), if_neg (by norm_num), if_neg (by norm_num), Option.getD_some]
      split
      · norm_num
      · split <;> norm_num
  have hin : ∀ {p}, Above im (b.val.tdiv 2) p → Img.In im.dims p := fun ⟨a, h, _⟩ => Img.at?_eq_some_in _ _ _ h
  have huq : (2 : ℚ) ≤ u.hi := by exact_mod_cast hu
  obtain ⟨g, hg⟩ := gmOut_fits (u := u) (D := im.dims) (o := o) (fun p hp => by
    by_cases hP : Above im (b.val.tdiv 2) p
    · obtain ⟨pts, s, e, L, -, k⟩ := h2' p hP
      rw [k p (.refl hP)]
      split
      · push_cast; exact ⟨by norm_num, by linarith⟩
      · split
        · push_cast; exact ⟨by norm_num, by linarith⟩
        · push_cast; exact ⟨by norm_num, by linarith⟩
    · rw [h1 p hp hP]
      exact ⟨le_refl _, by linarith⟩)
  obtain ⟨g1, g2⟩ := gmOut_some hg
  refine ⟨g, ?_, g1, fun p hp hn => ?_, fun p hp => ?_⟩
  · rw [measure_eq auto 3 dz im dout hacc hab, h0]
    simp only [Option.bind_some, hg, Option.map_some]
  · obtain ⟨w, h3, h4⟩ := g2 p hp
    have := truncPx_val (by rw [h1 p hp hn]) h3
    rw [h1 p hp hn, Int.floor_zero] at this
    exact ⟨w, h4, this⟩
  · obtain ⟨pts, s, e, L, k1, k3⟩ := h2' p hp
    obtain ⟨-, m2, m3⟩ := k1.eSome e rfl
    refine ⟨pts, s, e, L, k1.nodup, k1.mem, m2, fun q hq => k1.first q ((k1.mem q).mp hq), k1.radius hR, m3, fun q hq => ?_⟩
    have hq' := (k1.mem q).mp hq
    obtain ⟨w, h3, h4⟩ := g2 q (hin hq'.ends.2)
    refine ⟨w, h4, ?_⟩
    rw [k3 q hq'] at h3
    rw [truncPx_val (by split <;> [norm_num; (split <;> norm_num)]) h3, Int.floor_intCast]

/-! ### By slices -/

theorem planeOf_at {α : Type} (im : Img α) {z : Nat} (hz : z < im.dims.d) (x y : Int) : (planeOf im z).at? ⟨x, y, 0⟩ = im.at? ⟨x, y, z⟩ := by
  by_cases h : Img.In im.dims ⟨x, y, z⟩
  · have h' : Img.In (planeOf im z).dims ⟨x, y, 0⟩ := by
      unfold Img.In planeOf at *
      simp only at *
      omega
    rw [Img.buf_offOf _ _ h, Img.buf_offOf _ _ h']
    have e1 := offOf_int h
    have e2 := offOf_int h'
    simp only [planeOf] at e1 e2 ⊢
    congr 2
    have e3 : ((z * im.dims.w * im.dims.h : Nat) : Int) = z * im.dims.w * im.dims.h := by push_cast; rfl
    omega
  · have h' : ¬ Img.In (planeOf im z).dims ⟨x, y, 0⟩ := by
      unfold Img.In planeOf at *
      simp only at *
      omega
    rw [Img.at?, Img.at?, if_neg h, if_neg h']

theorem gmSlices_spec {D : Dims} {run : Nat → Option (Nat → ℚ)} {f : Nat → Nat → ℚ} (h : ∀ z < D.d, run z = some (f z)) :
    ∃ O, gmSlices D run = some O ∧ ∀ x y z : Int, Img.In D ⟨x, y, z⟩ → O (offOf D ⟨x, y, z⟩) = f z.toNat (offOf ⟨D.w, D.h, 1⟩ ⟨x, y, 0⟩) := by
  unfold gmSlices
  rw [if_pos]
  · refine ⟨_, rfl, fun x y z hp => ?_⟩
    have h' : Img.In ⟨D.w, D.h, 1⟩ ⟨x, y, 0⟩ := by
      unfold Img.In at *
      simp only at *
      omega
    have e1 := offOf_int hp
    have e2 := offOf_int h'
    have h3 := offOf_lt h'
    rw [← count_whd] at h3
    have hz : z.toNat < D.d := by
      unfold Img.In at hp
      simp only at hp
      omega
    have e3 : offOf D ⟨x, y, z⟩ = D.w * D.h * z.toNat + offOf ⟨D.w, D.h, 1⟩ ⟨x, y, 0⟩ := by
      have hz0 : 0 ≤ z := hp.2.2.2.2.1
      have e4 : ((D.w * D.h * z.toNat : Nat) : Int) = z * D.w * D.h := by
        push_cast
        rw [Int.toNat_of_nonneg hz0]
        ring
      simp only at e1 e2
      omega
    have h4 : offOf ⟨D.w, D.h, 1⟩ ⟨x, y, 0⟩ < D.w * D.h := by simpa using h3
    have hpos : 0 < D.w * D.h := by omega
    simp only [e3]
    rw [Nat.mul_add_div hpos, Nat.div_eq_of_lt h4, Nat.mul_add_mod, Nat.mod_eq_of_lt h4, Nat.add_zero, h _ hz]
    rfl
  · rw [List.all_eq_true]
    intro z hz
    rw [h z (List.mem_range.mp hz)]
    rfl

/-- The slices put together and converted. -/
theorem slices_out {D : Dims} {run : Nat → Option (Nat → ℚ)} {N : Nat → IntPoint → IntPoint → Prop} {P : Nat → IntPoint → Prop}
    (hR : StepsWithin root 1 1 1 r R) (hPin : ∀ z p, P z p → Img.In ⟨D.w, D.h, 1⟩ p) {e0 : Nat → IntPoint}
    (h : ∀ z < D.d, ∃ o, run z = some o ∧ (∀ p, Img.In ⟨D.w, D.h, 1⟩ p → ¬ P z p → o (offOf ⟨D.w, D.h, 1⟩ p) = 0) ∧
      ∀ p, P z p → ∃ pts s e L, BlobVal root 1 1 1 (SetPath (N z) (P z) p) pts s e L R ∧ L ≤ 1 + R * (⟨D.w, D.h, 1⟩ : Dims).count ∧
        ∀ q, SetPath (N z) (P z) p q → o (offOf ⟨D.w, D.h, 1⟩ q) = zoneWrite root 1 1 1 1 (e0 z) 0 pts s e L q)
    (hfit : 1 + R * (D.w * D.h : Nat) < u.hi + 1) :
    ∃ out, (gmSlices D run).bind (gmOut u D) = some out ∧ out.dims = D ∧
      ∀ z < D.d, IsDiameter root 1 1 1 1 1 1 r R (N z) (P z) ⟨D.w, D.h, 1⟩ (planeOf out z) := by
  have hct : (⟨D.w, D.h, 1⟩ : Dims).count = D.w * D.h := by rw [← count_whd]; simp
  choose! f h1 h2 h3 using h
  obtain ⟨O, hO, hO2⟩ := gmSlices_spec h1
  have hfits := fun z (hz : z < D.d) => diameter_fits (u := u) (R := R) (D := ⟨D.w, D.h, 1⟩) (h2 z hz) (h3 z hz) (by rw [hct]; exact hfit)
  have hpl : ∀ {x y z : Int}, Img.In D ⟨x, y, z⟩ → z.toNat < D.d ∧ Img.In ⟨D.w, D.h, 1⟩ ⟨x, y, 0⟩ := fun hp => by
    unfold Img.In at *
    simp only at *
    omega
  obtain ⟨g, hg⟩ := gmOut_fits (u := u) (D := D) (o := O) (fun p hp => by
    obtain ⟨x, y, z⟩ := p
    rw [hO2 x y z hp]
    exact hfits _ (hpl hp).1 _ (hpl hp).2)
  obtain ⟨g1, g2⟩ := gmOut_some hg
  refine ⟨g, by rw [hO, Option.bind_some, hg], g1, fun z hz => ?_⟩
  have hzg : z < g.dims.d := by rw [g1]; exact hz
  refine diameter_is hR (hPin z) (h2 z hz) (h3 z hz) (by rw [planeOf, g1]) (fun p hp => ?_)
  obtain ⟨x, y, z0⟩ := p
  have hz0 : z0 = 0 := by
    unfold Img.In at hp
    simp only at hp
    omega
  subst hz0
  have hp' : Img.In D ⟨x, y, z⟩ := by
    unfold Img.In at *
    simp only at *
    omega
  obtain ⟨w, k1, k2⟩ := g2 _ hp'
  rw [hO2 x y z hp', Int.toNat_natCast] at k1
  exact ⟨w, k1, by rw [planeOf_at g hzg]; exact k2⟩

/-- **C91**, `geodesicDiameter` slice by slice: every slice of the output is the diameter of the slice of the input. The threshold is that of the whole image. -/
theorem C91_slices_partial (hr : RootLike root) (dz : ℚ) (hR : StepsWithin root 1 1 1 r R) (auto : Bool) (im : Img (Px t)) (dout : Dims)
    (hacc : im.dims.count ≠ 0 ∧ (dout = im.dims ∨ auto = true)) {a b : Px t} (hab : IsRange im a b)
    (hfit : 1 + R * (im.dims.w * im.dims.h : Nat) < u.hi + 1) :
    ∃ out : Img (Px u), geodesicMeasure root auto false 0 true dz im dout = some (.ok out) ∧ out.dims = im.dims ∧
      ∀ z < im.dims.d, IsDiameter root 1 1 1 1 1 1 r R Touch26 (Above (planeOf im z) (b.val.tdiv 2)) ⟨im.dims.w, im.dims.h, 1⟩ (planeOf out z) := by
  have hb : maxValOf false im = b := ((rangeVal_isRange im hacc.1).2.unique hab).2
  have hpc : ∀ z, (planeOf im z).dims.count ≠ 0 := fun z => by
    obtain ⟨h1, h2, -⟩ := dims_pos (Nat.pos_of_ne_zero hacc.1)
    rw [← count_whd]
    show im.dims.w * im.dims.h * 1 ≠ 0
    rw [mul_one]
    exact (Nat.mul_pos h1 h2).ne'
  obtain ⟨out, e1, e2, e3⟩ := slices_out (u := u) (D := im.dims) (N := fun _ => Touch26) (P := fun z => Above (planeOf im z) (b.val.tdiv 2)) (e0 := fun _ => ⟨0, 0, 0⟩)
    (run := fun z => gmBinary root im.dims.w im.dims.h 1 1 1 1 0 fun j => b.val.tdiv 2 ≤ (im.buf (z * im.dims.w * im.dims.h + j)).val) hR
    (fun z p ⟨a, h, _⟩ => Img.at?_eq_some_in (planeOf im z) _ _ h)
    (fun z _ => binary_pts hr one_pos one_pos one_pos hR (planeOf im z) (hpc z) (b.val.tdiv 2) (method := 0) (le_refl _) (by norm_num) (by norm_num)) hfit
  refine ⟨out, ?_, e2, e3⟩
  unfold geodesicMeasure
  rw [checkOneOut_ok hacc]
  simp only [gmIn, Bool.false_eq_true, if_false, hb, if_true]
  rw [e1]
  rfl

theorem link_zones (im : Img (Px t)) :
    GmLink im.dims (fun j => ((im.buf j).val : ℚ)) (fun i => i < im.dims.count ∧ decide (0 ≤ (im.buf i).val) = true) (Above im 0)
      (fun p q => Touch26 p q ∧ im.at? p = im.at? q) := by
  have h := link_above im 0
  refine ⟨h.lt, h.inn, h.iff, fun p q hp hq => ?_⟩
  rw [Img.buf_offOf im p (h.inn p hp), Img.buf_offOf im q (h.inn q hq), Option.some.injEq, Px.ext_iff']
  constructor
  · rintro ⟨h1, h2⟩; exact ⟨h1, by rw [h2]⟩
  · rintro ⟨h1, h2⟩; exact ⟨h1, by exact_mod_cast h2.symm⟩

/-- **C91**, `labelFlatZones` with the diameter: in every slice, every flat zone (neighbours of equal value) of values that are not negative gets its own length. -/
theorem C91_flat_zones_partial (hr : RootLike root) (hR : StepsWithin root 1 1 1 r R) (auto : Bool) (im : Img (Px t)) (dout : Dims)
    (hacc : im.dims.count ≠ 0 ∧ (dout = im.dims ∨ auto = true)) (hfit : 1 + R * (im.dims.w * im.dims.h : Nat) < u.hi + 1) :
    ∃ out : Img (Px u), labelFlatZones root auto false 0 im dout = some (.ok out) ∧ out.dims = im.dims ∧
      ∀ z < im.dims.d, IsDiameter root 1 1 1 1 1 1 r R (fun p q => Touch26 p q ∧ (planeOf im z).at? p = (planeOf im z).at? q) (Above (planeOf im z) 0)
        ⟨im.dims.w, im.dims.h, 1⟩ (planeOf out z) := by
  obtain ⟨out, e1, e2, e3⟩ := slices_out (u := u) (D := im.dims) (N := fun z p q => Touch26 p q ∧ (planeOf im z).at? p = (planeOf im z).at? q)
    (P := fun z => Above (planeOf im z) 0)
    (run := fun z => gmRun root im.dims.w im.dims.h 1 (fun j => (im.buf (z * im.dims.w * im.dims.h + j)).val) 1 1 1 none 0
      fun j => 0 ≤ (im.buf (z * im.dims.w * im.dims.h + j)).val) hR
    (fun z p ⟨a, h, _⟩ => Img.at?_eq_some_in (planeOf im z) _ _ h)
    (fun z _ => gmRun_pts (D := (planeOf im z).dims) (ini := none) (method := 0) one_pos one_pos one_pos hr.1 hr.2 (fun p q h => (hR.2.2 p q h).2) hR.2.1 (le_refl _)
      (by norm_num) (by simp) (link_zones (planeOf im z)) (by norm_num)) hfit
  refine ⟨out, ?_, e2, e3⟩
  unfold labelFlatZones
  rw [if_neg (by norm_num), checkOneOut_ok hacc]
  simp only [gmIn, Bool.false_eq_true, if_false]
  rw [e1]
  rfl

/-! ### The path opening -/

theorem levels_spec (im : Img (Px t)) : (gmLevels im).Pairwise (· < ·) ∧ ∀ v, v ∈ gmLevels im ↔ ∃ p, im.at? p = some v := by
  refine ⟨?_, fun v => ?_⟩
  · have h1 : (((List.range im.dims.count).map im.buf).insertionSort (· ≤ ·)).Pairwise (· ≤ ·) := List.pairwise_insertionSort _ _
    have h2 : (gmLevels im).Pairwise (· ≤ ·) := h1.sublist (List.dedup_sublist _)
    have h3 : (gmLevels im).Nodup := List.nodup_dedup _
    exact (h2.and h3).imp fun h => lt_of_le_of_ne h.1 h.2
  · unfold gmLevels
    rw [List.mem_dedup, List.mem_insertionSort, List.mem_map]
    constructor
    · rintro ⟨i, hi, rfl⟩
      obtain ⟨a1, a2⟩ := coordPt_in (List.mem_range.mp hi)
      exact ⟨_, by rw [Img.buf_offOf im _ a1, a2]⟩
    · rintro ⟨p, hp⟩
      have hpi := Img.at?_eq_some_in _ _ _ hp
      rw [Img.buf_offOf im p hpi] at hp
      exact ⟨_, List.mem_range.mpr (offOf_lt hpi), Option.some.inj hp⟩

theorem levels_fold {im : Img (Px t)} {sx sy sz len : ℚ} {F : Px t → Nat → ℚ}
    (hF : ∀ v, gmBinary root im.dims.w im.dims.h im.dims.d sx sy sz 0 (fun i => v ≤ im.buf i) = some (F v)) :
    ∀ (l : List (Px t)) (o0 : Nat → Px u), l.Pairwise (· < ·) →
      ∃ o, l.foldlM (gmLevel root sx sy sz len 0 im) o0 = some o ∧
        ∀ i, (o i = o0 i ∧ ∀ v ∈ l, ¬ len ≤ F v i) ∨ ∃ v ∈ l, o i = u.wrap v.val ∧ len ≤ F v i ∧ ∀ w ∈ l, v < w → ¬ len ≤ F w i
  | [], o0, _ => ⟨o0, rfl, fun i => .inl ⟨rfl, by simp⟩⟩
  | v :: l, o0, h => by
    obtain ⟨h1, h2⟩ := List.pairwise_cons.mp h
    obtain ⟨o, e, ho⟩ := levels_fold hF l (fun i => if len ≤ F v i then u.wrap v.val else o0 i) h2
    refine ⟨o, ?_, fun i => ?_⟩
    · rw [List.foldlM_cons]
      unfold gmLevel
      rw [hF v]
      exact e
    · rcases ho i with ⟨k1, k2⟩ | ⟨w, k1, k2, k3, k4⟩
      · by_cases hv : len ≤ F v i
        · right
          refine ⟨v, by simp, by rw [k1, if_pos hv], hv, fun w hw hlt => ?_⟩
          rcases List.mem_cons.mp hw with rfl | hw
          · exact absurd hlt (lt_irrefl _)
          · exact k2 w hw
        · left
          refine ⟨by rw [k1, if_neg hv], fun w hw => ?_⟩
          rcases List.mem_cons.mp hw with rfl | hw
          · exact hv
          · exact k2 w hw
      · right
        refine ⟨w, by simp [k1], k2, k3, fun x hx hlt => ?_⟩
        rcases List.mem_cons.mp hx with rfl | hx
        · exact absurd (hlt.trans (h1 w k1)) (lt_irrefl _)
        · exact k4 x hx hlt

/-- **C91**, `geodesicPathOpening` with the diameter, when the number of grey levels is a value of the pixel type and the length is positive: the value at a pixel is
the greatest level of the image, at most the value of the input, that is the least level of the image or for which the component of the level set around the pixel
has at least the length `len`. -/
theorem C91_path_opening_partial (hr : RootLike root) {sx sy sz : ℚ} (hx : 0 < sx) (hy : 0 < sy) (hz : 0 < sz) (hR : StepsWithin root sy sz sx r R) (auto : Bool)
    {len : ℚ} (hlen : 0 < len) (im : Img (Px t)) (dout : Dims) (hacc : im.dims.count ≠ 0 ∧ (dout = im.dims ∨ auto = true))
    (hlv : ∀ l : List (Px t), l.Nodup → (∀ v ∈ l, ∃ p, im.at? p = some v) → (l.length : Int) ≤ t.hi) :
    ∃ out : Img (Px u), geodesicPathOpening root auto false len 0 sx sy sz im dout = some (.ok out) ∧ out.dims = im.dims ∧
      ∃ L : Px t → IntPoint → ℚ, (∀ v p, Above im v.val p → IsLength root sx sy sz sy sz sx r R (SetPath Touch26 (Above im v.val) p) (L v p)) ∧
        (∀ v p q, SetPath Touch26 (Above im v.val) p q → L v p = L v q) ∧
        ∀ p a, im.at? p = some a → ∃ v, out.at? p = some (u.wrap v.val) ∧
          IsGreatest {v | (∃ q, im.at? q = some v) ∧ v ≤ a ∧ ((∀ q b, im.at? q = some b → v ≤ b) ∨ len ≤ L v p)} v := by
  have hb := fun v : Px t => binary_pts hr hx hy hz hR im hacc.1 v.val (method := 0) (le_refl _) (by norm_num) (by norm_num)
  choose F hF hF0 hF1 using hb
  obtain ⟨hsort, hmem⟩ := levels_spec im
  have hlenL := hlv (gmLevels im) (hsort.imp fun h => h.ne) fun v hv => (hmem v).mp hv
  have hbound : (t.wrap ((gmLevels im).length : Int)).val.toNat = (gmLevels im).length := by
    rw [t.wrap_of_mem (t.lo_nonpos.trans (Int.natCast_nonneg _)) hlenL]
    simp
  obtain ⟨i0, hi0⟩ : ∃ i, i < im.dims.count := ⟨0, Nat.pos_of_ne_zero hacc.1⟩
  obtain ⟨a1, a2⟩ := coordPt_in hi0
  have hne : gmLevels im ≠ [] := List.ne_nil_of_mem ((hmem _).mpr ⟨_, Img.buf_offOf im _ a1⟩)
  obtain ⟨v0, rest, hL⟩ := List.exists_cons_of_ne_nil hne
  rw [hL] at hsort
  obtain ⟨hs1, hs2⟩ := List.pairwise_cons.mp hsort
  obtain ⟨o, e, ho⟩ := levels_fold (u := u) (len := len) (im := im) (F := F) (fun v => hF v) rest (fun _ => u.wrap v0.val) hs2
  refine ⟨⟨im.dims, o⟩, ?_, rfl, fun v p => F v (offOf im.dims p), fun v p hp => ?_, fun v p q hpq => ?_, fun p a hp => ?_⟩
  · unfold geodesicPathOpening
    rw [if_neg (by norm_num), checkOneOut_ok hacc]
    simp only [gmIn, Bool.false_eq_true, if_false, hbound]
    simp only [hL, List.take_length, List.drop_succ_cons, List.drop_zero]
    rw [e]
    rfl
  · obtain ⟨pts, s, e', L, k1, -, k3⟩ := hF1 v p hp
    have e1 : F v (offOf im.dims p) = L := by
      rw [k3 p (.refl hp)]
      exact if_pos rfl
    simp only [e1]
    exact ⟨pts, s, k1.nodup, k1.mem, k1.first, k1.radius hR⟩
  · obtain ⟨pts, s, e', L, k1, -, k3⟩ := hF1 v p hpq.ends.1
    simp only
    rw [k3 p (.refl hpq.ends.1), k3 q hpq]
    rfl
  · have hpi := Img.at?_eq_some_in _ _ _ hp
    have hlow : ∀ q b, im.at? q = some b → v0 ≤ b := fun q b hq => by
      have := (hmem b).mpr ⟨q, hq⟩
      rw [hL] at this
      rcases List.mem_cons.mp this with rfl | h
      · exact le_refl _
      · exact (hs1 b h).le
    have hv0 : ∃ q, im.at? q = some v0 := (hmem v0).mp (by rw [hL]; simp)
    have hle : ∀ v, len ≤ F v (offOf im.dims p) → v ≤ a := by
      intro v hv
      by_contra hn
      have : ¬ Above im v.val p := by
        rintro ⟨b, h1, h2⟩
        rw [hp] at h1
        cases h1
        exact hn (Px.le_iff.mpr h2)
      rw [hF0 v p hpi this] at hv
      exact absurd hlen (not_lt.mpr hv)
    have hat : (⟨im.dims, o⟩ : Img (Px u)).at? p = some (o (offOf im.dims p)) := Img.buf_offOf (⟨im.dims, o⟩ : Img (Px u)) p hpi
    rw [hat]
    rcases ho (offOf im.dims p) with ⟨k1, k2⟩ | ⟨v, k1, k2, k3, k4⟩
    · refine ⟨v0, by rw [k1], ⟨hv0, hlow p a hp, .inl hlow⟩, ?_⟩
      rintro w ⟨hw1, hw2, hw3 | hw3⟩
      · obtain ⟨q, hq⟩ := hv0
        exact hw3 q v0 hq
      · have := (hmem w).mpr hw1
        rw [hL] at this
        rcases List.mem_cons.mp this with rfl | h
        · exact le_refl _
        · exact absurd hw3 (k2 w h)
    · refine ⟨v, by rw [k2], ⟨(hmem v).mp (by rw [hL]; simp [k1]), hle v k3, .inr k3⟩, ?_⟩
      rintro w ⟨hw1, hw2, hw3 | hw3⟩
      · obtain ⟨q, hq⟩ := (hmem v).mp (by rw [hL]; simp [k1])
        exact hw3 q v hq
      · have := (hmem w).mpr hw1
        rw [hL] at this
        rcases List.mem_cons.mp this with rfl | h
        · exact (hs1 v k1).le
        · by_contra hn
          exact k4 w h (not_le.mp hn) hw3

/-- **C91**, errors: an image that is not allocated, an output that cannot be resized, a method out of range. The method of the measures is not checked. -/
theorem C91_errors (root : ℚ → ℚ) (auto inPl bySlice : Bool) (sel : Int) (dz len sx sy sz : ℚ) (im : Img (Px t)) (dout : Dims) :
    (sel < 0 ∨ 3 < sel → (labelFlatZones root auto inPl sel im dout : Option (Except Int (Img (Px u)))) = some (.error (-100)) ∧
      (geodesicPathOpening root auto inPl len sel sx sy sz im dout : Option (Except Int (Img (Px u)))) = some (.error (-100))) ∧
    (im.dims.count = 0 → (geodesicMeasure root auto inPl sel bySlice dz im dout : Option (Except Int (Img (Px u)))) = some (.error (-99)) ∧
      (0 ≤ sel ∧ sel ≤ 3 → (labelFlatZones root auto inPl sel im dout : Option (Except Int (Img (Px u)))) = some (.error (-99)) ∧
        (geodesicPathOpening root auto inPl len sel sx sy sz im dout : Option (Except Int (Img (Px u)))) = some (.error (-99)))) ∧
    (im.dims.count ≠ 0 → dout ≠ im.dims → auto = false →
      (geodesicMeasure root auto inPl sel bySlice dz im dout : Option (Except Int (Img (Px u)))) = some (.error (-98)) ∧
      (0 ≤ sel ∧ sel ≤ 3 → (labelFlatZones root auto inPl sel im dout : Option (Except Int (Img (Px u)))) = some (.error (-98)) ∧
        (geodesicPathOpening root auto inPl len sel sx sy sz im dout : Option (Except Int (Img (Px u)))) = some (.error (-98)))) := by
  refine ⟨fun h => ⟨?_, ?_⟩, fun h => ?_, fun h h' h'' => ?_⟩
  · unfold labelFlatZones; rw [if_pos h]
  · unfold geodesicPathOpening; rw [if_pos h]
  · have e : checkOneOut auto im.dims dout = .error (-99) := by unfold checkOneOut; rw [if_pos h]; rfl
    refine ⟨by unfold geodesicMeasure; rw [e], fun h3 => ⟨?_, ?_⟩⟩
    · unfold labelFlatZones; rw [if_neg (by omega), e]
    · unfold geodesicPathOpening; rw [if_neg (by omega), e]
  · have e : checkOneOut auto im.dims dout = .error (-98) := by
      unfold checkOneOut; rw [if_neg h, if_neg h', h'']; rfl
    refine ⟨by unfold geodesicMeasure; rw [e], fun h3 => ⟨?_, ?_⟩⟩
    · unfold labelFlatZones; rw [if_neg (by omega), e]
    · unfold geodesicPathOpening; rw [if_neg (by omega), e]

end
end
/-! ### Cases -/

/-- A square root for the examples: right on 1, rounded on 2, 3 and 10, right on 4 and 9. -/
def rootEx (q : ℚ) : ℚ :=
  if q = 2 then 1414 / 1000 else if q = 3 then 1732 / 1000 else if q = 4 then 2 else if q = 9 then 3 else if q = 10 then 3162 / 1000 else q

theorem rootEx_like : RootLike rootEx := by
  unfold rootEx
  constructor <;> intro q hq <;> dsimp only <;> split_ifs <;> first | linarith | norm_num

theorem rootEx_steps : StepsWithin rootEx 1 1 1 1 (1732 / 1000) := by
  refine ⟨by norm_num, by norm_num, fun p q h => ?_⟩
  have hv : gridSq 1 1 1 p q = 1 ∨ gridSq 1 1 1 p q = 2 ∨ gridSq 1 1 1 p q = 3 := by
    obtain ⟨h1, h2, h3, h4⟩ := h
    have e : gridSq 1 1 1 p q = (((q.x - p.x) ^ 2 + (q.y - p.y) ^ 2 + (q.z - p.z) ^ 2 : Int) : ℚ) := by
      unfold gridSq
      push_cast
      ring
    have hs : ∀ a : Int, -1 ≤ a ∧ a ≤ 1 → a ^ 2 = 0 ∧ a = 0 ∨ a ^ 2 = 1 := by
      intro a ha
      have : a = -1 ∨ a = 0 ∨ a = 1 := by omega
      rcases this with rfl | rfl | rfl <;> simp
    have hi : (q.x - p.x) ^ 2 + (q.y - p.y) ^ 2 + (q.z - p.z) ^ 2 = 1 ∨ (q.x - p.x) ^ 2 + (q.y - p.y) ^ 2 + (q.z - p.z) ^ 2 = 2 ∨
        (q.x - p.x) ^ 2 + (q.y - p.y) ^ 2 + (q.z - p.z) ^ 2 = 3 := by
      rcases hs _ h2 with ⟨a1, a2⟩ | a1 <;> rcases hs _ h3 with ⟨b1, b2⟩ | b1 <;> rcases hs _ h4 with ⟨c1, c2⟩ | c1 <;> rw [a1, b1, c1]
      · exact absurd (by
          obtain ⟨x, y, z⟩ := p
          obtain ⟨x', y', z'⟩ := q
          simp only at a2 b2 c2
          simp only [IntPoint.mk.injEq]
          omega) h1
      all_goals decide
    rw [e]
    rcases hi with hi | hi | hi <;> rw [hi]
    · left; norm_num
    · right; left; norm_num
    · right; right; norm_num
  unfold rootEx
  rcases hv with hv | hv | hv <;> rw [hv] <;> norm_num

/-- The pixels of a result, if there is one. -/
def gmVals (r : Option (Except Int (Img (Px UINT8)))) : Option (List Int) :=
  r.bind fun e => match e with
    | .ok im => some ((List.range im.dims.count).map fun i => (im.buf i).val)
    | .error _ => none

/-- The hypotheses of the theorems are met by a segment of three pixels: the diameter is 3. -/
example : ∃ out : Img (Px UINT8), geodesicMeasure rootEx false false 0 false 1 (im8 ⟨5, 1, 1⟩ [0, 255, 255, 255, 0]) ⟨5, 1, 1⟩ = some (.ok out) ∧
    IsDiameter rootEx 1 1 1 1 1 1 1 (1732 / 1000) Touch26 (Above (im8 ⟨5, 1, 1⟩ [0, 255, 255, 255, 0]) 127) ⟨5, 1, 1⟩ out := by
  have hab : IsRange (im8 ⟨5, 1, 1⟩ [0, 255, 255, 255, 0]) (UINT8.wrap 0) (UINT8.wrap 255) := by
    refine ⟨⟨⟨0, 0, 0⟩, by decide⟩, ⟨⟨1, 0, 0⟩, by decide⟩, fun p v _ => ⟨Px.le_iff.mpr v.lo_le, Px.le_iff.mpr v.le_hi⟩⟩
  have hc : (im8 ⟨5, 1, 1⟩ [0, 255, 255, 255, 0]).dims.count = 5 := by decide
  exact C91_diameter_partial (u := UINT8) rootEx_like one_pos rootEx_steps false (im8 ⟨5, 1, 1⟩ [0, 255, 255, 255, 0]) ⟨5, 1, 1⟩
    ⟨by rw [hc]; norm_num, .inl rfl⟩ hab (by rw [hc]; show (1 : ℚ) + 1732 / 1000 * (5 : Nat) < ((255 : Int) : ℚ) + 1; norm_num)

example : gmVals (geodesicMeasure rootEx false false 0 false 1 (im8 ⟨5, 1, 1⟩ [0, 255, 255, 255, 0]) ⟨5, 1, 1⟩) = some [0, 3, 3, 3, 0] ∧
    gmVals (geodesicMeasure rootEx false false 1 false 1 (im8 ⟨5, 1, 1⟩ [0, 255, 255, 255, 0]) ⟨5, 1, 1⟩) = some [0, 2, 2, 2, 0] ∧
    gmVals (geodesicMeasure rootEx false false 2 false 1 (im8 ⟨5, 1, 1⟩ [0, 255, 255, 255, 0]) ⟨5, 1, 1⟩) = some [0, 1, 1, 1, 0] ∧
    gmVals (geodesicMeasure rootEx false false 3 false 1 (im8 ⟨5, 1, 1⟩ [0, 255, 255, 255, 0]) ⟨5, 1, 1⟩) = some [0, 2, 0, 1, 0] := by
  decide +kernel

/-- Two slices of two pixels. -/
example : gmVals (geodesicMeasure rootEx false false 0 true 1 (im8 ⟨2, 1, 2⟩ [255, 255, 0, 255]) ⟨2, 1, 2⟩) = some [2, 2, 0, 1] := by decide +kernel

/-- The flat zones of a line. -/
example : gmVals (labelFlatZones rootEx false false 0 (im8 ⟨5, 1, 1⟩ [4, 4, 7, 7, 7]) ⟨5, 1, 1⟩) = some [2, 2, 3, 3, 3] := by decide +kernel

/-- A peak that is too short is lowered to the level at which it has three pixels. -/
example : gmVals (geodesicPathOpening rootEx false false 3 0 1 1 1 (im8 ⟨5, 1, 1⟩ [1, 5, 7, 9, 2]) ⟨5, 1, 1⟩) = some [1, 5, 5, 5, 2] := by decide +kernel

/-- Five levels are few. -/
example : ∀ l : List (Px UINT8), l.Nodup → (∀ v ∈ l, ∃ p, (im8 ⟨5, 1, 1⟩ [1, 5, 7, 9, 2]).at? p = some v) → (l.length : Int) ≤ UINT8.hi := by
  intro l hl h
  have hsub : l ⊆ [UINT8.wrap 1, UINT8.wrap 5, UINT8.wrap 7, UINT8.wrap 9, UINT8.wrap 2] := by
    intro v hv
    obtain ⟨p, hp⟩ := h v hv
    have hpi := Img.at?_eq_some_in _ _ _ hp
    rw [Img.buf_offOf _ p hpi] at hp
    cases hp
    have hlt := offOf_lt hpi
    obtain ⟨i, hi⟩ : ∃ i, i = offOf (im8 ⟨5, 1, 1⟩ [1, 5, 7, 9, 2]).dims p := ⟨_, rfl⟩
    rw [← hi] at hlt ⊢
    have hc : (im8 ⟨5, 1, 1⟩ [1, 5, 7, 9, 2]).dims.count = 5 := by decide
    rw [hc] at hlt
    have : ∀ i < 5, (im8 ⟨5, 1, 1⟩ [1, 5, 7, 9, 2]).buf i ∈ [UINT8.wrap 1, UINT8.wrap 5, UINT8.wrap 7, UINT8.wrap 9, UINT8.wrap 2] := by decide +kernel
    exact this i hlt
  have := (hl.subperm hsub).length_le
  have h255 : UINT8.hi = 255 := by decide
  rw [h255]
  simp only [List.length_cons, List.length_nil] at this
  omega

/-! ### Exceptions -/

/-- **C91**, the length may exceed what is needed: in a block of four pixels all pixels are neighbours, so that no walk needs more than one step of length `√2`, and `1 + √2 < 3`; the
result is 3, since `DistMax` is also compared with distances that are lowered later. -/
theorem C91_longer_than_needed_bug :
    gmVals (geodesicMeasure rootEx false false 0 false 1 (im8 ⟨2, 2, 1⟩ [255, 255, 255, 255]) ⟨2, 2, 1⟩) = some [3, 3, 3, 3] ∧
      (∀ p q : IntPoint, Img.In ⟨2, 2, 1⟩ p → Img.In ⟨2, 2, 1⟩ q → p ≠ q → Touch26 p q ∧ gridSq 1 1 1 p q ≤ 2) ∧ rootEx 2 < 2 := by
  refine ⟨by decide +kernel, fun p q hp hq hne => ?_, by decide +kernel⟩
  unfold Img.In at hp hq
  simp only at hp hq
  refine ⟨⟨hne, by omega, by omega, by omega⟩, ?_⟩
  have hz : q.z - p.z = 0 := by omega
  have hs : ∀ a : Int, -1 ≤ a ∧ a ≤ 1 → a ^ 2 ≤ 1 := fun a ha => by
    have : a = -1 ∨ a = 0 ∨ a = 1 := by omega
    rcases this with rfl | rfl | rfl <;> decide
  have h1 : (((q.x - p.x) ^ 2 : Int) : ℚ) ≤ 1 := by exact_mod_cast hs (q.x - p.x) (by omega)
  have h2 : (((q.y - p.y) ^ 2 : Int) : ℚ) ≤ 1 := by exact_mod_cast hs (q.y - p.y) (by omega)
  unfold gridSq
  rw [hz]
  push_cast at h1 h2 ⊢
  linarith

/-- **C91**, an image with the values 0 and 1: half of the maximum is 0, so that the background belongs to the set. -/
theorem C91_low_maximum_bug :
    gmVals (geodesicMeasure rootEx false false 0 false 1 (im8 ⟨5, 1, 1⟩ [0, 0, 1, 0, 0]) ⟨5, 1, 1⟩) = some [5, 5, 5, 5, 5] ∧
      gmVals (geodesicMeasure rootEx false false 0 false 1 (im8 ⟨5, 1, 1⟩ [0, 0, 2, 0, 0]) ⟨5, 1, 1⟩) = some [0, 0, 1, 0, 0] := by
  decide +kernel

/-- **C91**, a component of one pixel: its second extremity is written to the first pixel of the image; its tortuosity depends on its position. -/
theorem C91_single_pixel_bug :
    gmVals (geodesicMeasure rootEx false false 3 false 1 (im8 ⟨5, 1, 1⟩ [0, 0, 255, 0, 0]) ⟨5, 1, 1⟩) = some [2, 0, 1, 0, 0] ∧
      gmVals (geodesicMeasure rootEx false false 2 false 1 (im8 ⟨5, 1, 1⟩ [0, 0, 255, 0, 0]) ⟨5, 1, 1⟩) = some [0, 0, 0, 0, 0] ∧
      gmVals (geodesicMeasure rootEx false false 2 false 1 (im8 ⟨5, 1, 1⟩ [0, 255, 0, 0, 0]) ⟨5, 1, 1⟩) = some [0, 1, 0, 0, 0] := by
  decide +kernel

/-- **C91**, `dzOverDx` stretches the steps in `y`, not those in `z`. -/
theorem C91_scale_bug :
    gmVals (geodesicMeasure rootEx false false 0 false 3 (im8 ⟨1, 2, 1⟩ [255, 255]) ⟨1, 2, 1⟩) = some [4, 4] ∧
      gmVals (geodesicMeasure rootEx false false 0 false 3 (im8 ⟨1, 1, 2⟩ [255, 255]) ⟨1, 1, 2⟩) = some [2, 2] := by
  decide +kernel

/-- **C91**, in place: the output is filled with zeros before the input is read. -/
theorem C91_in_place_bug :
    gmVals (geodesicMeasure rootEx false true 0 false 1 (im8 ⟨5, 1, 1⟩ [0, 255, 255, 255, 0]) ⟨5, 1, 1⟩) = some [5, 5, 5, 5, 5] := by
  decide +kernel

/-- **C91**, a path opening by a length of 0 is not anti-extensive: the greatest level is written everywhere. -/
theorem C91_zero_length_bug :
    gmVals (geodesicPathOpening rootEx false false 0 0 1 1 1 (im8 ⟨5, 1, 1⟩ [1, 5, 7, 9, 2]) ⟨5, 1, 1⟩) = some [9, 9, 9, 9, 9] := by
  decide +kernel

/-- **C91**, `labelFlatZones` with the tortuosity reads coordinates that were never set when a zone has one pixel. -/
theorem C91_flat_zone_pixel_bug :
    (labelFlatZones (u := UINT8) rootEx false false 2 (im8 ⟨5, 1, 1⟩ [4, 4, 7, 4, 4]) ⟨5, 1, 1⟩).isNone = true := by
  decide +kernel

/-- **C91**, a path opening of an image with all the levels of its type, or of any image whose number of levels is 0 in the type: no level is looked at, the output is constant. -/
theorem C91_levels_bug (root : ℚ → ℚ) (auto : Bool) (len sx sy sz : ℚ) (im : Img (Px t)) (dout : Dims) (hacc : im.dims.count ≠ 0 ∧ (dout = im.dims ∨ auto = true))
    (l : List (Px t)) (hl : l.Nodup) (hlm : ∀ v, v ∈ l ↔ ∃ p, im.at? p = some v) (h0 : (t.wrap (l.length : Int)).val = 0) :
    ∃ (out : Img (Px u)) (v : Px t), geodesicPathOpening root auto false len 0 sx sy sz im dout = some (.ok out) ∧ (∃ q, im.at? q = some v) ∧
      (∀ q b, im.at? q = some b → v ≤ b) ∧ ∀ p, Img.In im.dims p → out.at? p = some (u.wrap v.val) := by
  obtain ⟨hsort, hmem⟩ := levels_spec im
  have hnd : (gmLevels im).Nodup := hsort.imp fun h => h.ne
  have hlen : (gmLevels im).length = l.length := ((List.perm_ext_iff_of_nodup hnd hl).mpr fun v => (hmem v).trans (hlm v).symm).length_eq
  obtain ⟨a1, a2⟩ := coordPt_in (Nat.pos_of_ne_zero hacc.1)
  have hne : gmLevels im ≠ [] := List.ne_nil_of_mem ((hmem _).mpr ⟨_, Img.buf_offOf im _ a1⟩)
  obtain ⟨v0, rest, hL⟩ := List.exists_cons_of_ne_nil hne
  refine ⟨⟨im.dims, fun _ => u.wrap v0.val⟩, v0, ?_, (hmem v0).mp (by rw [hL]; simp), fun q b hq => ?_, fun p hp => Img.buf_offOf ⟨im.dims, _⟩ p hp⟩
  · unfold geodesicPathOpening
    rw [if_neg (by norm_num), checkOneOut_ok hacc]
    simp only [gmIn, Bool.false_eq_true, if_false, hlen, h0]
    simp only [hL, Int.toNat_zero, List.take_zero, List.drop_nil]
    rfl
  · have := (hmem b).mpr ⟨q, hq⟩
    rw [hL] at this hsort
    rcases List.mem_cons.mp this with rfl | h
    · exact le_refl _
    · exact ((List.pairwise_cons.mp hsort).1 b h).le

/-- The 256 levels of `UINT8`. -/
example : (UINT8.wrap (((List.range 256).map fun n => UINT8.wrap (n : Nat)).length : Int)).val = 0 ∧
    ((List.range 256).map fun n => UINT8.wrap (n : Nat)).Nodup := by decide +kernel

end Smil
