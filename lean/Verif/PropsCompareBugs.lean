import Verif.PropsHausdorff
import Mathlib.Tactic.NormNum
import Mathlib.Tactic.IntervalCases

/-!
# C69: exceptions

Negative values, different nonzero values, constant images, images of different sizes, and objects that differ inside.
-/

namespace Smil
variable {t : PT}

/-- **C69** (errors). An error code is returned as if it were the index. -/
theorem C69_errors (E : Env (Px t)) (a b : Img (Px t)) :
    (a.alloc = false ∨ b.alloc = false → indexPrecision E a b = -99 ∧ indexJaccard E a b = -99 ∧ distanceHamming E a b = 2 ^ 64 - 99) ∧
    (a.alloc = true → b.alloc = true → b.dims ≠ a.dims → E.auto = false →
      indexPrecision E a b = -98 ∧ indexJaccard E a b = -98 ∧ distanceHamming E a b = 2 ^ 64 - 98) := by
  refine ⟨fun h => ?_, fun h1 h2 h3 h4 => ?_⟩
  · have hc : cmpCheck E a b = .error errBadAllocation := by unfold cmpCheck; rw [if_pos h]
    unfold indexPrecision indexJaccard distanceHamming indexOf
    rw [hc]
    exact ⟨by norm_num [errBadAllocation], by norm_num [errBadAllocation], show sizeT errBadAllocation = _ by decide⟩
  · have hc : cmpCheck E a b = .error errBadSize := by
      unfold cmpCheck; rw [if_neg (by simp [h1, h2]), if_neg h3, h4]; rfl
    unfold indexPrecision indexJaccard distanceHamming indexOf
    rw [hc]
    exact ⟨by norm_num [errBadSize], by norm_num [errBadSize], show sizeT errBadSize = _ by decide⟩

/-- A line of pixels. -/
def rowIm (t : PT) (l : List Int) : Img (Px t) := ⟨⟨l.length, 1, 1⟩, fun i => t.wrap (l.getD i 0)⟩

/-- An environment of the examples. -/
def exEnvCmp (auto : Bool) (t : PT) (raw : Int) : Env (Px t) := ⟨1, auto, fun _ => t.wrap raw, fun _ => t.wrap raw⟩

/-! The hypotheses of the general theorems are met. -/

example : (rowIm UINT8 [0, 3, 255]).alloc = true ∧ (rowIm UINT8 [1, 3, 5]).alloc = true ∧
    (rowIm UINT8 [1, 3, 5]).dims = (rowIm UINT8 [0, 3, 255]).dims ∧ 1 ≤ UINT8.hi ∧ isBinary (rowIm UINT8 [0, 3, 255]) = false ∧
    distanceHamming (exEnvCmp false UINT8 0) (rowIm UINT8 [0, 3, 255]) (rowIm UINT8 [1, 3, 5]) = 2 := by decide

example : isBinary (rowIm UINT8 [0, 255, 255]) = true ∧ isBinary (rowIm UINT8 [0, 0, 255]) = true := by decide

/-- **C69** (exception). With negative values, accepted as binary, the precision can exceed one. -/
theorem C69_negative_bug (E : Env (Px INT8)) : TwoValued (rowIm INT8 [-1, 0]) ∧ TwoValued (rowIm INT8 [0, -1]) ∧
    indexPrecision E (rowIm INT8 [-1, 0]) (rowIm INT8 [0, -1]) = 5 / 3 := by
  have h1 : isBinary (rowIm INT8 [-1, 0]) = true := by decide
  have h2 : isBinary (rowIm INT8 [0, -1]) = true := by decide
  refine ⟨(isBinary_iff _).mp h1, (isBinary_iff _).mp h2, ?_⟩
  unfold indexPrecision
  rw [indexOf_ok E (by decide) (by decide) (by decide), ifBinary_ok ((isBinary_iff _).mp h1) ((isBinary_iff _).mp h2)]
  have e1 : areaOf (Img.zipF kInf (rowIm INT8 [-1, 0]) (rowIm INT8 [0, -1])) = 2 := by decide
  have e2 : areaOf (rowIm INT8 [0, -1]) = 1 := by decide
  rw [e1, e2]
  norm_num [dxm]

/-- **C69** (exception). The same object with two different nonzero values: precision and recall are one, the accuracy one half. -/
theorem C69_accuracy_bug (E : Env (Px UINT8)) (thr : Px UINT8) :
    indexAccuracy E thr (rowIm UINT8 [0, 255]) (rowIm UINT8 [0, 1]) = some (1 / 2) ∧
    indexPrecision E (rowIm UINT8 [0, 255]) (rowIm UINT8 [0, 1]) = 1 ∧ indexRecall E (rowIm UINT8 [0, 255]) (rowIm UINT8 [0, 1]) = 1 := by
  have h1 : isBinary (rowIm UINT8 [0, 255]) = true := by decide
  have h2 : isBinary (rowIm UINT8 [0, 1]) = true := by decide
  have hi : (Img.zipF kInf (rowIm UINT8 [0, 255]) (rowIm UINT8 [0, 1])).buf = (Img.zipF kInf (rowIm UINT8 [0, 255]) (rowIm UINT8 [0, 1])).buf := rfl
  have e1 : areaOf (Img.zipF kInf (rowIm UINT8 [0, 255]) (rowIm UINT8 [0, 1])) = 1 := by decide
  have e2 : areaOf (rowIm UINT8 [0, 1]) = 1 := by decide
  have e3 : areaOf (rowIm UINT8 [0, 255]) = 1 := by decide
  have e4 : areaOf (Img.zipF kEqu (rowIm UINT8 [0, 255]) (rowIm UINT8 [0, 1])) = 1 := by decide
  have e5 : (rowIm UINT8 [0, 255]).dims.count = 2 := by decide
  refine ⟨?_, ?_, ?_⟩
  · unfold indexAccuracy cmpCheck
    rw [if_neg (by decide), if_pos (by decide)]
    simp only
    rw [if_pos (by rw [h1, h2]; rfl), e4, e5]
    norm_num
  · unfold indexPrecision
    rw [indexOf_ok E (by decide) (by decide) (by decide), ifBinary_ok ((isBinary_iff _).mp h1) ((isBinary_iff _).mp h2), e1, e2]
    norm_num [dxm]
  · unfold indexRecall
    rw [indexOf_ok E (by decide) (by decide) (by decide)]
    unfold indexSensitivity
    rw [indexOf_ok E (by decide) (by decide) (by decide), ifBinary_ok ((isBinary_iff _).mp h1) ((isBinary_iff _).mp h2), e1, e3]
    norm_num [dxm]

/-- **C69** (exception). An image with a single value is not binary: a perfect result on an image that is all object, or all background, has precision, recall and specificity zero. -/
theorem C69_constant_bug (E : Env (Px t)) (a : Img (Px t)) (v : Px t) (ha : a.alloc = true) (hv : ∀ p u, a.at? p = some u → u = v) :
    indexPrecision E a a = 0 ∧ indexRecall E a a = 0 ∧ indexSpecificity E a a = 0 ∧ nFP a a = 0 ∧ nFN a a = 0 := by
  have hnb : isBinary a = false := by
    rw [Bool.eq_false_iff]
    intro hb
    obtain ⟨c, hc, ⟨p, hp⟩, ⟨q, hq⟩, -⟩ := (isBinary_iff a).mp hb
    exact hc ((hv _ _ hp).trans (hv _ _ hq).symm)
  have hz : ∀ f, ifBinary f a a = 0 := by
    intro f
    unfold ifBinary
    rw [if_pos (Or.inl hnb)]
  have hempty : ∀ P : Int → Int → Prop, (∀ u, ¬ P u u) → pixCount a a P = 0 := by
    intro P hP
    unfold pixCount
    have : {p : IntPoint | ∃ u v, a.at? p = some u ∧ a.at? p = some v ∧ P u.val v.val} = ∅ := by
      rw [Set.eq_empty_iff_forall_notMem]
      rintro p ⟨u, w, h1, h2, h3⟩
      rw [h1] at h2
      cases h2
      exact hP _ h3
    rw [this, Set.ncard_empty]
  refine ⟨?_, ?_, ?_, hempty _ (by intro u; tauto), hempty _ (by intro u; tauto)⟩
  · unfold indexPrecision; rw [indexOf_ok E ha ha rfl, hz]
  · unfold indexRecall; rw [indexOf_ok E ha ha rfl]
    unfold indexSensitivity; rw [indexOf_ok E ha ha rfl, hz]
  · unfold indexSpecificity; rw [indexOf_ok E ha ha rfl, hz]

/-- **C69** (exception). With `autoResizeImages`, images of different sizes are not refused: the second is resized, and the result depends on the memory it gets. -/
theorem C69_resize_bug :
    distanceHamming (exEnvCmp true UINT8 0) (rowIm UINT8 [0, 255]) (rowIm UINT8 [0, 1, 2]) = 1 ∧
    distanceHamming (exEnvCmp true UINT8 7) (rowIm UINT8 [0, 255]) (rowIm UINT8 [0, 1, 2]) = 2 := by
  constructor <;> decide

/-- The square of `n` lines and columns without the border. -/
def exSquare (hole : Bool) : Img (Px UINT8) :=
  ⟨⟨5, 5, 1⟩, fun i => if 1 ≤ i % 5 ∧ i % 5 ≤ 3 ∧ 1 ≤ i / 5 ∧ i / 5 ≤ 3 ∧ ¬ (hole = true ∧ i = 12) then UINT8.wrap 255 else UINT8.wrap 0⟩

theorem exSquare_at (hole : Bool) (p : IntPoint) : (exSquare hole).at? p =
    if 0 ≤ p.x ∧ p.x < 5 ∧ 0 ≤ p.y ∧ p.y < 5 ∧ p.z = 0 then
      some (if 1 ≤ p.x ∧ p.x ≤ 3 ∧ 1 ≤ p.y ∧ p.y ≤ 3 ∧ ¬ (hole = true ∧ p.x = 2 ∧ p.y = 2) then UINT8.wrap 255 else UINT8.wrap 0)
    else none := by
  by_cases h : 0 ≤ p.x ∧ p.x < 5 ∧ 0 ≤ p.y ∧ p.y < 5 ∧ p.z = 0
  · rw [if_pos h, Img.at?_some _ p (by unfold Img.In exSquare; dsimp only; omega)]
    unfold exSquare Img.px rasterIndex
    dsimp only
    have e1 : (p.x.toNat + 5 * (p.y.toNat + 5 * p.z.toNat)) % 5 = p.x.toNat := by omega
    have e2 : (p.x.toNat + 5 * (p.y.toNat + 5 * p.z.toNat)) / 5 = p.y.toNat := by omega
    rw [e1, e2]
    congr 1
    refine if_congr ?_ rfl rfl
    constructor
    · rintro ⟨h1, h2, h3, h4, h5⟩
      exact ⟨by omega, by omega, by omega, by omega, fun hc => h5 ⟨hc.1, by omega⟩⟩
    · rintro ⟨h1, h2, h3, h4, h5⟩
      exact ⟨by omega, by omega, by omega, by omega, fun hc => h5 ⟨hc.1, by omega, by omega⟩⟩
  · rw [if_neg h, Img.at?_none _ p (by unfold Img.In exSquare; dsimp only; omega)]

theorem exSquare_object (hole : Bool) (p : IntPoint) : p ∈ objectOf (exSquare hole) ↔
    1 ≤ p.x ∧ p.x ≤ 3 ∧ 1 ≤ p.y ∧ p.y ≤ 3 ∧ p.z = 0 ∧ ¬ (hole = true ∧ p.x = 2 ∧ p.y = 2) := by
  unfold objectOf
  simp only [Set.mem_ofPred_eq, exSquare_at]
  constructor
  · rintro ⟨u, hu, hu0⟩
    split at hu
    · rename_i hin
      cases hu
      split at hu0
      · rename_i h; exact ⟨by omega, by omega, by omega, by omega, by omega, h.2.2.2.2⟩
      · exact absurd (by decide) hu0
    · cases hu
  · rintro ⟨h1, h2, h3, h4, h5, h6⟩
    refine ⟨UINT8.wrap 255, ?_, by decide⟩
    rw [if_pos ⟨by omega, by omega, by omega, by omega, h5⟩, if_pos ⟨h1, h2, h3, h4, h6⟩]

theorem exSquare_zero (hole : Bool) (q : IntPoint) : (∃ u, (exSquare hole).at? q = some u ∧ u.val = 0) ↔
    (0 ≤ q.x ∧ q.x < 5 ∧ 0 ≤ q.y ∧ q.y < 5 ∧ q.z = 0) ∧
      ¬ (1 ≤ q.x ∧ q.x ≤ 3 ∧ 1 ≤ q.y ∧ q.y ≤ 3 ∧ ¬ (hole = true ∧ q.x = 2 ∧ q.y = 2)) := by
  rw [exSquare_at]
  constructor
  · rintro ⟨u, hu, hu0⟩
    split at hu
    · rename_i hin
      refine ⟨hin, fun hc => ?_⟩
      rw [if_pos hc] at hu
      cases hu
      exact absurd hu0 (by decide)
    · cases hu
  · rintro ⟨h1, h2⟩
    exact ⟨UINT8.wrap 0, by rw [if_pos h1, if_neg h2], by decide⟩

theorem exSquare_boundary (hole : Bool) (p : IntPoint) : p ∈ boundaryOf (exSquare hole) ↔
    1 ≤ p.x ∧ p.x ≤ 3 ∧ 1 ≤ p.y ∧ p.y ≤ 3 ∧ p.z = 0 ∧ ¬ (p.x = 2 ∧ p.y = 2) := by
  constructor
  · rintro ⟨h, q, u, h1, h2, h3, h4, h5⟩
    rw [exSquare_object] at h
    have hq := (exSquare_zero hole q).mp ⟨u, h4, h5⟩
    rw [abs_le] at h2 h3
    refine ⟨h.1, h.2.1, h.2.2.1, h.2.2.2.1, h.2.2.2.2.1, fun hc => ?_⟩
    apply hq.2
    refine ⟨by omega, by omega, by omega, by omega, fun hx => ?_⟩
    exact h.2.2.2.2.2 ⟨hx.1, hc.1, hc.2⟩
  · rintro ⟨h1, h2, h3, h4, h5, h6⟩
    refine ⟨(exSquare_object hole p).mpr ⟨h1, h2, h3, h4, h5, fun hc => h6 hc.2⟩, ?_⟩
    have key : ∀ q : IntPoint, q.z = p.z → |q.x - p.x| ≤ 1 → |q.y - p.y| ≤ 1 → (0 ≤ q.x ∧ q.x < 5 ∧ 0 ≤ q.y ∧ q.y < 5) →
        (q.x = 0 ∨ q.x = 4 ∨ q.y = 0 ∨ q.y = 4) →
        ∃ q u, q.z = p.z ∧ |q.x - p.x| ≤ 1 ∧ |q.y - p.y| ≤ 1 ∧ (exSquare hole).at? q = some u ∧ u.val = 0 := by
      intro q k1 k2 k3 k4 k5
      obtain ⟨u, hu, hu0⟩ := (exSquare_zero hole q).mpr ⟨⟨k4.1, k4.2.1, k4.2.2.1, k4.2.2.2, by omega⟩, fun hc => by omega⟩
      exact ⟨q, u, k1, k2, k3, hu, hu0⟩
    by_cases hx : p.x = 2
    · by_cases hy : p.y = 1
      · exact key ⟨p.x, 0, p.z⟩ rfl (by simp) (by simp [hy]) (by dsimp only; omega) (by simp)
      · have hy3 : p.y = 3 := by omega
        exact key ⟨p.x, 4, p.z⟩ rfl (by simp) (by simp [hy3]) (by dsimp only; omega) (by simp)
    · by_cases hx1 : p.x = 1
      · exact key ⟨0, p.y, p.z⟩ rfl (by simp [hx1]) (by simp) (by dsimp only; omega) (by simp)
      · have hx3 : p.x = 3 := by omega
        exact key ⟨4, p.y, p.z⟩ rfl (by simp [hx3]) (by simp) (by dsimp only; omega) (by simp)

theorem nonneg_unsigned (hs : t.signed = false) (a : Img (Px t)) : NonNeg a := by
  intro p u _
  have h1 := u.lo_le
  rw [lo_unsigned hs] at h1
  exact h1

theorem exSquare_two (hole : Bool) : TwoValued (exSquare hole) := by
  refine ⟨UINT8.wrap 255, by decide, ⟨⟨1, 1, 0⟩, ?_⟩, ⟨⟨0, 0, 0⟩, ?_⟩, fun p w hw => ?_⟩
  · rw [exSquare_at]; cases hole <;> decide
  · rw [exSquare_at]; cases hole <;> decide
  · rw [exSquare_at] at hw
    split at hw
    · cases hw
      split
      · exact Or.inr rfl
      · exact Or.inl (by decide)
    · cases hw

theorem exSquare_pair : BinPair (exSquare false) (exSquare true) :=
  ⟨by decide, by decide, rfl, by decide, exSquare_two _, exSquare_two _, nonneg_unsigned rfl _, nonneg_unsigned rfl _⟩

example : BinPair (exSquare false) (exSquare true) ∧ 2 ≤ (exSquare false).dims.h := ⟨exSquare_pair, by decide⟩

/-- **C69** (exception). A square and the same square without its centre: the computed distance is zero, the Hausdorff distance of the objects is one. -/
theorem C69_hausdorff_bug (E : Env (Px UINT8)) : distanceHausdorff E (exSquare false) (exSquare true) = .ok (some 0) ∧
    IsHausdorff2 (objectOf (exSquare false)) (objectOf (exSquare true)) 1 := by
  constructor
  · obtain ⟨r, h1, h2⟩ := C69_hausdorff_partial rfl E _ _ exSquare_pair (by decide)
    have e : boundaryOf (exSquare false) = boundaryOf (exSquare true) := by
      ext p; rw [exSquare_boundary, exSquare_boundary]
    have : r ≤ ((0 : Nat) : WithTop Nat) := (h2 0).mpr (by
      rw [e]
      exact ⟨fun p hp => ⟨p, hp, by simp [dist2]⟩, fun p hp => ⟨p, hp, by simp [dist2]⟩⟩)
    have hr : r = 0 := le_antisymm this bot_le
    rw [h1, hr]
  · intro k
    constructor
    · intro hk
      have hk1 : 1 ≤ k := by exact_mod_cast hk
      constructor
      · intro p hp
        by_cases hc : p.x = 2 ∧ p.y = 2
        · refine ⟨⟨1, 2, 0⟩, (exSquare_object _ _).mpr (by simp), ?_⟩
          have hz := ((exSquare_object _ _).mp hp).2.2.2.2.1
          unfold dist2
          rw [hc.1, hc.2, hz]
          norm_num
          omega
        · refine ⟨p, (exSquare_object _ _).mpr ?_, by simp [dist2]⟩
          have := (exSquare_object _ _).mp hp
          exact ⟨this.1, this.2.1, this.2.2.1, this.2.2.2.1, this.2.2.2.2.1, fun h => hc h.2⟩
      · intro q hq
        refine ⟨q, (exSquare_object _ _).mpr ?_, by simp [dist2]⟩
        have := (exSquare_object _ _).mp hq
        exact ⟨this.1, this.2.1, this.2.2.1, this.2.2.2.1, this.2.2.2.2.1, by simp⟩
    · rintro ⟨h1, -⟩
      by_contra hk
      have hk0 : k = 0 := by
        by_contra hne
        exact hk (by exact_mod_cast (by omega : 1 ≤ k))
      subst hk0
      obtain ⟨q, hq, hd⟩ := h1 ⟨2, 2, 0⟩ ((exSquare_object _ _).mpr (by simp))
      have := (exSquare_object _ _).mp hq
      unfold dist2 at hd
      have : q.x = 2 ∧ q.y = 2 := by
        have a1 := sq_nonneg (2 - q.x)
        have a2 := sq_nonneg (2 - q.y)
        have a3 := sq_nonneg (0 - q.z)
        push_cast at hd
        have b1 : (2 - q.x) ^ 2 = 0 := by omega
        have b2 : (2 - q.y) ^ 2 = 0 := by omega
        exact ⟨by have := pow_eq_zero_iff (two_ne_zero) |>.mp b1; omega, by have := pow_eq_zero_iff (two_ne_zero) |>.mp b2; omega⟩
      have hq' := (exSquare_object _ _).mp hq
      exact hq'.2.2.2.2.2 ⟨rfl, this.1, this.2⟩

/-- Two slices of two lines and columns, the slice `k` white. -/
def exSlice (k : Nat) : Img (Px UINT8) := ⟨⟨2, 2, 2⟩, fun i => if i / 4 = k then UINT8.wrap 255 else UINT8.wrap 0⟩

theorem exSlice_at (k : Nat) (p : IntPoint) : (exSlice k).at? p =
    if 0 ≤ p.x ∧ p.x < 2 ∧ 0 ≤ p.y ∧ p.y < 2 ∧ 0 ≤ p.z ∧ p.z < 2 then
      some (if p.z = k then UINT8.wrap 255 else UINT8.wrap 0)
    else none := by
  by_cases h : 0 ≤ p.x ∧ p.x < 2 ∧ 0 ≤ p.y ∧ p.y < 2 ∧ 0 ≤ p.z ∧ p.z < 2
  · rw [if_pos h, Img.at?_some _ p (by unfold Img.In exSlice; dsimp only; omega)]
    unfold exSlice Img.px rasterIndex
    dsimp only
    have e1 : (p.x.toNat + 2 * (p.y.toNat + 2 * p.z.toNat)) / 4 = p.z.toNat := by omega
    rw [e1]
    congr 1
    refine if_congr ?_ rfl rfl
    omega
  · rw [if_neg h, Img.at?_none _ p (by unfold Img.In exSlice; dsimp only; omega)]

theorem exSlice_object (k : Nat) (p : IntPoint) : p ∈ objectOf (exSlice k) ↔
    0 ≤ p.x ∧ p.x < 2 ∧ 0 ≤ p.y ∧ p.y < 2 ∧ 0 ≤ p.z ∧ p.z < 2 ∧ p.z = k := by
  unfold objectOf
  simp only [Set.mem_ofPred_eq, exSlice_at]
  constructor
  · rintro ⟨u, hu, hu0⟩
    split at hu
    · cases hu
      split at hu0
      · omega
      · exact absurd (by decide) hu0
    · cases hu
  · rintro ⟨h1, h2, h3, h4, h5, h6, h7⟩
    exact ⟨UINT8.wrap 255, by rw [if_pos ⟨h1, h2, h3, h4, h5, h6⟩, if_pos h7], by decide⟩

theorem exSlice_boundary (k : Nat) : boundaryOf (exSlice k) = ∅ := by
  rw [Set.eq_empty_iff_forall_notMem]
  rintro p ⟨h, q, u, h1, -, -, h4, h5⟩
  rw [exSlice_object] at h
  rw [exSlice_at] at h4
  split at h4
  · rw [if_pos (h1.trans h.2.2.2.2.2.2)] at h4
    cases h4
    exact absurd h5 (by decide)
  · cases h4

theorem exSlice_two (k : Nat) (hk : k < 2) : TwoValued (exSlice k) := by
  refine ⟨UINT8.wrap 255, by decide, ⟨⟨0, 0, (k : Int)⟩, ?_⟩, ⟨⟨0, 0, (1 - k : Int)⟩, ?_⟩, fun p w hw => ?_⟩
  · rw [exSlice_at, if_pos (by dsimp only; omega), if_pos rfl]
  · rw [exSlice_at, if_pos (by dsimp only; omega), if_neg (by dsimp only; omega)]
    rfl
  · rw [exSlice_at] at hw
    split at hw
    · cases hw
      split
      · exact Or.inr rfl
      · exact Or.inl (by decide)
    · cases hw

/-- **C69** (exception). In 3D, an object made of whole slices has no boundary for this function: two disjoint slices are at distance zero; their Hausdorff distance is one. -/
theorem C69_hausdorff_slices_bug (E : Env (Px UINT8)) : distanceHausdorff E (exSlice 0) (exSlice 1) = .ok (some 0) ∧
    IsHausdorff2 (objectOf (exSlice 0)) (objectOf (exSlice 1)) 1 := by
  constructor
  · obtain ⟨r, h1, h2⟩ := C69_hausdorff_partial rfl E (exSlice 0) (exSlice 1)
      ⟨by decide, by decide, rfl, by decide, exSlice_two _ (by decide), exSlice_two _ (by decide), nonneg_unsigned rfl _, nonneg_unsigned rfl _⟩ (by decide)
    have : r ≤ ((0 : Nat) : WithTop Nat) := (h2 0).mpr (by
      rw [exSlice_boundary, exSlice_boundary]
      exact ⟨fun p hp => hp.elim, fun p hp => hp.elim⟩)
    have hr : r = 0 := le_antisymm this bot_le
    rw [h1, hr]
  · intro k
    constructor
    · intro hk
      have hk1 : 1 ≤ k := by exact_mod_cast hk
      constructor
      · intro p hp
        have hp' := (exSlice_object _ _).mp hp
        refine ⟨⟨p.x, p.y, 1⟩, (exSlice_object _ _).mpr ⟨hp'.1, hp'.2.1, hp'.2.2.1, hp'.2.2.2.1, by norm_num, by norm_num, rfl⟩, ?_⟩
        have : p.z = 0 := by simpa using hp'.2.2.2.2.2.2
        unfold dist2
        rw [this]
        norm_num
        omega
      · intro p hp
        have hp' := (exSlice_object _ _).mp hp
        refine ⟨⟨p.x, p.y, 0⟩, (exSlice_object _ _).mpr ⟨hp'.1, hp'.2.1, hp'.2.2.1, hp'.2.2.2.1, by norm_num, by norm_num, rfl⟩, ?_⟩
        have : p.z = 1 := by simpa using hp'.2.2.2.2.2.2
        unfold dist2
        rw [this]
        norm_num
        omega
    · rintro ⟨h1, -⟩
      by_contra hk
      have hk0 : k = 0 := by
        by_contra hne
        exact hk (by exact_mod_cast (by omega : 1 ≤ k))
      subst hk0
      obtain ⟨q, hq, hd⟩ := h1 ⟨0, 0, 0⟩ ((exSlice_object _ _).mpr (by simp))
      have hq' := ((exSlice_object _ _).mp hq).2.2.2.2.2.2
      unfold dist2 at hd
      have a1 := sq_nonneg (0 - q.x)
      have a2 := sq_nonneg (0 - q.y)
      rw [hq'] at hd
      push_cast at hd
      norm_num at hd a1 a2
      omega

end Smil
