import Verif.OtsuMultiLemmas
import Mathlib.Algebra.Order.BigOperators.Ring.Finset
import Mathlib.Algebra.BigOperators.Group.Finset.Piecewise
import Mathlib.Algebra.BigOperators.Intervals
import Mathlib.Data.Finset.Sort

/-!
# Variance between the classes cut by any numbers
-/

namespace Smil

section
variable {t : PT}

/-- The number of cuts below a value: the class of the value. -/
def cutNo (K : Nat) (y : Nat → Int) (v : Px t) : Nat := ((List.range K).filter fun i => decide (y i < v.val)).length

/-- The values of class `j`. -/
def cutClass (l : List (Px t)) (K : Nat) (y : Nat → Int) (j : Nat) : List (Px t) := l.filter fun v => decide (cutNo K y v = j)

/-- The variance between the classes, times the number of values: each class weighs the square of the distance of its mean
to the mean of all. -/
def cutVar (l : List (Px t)) (K : Nat) (y : Nat → Int) : ℚ :=
  ((List.range (K + 1)).map fun j => ((cutClass l K y j).length : ℚ) * (meanVals l - meanVals (cutClass l K y j)) ^ 2).sum

theorem cutNo_le (K : Nat) (y : Nat → Int) (v : Px t) : cutNo K y v ≤ K := by
  unfold cutNo
  exact (List.length_filter_le _ _).trans (by simp)

/-- The sum of a weight over the values of a class. -/
def wsum (l : List (Px t)) (w : Px t → ℚ) (p : Px t → Bool) : ℚ := ((l.filter p).map w).sum

theorem wsum_cons (a : Px t) (l : List (Px t)) (w : Px t → ℚ) (p : Px t → Bool) :
    wsum (a :: l) w p = (if p a then w a else 0) + wsum l w p := by
  unfold wsum
  rw [List.filter_cons]
  split
  · simp
  · simp

theorem wsum_fiber (l : List (Px t)) (w : Px t → ℚ) (c : Px t → Nat) (F : Finset Nat) :
    ∑ k ∈ F, wsum l w (fun v => decide (c v = k)) = wsum l w (fun v => decide (c v ∈ F)) := by
  induction l with
  | nil => simp [wsum]
  | cons a l ih =>
    simp only [wsum_cons, Finset.sum_add_distrib, ih, decide_eq_true_eq]
    rw [Finset.sum_ite_eq]

theorem wsum_congr (l : List (Px t)) (w : Px t → ℚ) {p q : Px t → Bool} (h : ∀ v ∈ l, p v = q v) : wsum l w p = wsum l w q := by
  unfold wsum
  rw [List.filter_congr h]

theorem wsum_one (l : List (Px t)) (p : Px t → Bool) : wsum l (fun _ => 1) p = (l.filter p).length := by
  unfold wsum; simp

theorem wsum_one_nonneg (l : List (Px t)) (p : Px t → Bool) : 0 ≤ wsum l (fun _ => 1) p := by rw [wsum_one]; positivity

theorem wsum_zero (l : List (Px t)) (w : Px t → ℚ) (p : Px t → Bool) (h : wsum l (fun _ => 1) p = 0) : wsum l w p = 0 := by
  rw [wsum_one] at h
  have : l.filter p = [] := List.length_eq_zero_iff.mp (by exact_mod_cast h)
  unfold wsum
  rw [this]
  rfl

/-- Squares of the sums of the classes over their sizes: finer classes give more. -/
theorem fiber_le (l : List (Px t)) (w : Px t → ℚ) {c c' : Px t → Nat} {K K' : Nat} (hc : ∀ v, c v ≤ K) (hc' : ∀ v, c' v ≤ K')
    (h : ∀ u ∈ l, ∀ v ∈ l, c' u = c' v → c u = c v) :
    ∑ j ∈ Finset.range (K + 1), wsum l w (fun v => decide (c v = j)) ^ 2 / wsum l (fun _ => 1) (fun v => decide (c v = j)) ≤
    ∑ j ∈ Finset.range (K' + 1), wsum l w (fun v => decide (c' v = j)) ^ 2 / wsum l (fun _ => 1) (fun v => decide (c' v = j)) := by
  classical
  have hg : ∃ g : Nat → Nat, (∀ k, g k ≤ K) ∧ ∀ v ∈ l, c v = g (c' v) := by
    refine ⟨fun k => if hk : ∃ v, v ∈ l ∧ c' v = k then c hk.choose else 0, fun k => ?_, fun v hv => ?_⟩
    · simp only
      split
      · exact hc _
      · exact Nat.zero_le _
    · have hk : ∃ u, u ∈ l ∧ c' u = c' v := ⟨v, hv, rfl⟩
      simp only
      rw [dif_pos hk]
      exact h v hv _ hk.choose_spec.1 hk.choose_spec.2.symm
  obtain ⟨g, hgK, hgc⟩ := hg
  rw [← Finset.sum_fiberwise_of_maps_to (s := Finset.range (K' + 1)) (t := Finset.range (K + 1)) (g := g)
    (fun k _ => Finset.mem_range.mpr (by have := hgK k; omega))]
  apply Finset.sum_le_sum
  intro j _
  set F := (Finset.range (K' + 1)).filter fun k => g k = j
  have hsum : ∀ w' : Px t → ℚ, wsum l w' (fun v => decide (c v = j)) = ∑ k ∈ F, wsum l w' (fun v => decide (c' v = k)) := by
    intro w'
    rw [wsum_fiber]
    apply wsum_congr
    intro v hv
    have := hc' v
    simp only [F, Finset.mem_filter, Finset.mem_range, hgc v hv, decide_eq_decide]
    constructor
    · intro h; exact ⟨by omega, h⟩
    · exact fun h => h.2
  rw [hsum w, hsum fun _ => 1]
  have hnn : 0 ≤ ∑ k ∈ F, wsum l (fun _ => 1) (fun v => decide (c' v = k)) := Finset.sum_nonneg fun k _ => wsum_one_nonneg _ _
  have hnn2 : ∀ k ∈ F, 0 ≤ wsum l w (fun v => decide (c' v = k)) ^ 2 / wsum l (fun _ => 1) (fun v => decide (c' v = k)) :=
    fun k _ => div_nonneg (sq_nonneg _) (wsum_one_nonneg _ _)
  have key := Finset.sum_sq_le_sum_mul_sum_of_sq_eq_mul F (r := fun k => wsum l w (fun v => decide (c' v = k)))
    (f := fun k => wsum l (fun _ => 1) (fun v => decide (c' v = k)))
    (g := fun k => wsum l w (fun v => decide (c' v = k)) ^ 2 / wsum l (fun _ => 1) (fun v => decide (c' v = k)))
    (fun k _ => wsum_one_nonneg _ _) hnn2 (fun k _ => by
      by_cases h0 : wsum l (fun _ => 1) (fun v => decide (c' v = k)) = 0
      · rw [wsum_zero l w _ h0]; simp
      · field_simp)
  rcases hnn.eq_or_lt with h0 | hpos
  · rw [← h0, div_zero]
    exact Finset.sum_nonneg hnn2
  · rw [div_le_iff₀ hpos, mul_comm]
    exact key

theorem range_sum (f : Nat → ℚ) (n : Nat) : ((List.range n).map f).sum = ∑ j ∈ Finset.range n, f j := by
  induction n with
  | zero => simp
  | succ n ih => rw [List.range_succ, List.map_append, List.sum_append, ih, Finset.sum_range_succ]; simp

/-- The variance through the squares of the sums. -/
theorem cutVar_eq (l : List (Px t)) (K : Nat) (y : Nat → Int) :
    cutVar l K y = ∑ j ∈ Finset.range (K + 1), wsum l (fun v => (v.val : ℚ)) (fun v => decide (cutNo K y v = j)) ^ 2 /
      wsum l (fun _ => 1) (fun v => decide (cutNo K y v = j)) - sumVals l ^ 2 / l.length := by
  unfold cutVar
  rw [range_sum]
  have hterm : ∀ j, ((cutClass l K y j).length : ℚ) * (meanVals l - meanVals (cutClass l K y j)) ^ 2 =
      meanVals l ^ 2 * wsum l (fun _ => 1) (fun v => decide (cutNo K y v = j)) -
      2 * meanVals l * wsum l (fun v => (v.val : ℚ)) (fun v => decide (cutNo K y v = j)) +
      wsum l (fun v => (v.val : ℚ)) (fun v => decide (cutNo K y v = j)) ^ 2 /
        wsum l (fun _ => 1) (fun v => decide (cutNo K y v = j)) := by
    intro j
    have e1 : ((cutClass l K y j).length : ℚ) = wsum l (fun _ => 1) (fun v => decide (cutNo K y v = j)) := by
      rw [wsum_one]; rfl
    have e2 : meanVals (cutClass l K y j) = wsum l (fun v => (v.val : ℚ)) (fun v => decide (cutNo K y v = j)) /
        wsum l (fun _ => 1) (fun v => decide (cutNo K y v = j)) := by
      rw [← e1]; rfl
    rw [e2, e1]
    by_cases h0 : wsum l (fun _ => 1) (fun v => decide (cutNo K y v = j)) = 0
    · rw [wsum_zero l (fun v => (v.val : ℚ)) _ h0, h0]; simp
    · field_simp
      ring
  simp only [hterm]
  rw [Finset.sum_add_distrib, Finset.sum_sub_distrib, ← Finset.mul_sum, ← Finset.mul_sum, wsum_fiber, wsum_fiber]
  have hall : ∀ w : Px t → ℚ, wsum l w (fun v => decide (cutNo K y v ∈ Finset.range (K + 1))) = (l.map w).sum := by
    intro w
    unfold wsum
    rw [List.filter_eq_self.mpr]
    intro v _
    have := cutNo_le K y v
    simp only [Finset.mem_range, decide_eq_true_eq]
    omega
  rw [hall, hall]
  have hn : (l.map fun _ => (1 : ℚ)).sum = l.length := by simp
  have hS : (l.map fun v => (v.val : ℚ)).sum = sumVals l := rfl
  rw [hn, hS]
  unfold meanVals
  by_cases h0 : l = []
  · subst h0; simp [sumVals]
  · have : (l.length : ℚ) ≠ 0 := by
      have := List.length_pos_iff.mpr h0
      positivity
    field_simp
    ring

/-- Finer cuts do not lower the variance. -/
theorem cutVar_refine (l : List (Px t)) {K K' : Nat} {y y' : Nat → Int}
    (h : ∀ u ∈ l, ∀ v ∈ l, cutNo K' y' u = cutNo K' y' v → cutNo K y u = cutNo K y v) : cutVar l K y ≤ cutVar l K' y' := by
  rw [cutVar_eq, cutVar_eq]
  exact sub_le_sub_right (fiber_le l _ (cutNo_le K y) (cutNo_le K' y') h) _

theorem cutNo_card (K : Nat) (y : Nat → Int) (v : Px t) : cutNo K y v = ((Finset.range K).filter fun i => y i < v.val).card := rfl

theorem cutNo_eq_imp {K : Nat} {y : Nat → Int} {u v : Px t} (huv : u ≤ v) (h : cutNo K y u = cutNo K y v) {i : Nat} (hi : i < K) :
    y i < v.val → y i < u.val := by
  intro hv
  rw [cutNo_card, cutNo_card] at h
  have huv' := Px.le_iff.mp huv
  have := Finset.eq_of_subset_of_card_le (s := (Finset.range K).filter fun i => y i < u.val)
    (t := (Finset.range K).filter fun i => y i < v.val)
    (fun k hk => by
      rw [Finset.mem_filter] at hk ⊢
      exact ⟨hk.1, by omega⟩) h.ge
  have hm : i ∈ (Finset.range K).filter fun i => y i < v.val := Finset.mem_filter.mpr ⟨Finset.mem_range.mpr hi, hv⟩
  rw [← this] at hm
  exact (Finset.mem_filter.mp hm).2

/-- Any cuts are refined by as many increasing thresholds. -/
theorem cuts_valid (l : List (Px t)) {b : Int} (hl : ∀ v ∈ l, 0 ≤ v.val ∧ v.val ≤ b) {K : Nat} (hK : (K : Int) ≤ b) (y : Nat → Int) :
    ∃ x : Nat → Nat, ValidT b K x ∧ cutVar l K y ≤ cutVar l K (fun i => (x i : Int)) := by
  classical
  set Y : Finset Nat := (Finset.range b.toNat).filter fun z : Nat => ∃ i, i < K ∧ y i = (z : Int)
  have hYK : Y.card ≤ K := by
    have : Y ⊆ (Finset.range K).image fun i => (y i).toNat := by
      intro z hz
      obtain ⟨-, i, hi, e⟩ := Finset.mem_filter.mp hz
      exact Finset.mem_image.mpr ⟨i, Finset.mem_range.mpr hi, by rw [e]; rfl⟩
    exact (Finset.card_le_card this).trans (Finset.card_image_le.trans (by simp))
  obtain ⟨Z, hYZ, hZ, hcard⟩ := Finset.exists_subsuperset_card_eq (Finset.filter_subset _ _ : Y ⊆ Finset.range b.toNat) hYK
    (by rw [Finset.card_range]; omega)
  refine ⟨fun i => if h : i < K then Z.orderEmbOfFin hcard ⟨i, h⟩ else 0, ⟨?_, ?_⟩, ?_⟩
  · intro i j hij hj
    simp only
    rw [dif_pos (by omega : i < K), dif_pos hj]
    exact (Z.orderEmbOfFin hcard).strictMono hij
  · intro i hi
    simp only
    rw [dif_pos hi]
    have := Finset.mem_range.mp (hZ (Z.orderEmbOfFin_mem hcard ⟨i, hi⟩))
    omega
  · apply cutVar_refine
    -- the smaller of the two values first
    have main : ∀ u ∈ l, ∀ v ∈ l, u ≤ v →
        cutNo K (fun i => ((if h : i < K then Z.orderEmbOfFin hcard ⟨i, h⟩ else 0 : Nat) : Int)) u =
        cutNo K (fun i => ((if h : i < K then Z.orderEmbOfFin hcard ⟨i, h⟩ else 0 : Nat) : Int)) v → cutNo K y u = cutNo K y v := by
      intro u hu v hv huv he
      rw [cutNo_card, cutNo_card]
      congr 1
      apply Finset.filter_congr
      intro i hi
      have hi' := Finset.mem_range.mp hi
      have huv' := Px.le_iff.mp huv
      refine ⟨fun h => by omega, fun h => ?_⟩
      by_contra hn
      have hu0 := (hl u hu).1
      have hvb := (hl v hv).2
      -- the cut is one of the thresholds
      have hz : (y i).toNat ∈ Z := hYZ (Finset.mem_filter.mpr ⟨Finset.mem_range.mpr (by omega), i, hi', by omega⟩)
      have hr : (y i).toNat ∈ Set.range (Z.orderEmbOfFin hcard) := by rw [Finset.range_orderEmbOfFin]; exact hz
      obtain ⟨⟨k, hk⟩, ek⟩ := hr
      have := cutNo_eq_imp huv he hk
      simp only [dif_pos hk, ek] at this
      omega
    intro u hu v hv he
    rcases le_total u v with h | h
    · exact main u hu v hv h he
    · exact (main v hv u hu h he.symm).symm

/-- The classes of increasing thresholds. -/
theorem cutVar_valid (l : List (Px t)) (hl : ∀ v ∈ l, 0 ≤ v.val) {b : Int} {K : Nat} {x : Nat → Nat} (hx : ValidT b K x) :
    cutVar l K (fun i => (x i : Int)) = betweenVar l K x := by
  have hno : ∀ v ∈ l, ∀ j, j ≤ K → (cutNo K (fun i => (x i : Int)) v = j ↔ (lowB x j < v.val ∧ v.val ≤ upB t K x j)) := by
    intro v hv
    have hv0 := hl v hv
    have hvh := v.le_hi
    -- the thresholds below the value come first
    obtain ⟨n, hnK, hn⟩ : ∃ n, n ≤ K ∧ ∀ i, i < K → ((x i : Int) < v.val ↔ i < n) := by
      clear hv
      revert hx
      induction K with
      | zero => exact fun _ => ⟨0, le_rfl, fun i hi => by omega⟩
      | succ K ih =>
        intro hx
        obtain ⟨n, hn1, hn2⟩ := ih ⟨fun i j h hj => hx.1 i j h (by omega), fun i hi => hx.2 i (by omega)⟩
        by_cases hK : (x K : Int) < v.val
        · refine ⟨K + 1, le_rfl, fun i hi => ⟨fun _ => hi, fun _ => ?_⟩⟩
          by_cases e : i = K
          · rw [e]; exact hK
          · have := hx.1 i K (by omega) (by omega); omega
        · refine ⟨n, by omega, fun i hi => ?_⟩
          by_cases e : i = K
          · subst e; exact ⟨fun h => absurd h hK, fun h => by omega⟩
          · exact hn2 i (by omega)
    have hcard : cutNo K (fun i => (x i : Int)) v = n := by
      rw [cutNo_card, Finset.filter_congr (q := fun i => i < n) fun i hi => hn i (Finset.mem_range.mp hi)]
      rw [show (Finset.range K).filter (fun i => i < n) = Finset.range n by
        ext i; simp only [Finset.mem_filter, Finset.mem_range]; omega]
      exact Finset.card_range n
    intro j hj
    rw [hcard]
    unfold lowB upB
    constructor
    · rintro rfl
      constructor
      · split
        · omega
        · exact (hn (n - 1) (by omega)).mpr (by omega)
      · split
        · rename_i h
          exact not_lt.mp fun h' => absurd ((hn n h).mp h') (lt_irrefl _)
        · exact hvh
    · rintro ⟨h1, h2⟩
      have e1 : j ≤ n := by
        by_contra hlt
        rw [if_neg (by omega)] at h1
        have := (hn (j - 1) (by omega)).mp h1
        omega
      have e2 : n ≤ j := by
        by_contra hlt
        rw [if_pos (by omega)] at h2
        have := (hn j (by omega)).mpr (by omega)
        omega
      omega
  unfold cutVar betweenVar
  congr 1
  apply List.map_congr_left
  intro j hj
  rw [List.mem_range] at hj
  have : cutClass l K (fun i => (x i : Int)) j = classOf l K x j := by
    unfold cutClass classOf partOf
    apply List.filter_congr
    intro v hv
    rw [decide_eq_decide]
    exact hno v hv j (by omega)
  rw [this]

end

end Smil
