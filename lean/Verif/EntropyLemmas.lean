import Verif.Entropy
import Verif.MeasureLemmas
import Mathlib.Algebra.BigOperators.Field
import Mathlib.Algebra.Order.BigOperators.Group.Finset
import Mathlib.Data.Finset.Basic

namespace Smil
section

/-- Shannon's entropy, in bits, of the frequencies of the values of a list. -/
noncomputable def shannon (l : List Int) : ℝ :=
  - ∑ v ∈ l.toFinset, ((l.count v : ℝ) / l.length) * Real.logb 2 ((l.count v : ℝ) / l.length)

theorem entFold (L : List Nat) (a b : ℝ) :
    L.foldl (fun (s : ℝ × ℝ) (n : Nat) => if 0 < n then (s.1 + (n : ℝ), s.2 + (n : ℝ) * Real.logb 2 (n : ℝ)) else s) (a, b) =
      (a + (L.map fun n : Nat => (n : ℝ)).sum, b + (L.map fun n : Nat => (n : ℝ) * Real.logb 2 (n : ℝ)).sum) := by
  induction L generalizing a b with
  | nil => simp
  | cons n L ih =>
    rw [List.foldl_cons]
    by_cases hn : 0 < n
    · rw [if_pos hn, ih]
      simp only [List.map_cons, List.sum_cons, add_assoc]
    · have h0 : n = 0 := by omega
      subst h0
      rw [if_neg hn, ih]
      simp

theorem sum_keys (l K : List Int) (hK : K.Nodup) (hsub : ∀ v ∈ l, v ∈ K) (f : Nat → ℝ) (hf : f 0 = 0) :
    ((K.map fun v => l.count v).map f).sum = ∑ v ∈ l.toFinset, f (l.count v) := by
  rw [List.map_map, ← List.sum_toFinset (f ∘ fun v => l.count v) hK]
  symm
  apply Finset.sum_subset
  · intro v hv
    rw [List.mem_toFinset] at hv ⊢
    exact hsub v hv
  · intro v _ hv
    rw [List.mem_toFinset] at hv
    rw [List.count_eq_zero_of_not_mem hv, hf]

theorem sum_count (l : List Int) : ∑ v ∈ l.toFinset, (l.count v : ℝ) = l.length := by
  have := List.sum_toFinset_count_eq_length l
  exact_mod_cast this

theorem entFin_shannon (l K : List Int) (hK : K.Nodup) (hsub : ∀ v ∈ l, v ∈ K) : entFin (K.map fun v => l.count v) = shannon l := by
  unfold entFin
  rw [entFold]
  simp only [zero_add]
  rw [sum_keys l K hK hsub (fun n : Nat => (n : ℝ)) (by simp), sum_keys l K hK hsub (fun n : Nat => (n : ℝ) * Real.logb 2 (n : ℝ)) (by simp), sum_count]
  unfold shannon
  by_cases hl : l = []
  · subst hl; simp
  have hN : (0 : ℝ) < l.length := by exact_mod_cast List.length_pos_iff.mpr hl
  rw [if_pos hN]
  have key : ∀ v ∈ l.toFinset, ((l.count v : ℝ) / l.length) * Real.logb 2 ((l.count v : ℝ) / l.length) =
      ((l.count v : ℝ) * Real.logb 2 (l.count v)) / l.length - (l.count v : ℝ) / l.length * Real.logb 2 l.length := by
    intro v hv
    rw [List.mem_toFinset] at hv
    have hc : (0 : ℝ) < l.count v := by exact_mod_cast List.count_pos_iff.mpr hv
    rw [Real.logb_div (ne_of_gt hc) (ne_of_gt hN)]
    ring
  rw [Finset.sum_congr rfl key, Finset.sum_sub_distrib, ← Finset.sum_div, ← Finset.sum_mul, ← Finset.sum_div, sum_count, div_self (ne_of_gt hN)]
  ring

theorem shannon_nonneg (l : List Int) : 0 ≤ shannon l := by
  unfold shannon
  rw [← Finset.sum_neg_distrib]
  apply Finset.sum_nonneg
  intro v hv
  rw [List.mem_toFinset] at hv
  have hN : (0 : ℝ) < l.length := by exact_mod_cast List.length_pos_of_mem hv
  have hc : (0 : ℝ) ≤ (l.count v : ℝ) / l.length := by positivity
  have h1 : (l.count v : ℝ) / l.length ≤ 1 := by
    rw [div_le_one hN]
    exact_mod_cast List.count_le_length
  have := Real.logb_nonpos (b := 2) (by norm_num) hc h1
  nlinarith

theorem shannon_le (l : List Int) (hl : l ≠ []) : shannon l ≤ Real.logb 2 l.toFinset.card := by
  have hN : (0 : ℝ) < l.length := by exact_mod_cast List.length_pos_iff.mpr hl
  have hk : (0 : ℝ) < l.toFinset.card := by
    have : 0 < l.toFinset.card := by
      rw [Finset.card_pos, List.toFinset_nonempty_iff]; exact hl
    exact_mod_cast this
  have hlog2 : 0 < Real.log 2 := Real.log_pos (by norm_num)
  set k : ℝ := (l.toFinset.card : ℝ) with hkd
  set p : Int → ℝ := fun v => (l.count v : ℝ) / l.length with hp
  have hp1 : ∑ v ∈ l.toFinset, p v = 1 := by
    rw [hp, ← Finset.sum_div, sum_count, div_self (ne_of_gt hN)]
  have key : ∀ v ∈ l.toFinset, - (p v * Real.log (p v)) - p v * Real.log k ≤ 1 / k - p v := by
    intro v hv
    rw [List.mem_toFinset] at hv
    have hc : (0 : ℝ) < p v := div_pos (by exact_mod_cast List.count_pos_iff.mpr hv) hN
    have hpk : 0 < p v * k := mul_pos hc hk
    have h := Real.log_le_sub_one_of_pos (inv_pos.mpr hpk)
    rw [Real.log_inv, Real.log_mul (ne_of_gt hc) (ne_of_gt hk)] at h
    have h2 := mul_le_mul_of_nonneg_left h hc.le
    have e : p v * ((p v * k)⁻¹ - 1) = 1 / k - p v := by
      field_simp
    rw [e] at h2
    linarith [h2]
  have hsum := Finset.sum_le_sum key
  rw [Finset.sum_sub_distrib, Finset.sum_sub_distrib, ← Finset.sum_mul, hp1, one_mul, Finset.sum_const, nsmul_eq_mul, mul_one_div,
    div_self (ne_of_gt hk), sub_self, Finset.sum_neg_distrib] at hsum
  unfold shannon
  have e2 : ∀ v ∈ l.toFinset, p v * Real.logb 2 (p v) = (p v * Real.log (p v)) / Real.log 2 := by
    intro v _
    unfold Real.logb
    ring
  change - ∑ v ∈ l.toFinset, p v * Real.logb 2 (p v) ≤ Real.logb 2 k
  rw [Finset.sum_congr rfl e2, ← Finset.sum_div]
  unfold Real.logb
  rw [← neg_div]
  apply div_le_div_of_nonneg_right _ hlog2.le
  linarith

/-- Zero exactly for lists of one value. -/
theorem shannon_eq_zero (l : List Int) : shannon l = 0 ↔ ∀ v ∈ l, ∀ w ∈ l, v = w := by
  constructor
  · intro h v hv w hw
    by_contra hne
    have hN : (0 : ℝ) < l.length := by exact_mod_cast List.length_pos_of_mem hv
    unfold shannon at h
    rw [← Finset.sum_neg_distrib, Finset.sum_eq_zero_iff_of_nonneg] at h
    · have h1 := h v (List.mem_toFinset.mpr hv)
      have hc : (0 : ℝ) < (l.count v : ℝ) / l.length := div_pos (by exact_mod_cast List.count_pos_iff.mpr hv) hN
      have hlt : (l.count v : ℝ) / l.length < 1 := by
        rw [div_lt_one hN]
        have : l.count v < l.length := by
          refine lt_of_le_of_ne List.count_le_length ?_
          rw [Ne, List.count_eq_length]
          exact fun h => hne (h w hw)
        exact_mod_cast this
      have := Real.logb_neg (b := 2) (by norm_num) hc hlt
      nlinarith
    · intro x hx
      rw [List.mem_toFinset] at hx
      have hc : (0 : ℝ) ≤ (l.count x : ℝ) / l.length := by positivity
      have h1 : (l.count x : ℝ) / l.length ≤ 1 := by
        rw [div_le_one hN]
        exact_mod_cast List.count_le_length
      have := Real.logb_nonpos (b := 2) (by norm_num) hc h1
      nlinarith
  · intro h
    unfold shannon
    rw [neg_eq_zero]
    apply Finset.sum_eq_zero
    intro v hv
    rw [List.mem_toFinset] at hv
    have hN : (0 : ℝ) < l.length := by exact_mod_cast List.length_pos_of_mem hv
    have : l.count v = l.length := by
      rw [List.count_eq_length]
      exact fun w hw => h v hv w hw
    rw [this, div_self (ne_of_gt hN)]
    simp

/-- A change of the values that keeps different ones different does not change the entropy. -/
theorem shannon_map (l : List Int) (f : Int → Int) (hf : ∀ v ∈ l, ∀ w ∈ l, f v = f w → v = w) : shannon (l.map f) = shannon l := by
  unfold shannon
  congr 1
  symm
  have hcount : ∀ v ∈ l, (l.map f).count (f v) = l.count v := by
    intro v hv
    rw [List.count_eq_countP, List.count_eq_countP, List.countP_map]
    apply List.countP_congr
    intro w hw
    simp only [Function.comp_apply, beq_iff_eq]
    exact ⟨fun h => hf w hw v hv h, fun h => by rw [h]⟩
  apply Finset.sum_nbij f
  · intro v hv
    rw [List.mem_toFinset] at hv ⊢
    exact List.mem_map_of_mem hv
  · intro v hv w hw h
    rw [Finset.mem_coe, List.mem_toFinset] at hv hw
    exact hf v hv w hw h
  · intro v hv
    rw [Finset.mem_coe, List.mem_toFinset, List.mem_map] at hv
    obtain ⟨w, hw, rfl⟩ := hv
    exact ⟨w, by rw [Finset.mem_coe, List.mem_toFinset]; exact hw, rfl⟩
  · intro v hv
    rw [List.mem_toFinset] at hv
    rw [hcount v hv, List.length_map]

theorem foldl_count (l : List Int) : IsCount (l.foldl (fun h v => mapIncr v h) []) l := by
  suffices H : ∀ (l l' : List Int) m, IsCount m l' → IsCount (l.foldl (fun h v => mapIncr v h) m) (l' ++ l) by
    simpa using H l [] [] ⟨by simp, by simp⟩
  intro l
  induction l with
  | nil => intro l' m h; simpa using h
  | cons a l ih =>
    intro l' m h
    rw [List.foldl_cons, show l' ++ a :: l = (l' ++ [a]) ++ l by simp]
    exact ih _ _ (h.incr a)

theorem IsCount.entropy {m : List (Int × Nat)} {l : List Int} (h : IsCount m l) : entFin (m.map Prod.snd) = shannon l := by
  have e : m.map Prod.snd = (m.map Prod.fst).map fun v => l.count v := by
    rw [List.map_map]
    apply List.map_congr_left
    rintro ⟨k, n⟩ hk
    exact ((h.2 k n).mp hk).2
  rw [e, entFin_shannon l _ _ _]
  · rw [List.Nodup, List.pairwise_map]
    exact h.1.imp fun hab => hab.ne
  · intro v hv
    exact List.mem_map.mpr ⟨(v, l.count v), (h.2 _ _).mpr ⟨hv, rfl⟩, rfl⟩

end
end Smil
