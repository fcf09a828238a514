import Verif.Stretch
import Verif.PropsHistogram
import Mathlib.Tactic.Linarith
import Mathlib.Tactic.Positivity
import Mathlib.Tactic.FieldSimp

/-!
# Lemmas on the stretching of the histogram
-/

namespace Smil

section
variable {t t2 : PT}

theorem roundQ_half (q : ℚ) : |(roundQ q : ℚ) - q| ≤ 1 / 2 ∧
    (|(roundQ q : ℚ) - q| = 1 / 2 → |q| < |(roundQ q : ℚ)|) := by
  unfold roundQ
  split
  · rename_i h
    have h1 := Int.floor_le (q + 1 / 2)
    have h2 := Int.lt_floor_add_one (q + 1 / 2)
    have h0 : (0 : ℚ) ≤ ((⌊q + 1 / 2⌋ : ℤ) : ℚ) := by
      exact_mod_cast Int.floor_nonneg.mpr (by linarith)
    refine ⟨abs_le.mpr ⟨by linarith, by linarith⟩, fun he => ?_⟩
    rw [abs_of_nonneg h, abs_of_nonneg h0]
    rcases abs_eq (by norm_num : (0 : ℚ) ≤ 1 / 2) |>.mp he with he | he <;> linarith
  · rename_i h
    push Not at h
    have h1 := Int.le_ceil (q - 1 / 2)
    have h2 := Int.ceil_lt_add_one (q - 1 / 2)
    have h0 : ((⌈q - 1 / 2⌉ : ℤ) : ℚ) ≤ 0 := by
      have : ⌈q - 1 / 2⌉ ≤ 0 := Int.ceil_le.mpr (by push_cast; linarith)
      exact_mod_cast this
    refine ⟨abs_le.mpr ⟨by linarith, by linarith⟩, fun he => ?_⟩
    rw [abs_of_neg h, abs_of_nonpos h0]
    rcases abs_eq (by norm_num : (0 : ℚ) ≤ 1 / 2) |>.mp he with he | he <;> linarith

theorem roundQ_mono {q r : ℚ} (h : q ≤ r) : roundQ q ≤ roundQ r := by
  unfold roundQ
  split <;> split
  · exact Int.floor_le_floor (by linarith)
  · rename_i h1 h2
    exact absurd (le_trans h1 h) h2
  · rename_i h1 h2
    have a : ⌈q - 1 / 2⌉ ≤ 0 := Int.ceil_le.mpr (by push_cast; linarith)
    have b : 0 ≤ ⌊r + 1 / 2⌋ := Int.floor_nonneg.mpr (by linarith)
    omega
  · exact Int.ceil_le_ceil (by linarith)

theorem roundQ_int (n : Int) : roundQ (n : ℚ) = n := by
  unfold roundQ
  split
  · rw [Int.floor_eq_iff]; constructor <;> push_cast <;> linarith
  · rw [Int.ceil_eq_iff]; constructor <;> push_cast <;> linarith

theorem clamp_mem (t2 : PT) (q : ℚ) : (t2.lo : ℚ) ≤ stretchClamp t2 q ∧ stretchClamp t2 q ≤ (t2.hi : ℚ) := by
  have h : (t2.lo : ℚ) ≤ (t2.hi : ℚ) := by exact_mod_cast t2.lo_le_hi
  unfold stretchClamp
  split
  · exact ⟨h, le_refl _⟩
  · split
    · exact ⟨le_refl _, h⟩
    · constructor <;> linarith

theorem clamp_mono (t2 : PT) {q r : ℚ} (h : q ≤ r) : stretchClamp t2 q ≤ stretchClamp t2 r := by
  have h : (t2.lo : ℚ) ≤ (t2.hi : ℚ) := by exact_mod_cast t2.lo_le_hi
  unfold stretchClamp
  split_ifs <;> linarith

theorem clamp_of_mem (t2 : PT) {q : ℚ} (h1 : (t2.lo : ℚ) ≤ q) (h2 : q ≤ (t2.hi : ℚ)) : stretchClamp t2 q = q := by
  unfold stretchClamp
  rw [if_neg (by linarith), if_neg (by linarith)]

theorem round_clamp_mem (t2 : PT) (q : ℚ) :
    t2.lo ≤ roundQ (stretchClamp t2 q) ∧ roundQ (stretchClamp t2 q) ≤ t2.hi := by
  have h := clamp_mem t2 q
  have a := roundQ_mono h.1
  have b := roundQ_mono h.2
  rw [roundQ_int] at a b
  exact ⟨a, b⟩

theorem convToPx_int {n : Int} (h1 : t2.lo ≤ n) (h2 : n ≤ t2.hi) :
    convToPx t2 (n : ℚ) = some ⟨n, h1, h2⟩ := by
  unfold convToPx
  have e : (if (0 : ℚ) ≤ (n : ℚ) then ⌊(n : ℚ)⌋ else ⌈(n : ℚ)⌉) = n := by
    split
    · exact Int.floor_intCast n
    · exact Int.ceil_intCast n
  simp only [e]
  rw [dif_pos ⟨h1, h2⟩]

/-- The value before the bounds are applied. -/
def linQ (inO : Px t) (outO : Px t2) (num den : Int) (v : Px t) : ℚ :=
  (outO.val : ℚ) + ((v.val : ℚ) - (inO.val : ℚ)) * ((num : ℚ) / (den : ℚ))

theorem stretchPx_eq (inO : Px t) (outO : Px t2) {num den : Int} (hd : den ≠ 0) (v : Px t) :
    ∃ r, stretchPx inO outO num den v = some r ∧ r.val = roundQ (stretchClamp t2 (linQ inO outO num den v)) := by
  have h := round_clamp_mem t2 (linQ inO outO num den v)
  refine ⟨⟨_, h.1, h.2⟩, ?_, rfl⟩
  unfold stretchPx
  rw [if_neg hd]
  exact convToPx_int h.1 h.2

/-! ### The loops of `histogramRange` -/

theorem histLeft_spec (n : Nat) (h : Nat → Nat) (cum : Bool) (sat : ℚ) (C : Nat → ℚ) :
    ∀ (k i : Nat) (cur : ℚ) (left : Px t), i + k ≤ n →
    (k ≠ 0 → (if cum then cur + (h i : ℚ) else (h i : ℚ)) = C i) →
    (∀ j, i ≤ j → j + 1 < i + k → C (j + 1) = if cum then C j + (h (j + 1) : ℚ) else (h (j + 1) : ℚ)) →
    ∃ r, histLeft n h cum sat k i cur left = some r ∧
      ((r = left ∧ (k ≠ 0 → sat < C i)) ∨
       ∃ m, i ≤ m ∧ m < i + k ∧ r = t.wrap m ∧ (∀ j, i ≤ j → j ≤ m → C j ≤ sat) ∧ (m + 1 < i + k → sat < C (m + 1))) := by
  intro k
  induction k with
  | zero => intro i cur left _ _ _; exact ⟨left, rfl, Or.inl ⟨rfl, fun h => absurd rfl h⟩⟩
  | succ k ih =>
    intro i cur left hn h0 hC
    have h0 := h0 (by omega)
    rw [histLeft, if_pos (by omega)]
    simp only [h0]
    by_cases hs : C i > sat
    · rw [if_pos hs]
      exact ⟨left, rfl, Or.inl ⟨rfl, fun _ => hs⟩⟩
    · rw [if_neg hs]
      push Not at hs
      obtain ⟨r, hr, hr2⟩ := ih (i + 1) (C i) (t.wrap i) (by omega)
        (fun hk => (hC i (le_refl _) (by omega)).symm) (fun j hj hj2 => hC j (by omega) (by omega))
      refine ⟨r, hr, Or.inr ?_⟩
      rcases hr2 with ⟨hr2, hr3⟩ | ⟨m, m1, m2, m3, m4, m5⟩
      · refine ⟨i, le_refl _, by omega, hr2, fun j h1 h2 => ?_, fun hm => hr3 (by omega)⟩
        rw [show j = i by omega]; exact hs
      · refine ⟨m, by omega, by omega, m3, fun j h1 h2 => ?_, fun hm => m5 (by omega)⟩
        by_cases hj : j = i
        · rw [hj]; exact hs
        · exact m4 j (by omega) h2

theorem histRight_spec (n : Nat) (h : Nat → Nat) (cum : Bool) (sat : ℚ) (C : Nat → ℚ) :
    ∀ (k i : Nat) (cur : ℚ) (right : Px t), i < n → k ≤ i →
    (k ≠ 0 → (if cum then cur + (h i : ℚ) else (h i : ℚ)) = C i) →
    (∀ j, j < i → i < j + k → C j = if cum then C (j + 1) + (h j : ℚ) else (h j : ℚ)) →
    ∃ r, histRight n h cum sat k i cur right = some r ∧
      ((r = right ∧ (k ≠ 0 → sat < C i)) ∨
       ∃ m, m ≤ i ∧ i < m + k ∧ r = t.wrap m ∧ (∀ j, m ≤ j → j ≤ i → C j ≤ sat) ∧
         (1 ≤ m → i < m - 1 + k → sat < C (m - 1))) := by
  intro k
  induction k with
  | zero => intro i cur right _ _ _ _; exact ⟨right, rfl, Or.inl ⟨rfl, fun h => absurd rfl h⟩⟩
  | succ k ih =>
    intro i cur right hn hk h0 hC
    have h0 := h0 (by omega)
    rw [histRight, if_pos hn]
    simp only [h0]
    by_cases hs : C i > sat
    · rw [if_pos hs]
      exact ⟨right, rfl, Or.inl ⟨rfl, fun _ => hs⟩⟩
    · rw [if_neg hs]
      push Not at hs
      obtain ⟨r, hr, hr2⟩ := ih (i - 1) (C i) (t.wrap i) (by omega) (by omega)
        (fun hk => by
          have := hC (i - 1) (by omega) (by omega)
          rw [show i - 1 + 1 = i by omega] at this
          exact this.symm) (fun j hj hj2 => hC j (by omega) (by omega))
      refine ⟨r, hr, Or.inr ?_⟩
      rcases hr2 with ⟨hr2, hr3⟩ | ⟨m, m1, m2, m3, m4, m5⟩
      · refine ⟨i, le_refl _, by omega, hr2, fun j h1 h2 => ?_, fun _ hm => hr3 (by omega)⟩
        rw [show j = i by omega]; exact hs
      · refine ⟨m, by omega, by omega, m3, fun j h1 h2 => ?_, fun h1 hm => m5 h1 (by omega)⟩
        by_cases hj : j = i
        · rw [hj]; exact hs
        · exact m4 j h1 (by omega)

theorem cardT_small (hb : t.bits ≤ 16) : cardT t = some (t.hi - t.lo + 1).toNat := by
  have hr := range_small hb
  have hl := t.lo_le_hi
  unfold cardT
  rw [cpp_small hb (by omega) (by omega)]
  simp only [Option.bind_eq_bind, Option.bind_some]
  rw [cpp_small hb (by omega) (by omega)]
  simp only [Option.bind_some]
  rw [sizeT_of (by omega) (by omega)]
  rfl

theorem countP_le_succ (l : List (Px t)) (i : Int) :
    l.countP (fun v => decide (v.val ≤ i + 1)) =
      l.countP (fun v => decide (v.val ≤ i)) + l.countP (fun v => decide (v.val = i + 1)) := by
  induction l with
  | nil => rfl
  | cons a l ih =>
    simp only [List.countP_cons, ih, decide_eq_true_eq]
    split_ifs <;> omega

theorem countP_ge_succ (l : List (Px t)) (i : Int) :
    l.countP (fun v => decide (i ≤ v.val)) =
      l.countP (fun v => decide (i + 1 ≤ v.val)) + l.countP (fun v => decide (v.val = i)) := by
  induction l with
  | nil => rfl
  | cons a l ih =>
    simp only [List.countP_cons, ih, decide_eq_true_eq]
    split_ifs <;> omega

theorem count_countP (l : List (Px t)) (v : Px t) : l.count v = l.countP (fun u => decide (u.val = v.val)) := by
  unfold List.count
  apply List.countP_congr
  intro u _
  simp only [beq_iff_eq, decide_eq_true_eq]
  exact ⟨fun h => h ▸ rfl, fun h => Px.ext h⟩

/-- Maximum of a list by `foldl`. -/
theorem foldl_max_spec (l : List Nat) : ∀ s : Nat, (∀ x ∈ l, x ≤ l.foldl max s) ∧ s ≤ l.foldl max s ∧
    (l.foldl max s = s ∨ l.foldl max s ∈ l) := by
  induction l with
  | nil => intro s; exact ⟨by simp, le_refl _, Or.inl rfl⟩
  | cons a l ih =>
    intro s
    obtain ⟨h1, h2, h3⟩ := ih (max s a)
    simp only [List.foldl_cons]
    refine ⟨?_, le_trans (le_max_left _ _) h2, ?_⟩
    · intro x hx
      rcases List.mem_cons.mp hx with rfl | hx
      · exact le_trans (le_max_right _ _) h2
      · exact h1 x hx
    · rcases h3 with h3 | h3
      · rcases max_choice s a with hm | hm
        · left; rw [h3, hm]
        · right; rw [h3, hm]; exact List.mem_cons_self
      · right; exact List.mem_cons_of_mem _ h3

end

end Smil
