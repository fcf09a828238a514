import Verif.OtsuMulti
import Verif.PropsOtsu

/-!
# Lemmas on the search of several thresholds
-/

namespace Smil

section
variable {t : PT}

/-! ### Classes -/

/-- The values above `p` and up to `q`. -/
def partOf (l : List (Px t)) (p q : Int) : List (Px t) := l.filter fun v => decide (p < v.val ∧ v.val ≤ q)

theorem partOf_low (l : List (Px t)) {p q : Int} (h : p ≤ q) :
    ((partOf l p q).length : ℚ) = (lowPart l q).length - (lowPart l p).length ∧
    sumVals (partOf l p q) = sumVals (lowPart l q) - sumVals (lowPart l p) := by
  unfold partOf lowPart sumVals
  induction l with
  | nil => simp
  | cons a l ih =>
    obtain ⟨h1, h2⟩ := ih
    simp only [List.filter_cons]
    by_cases ha : a.val ≤ p
    · have haq : a.val ≤ q := by omega
      have hpa : ¬ p < a.val := by omega
      simp only [ha, haq, hpa, false_and, decide_true, decide_false, if_true, Bool.false_eq_true, if_false, List.length_cons, List.map_cons,
        List.sum_cons]
      push_cast
      rw [h1, h2]
      exact ⟨by ring, by ring⟩
    · by_cases haq : a.val ≤ q
      · have hpa : p < a.val := by omega
        simp only [ha, haq, hpa, decide_true, decide_false, if_true, Bool.false_eq_true, if_false, List.length_cons,
          List.map_cons, List.sum_cons, and_self]
        push_cast
        rw [h1, h2]
        exact ⟨by ring, by ring⟩
      · simp only [ha, haq, and_false, decide_false, Bool.false_eq_true, if_false]
        exact ⟨h1, h2⟩

theorem lowPart_all (l : List (Px t)) {q : Int} (h : ∀ v ∈ l, v.val ≤ q) : lowPart l q = l := by
  unfold lowPart
  rw [List.filter_eq_self]
  intro v hv
  simpa using h v hv

theorem lowPart_nil (l : List (Px t)) {q : Int} (h : ∀ v ∈ l, q < v.val) : lowPart l q = [] := by
  unfold lowPart
  rw [List.filter_eq_nil_iff]
  intro v hv
  have := h v hv
  simp only [decide_eq_true_eq]; omega

/-- Bounds of the classes cut by the thresholds `x`: class `j` is above threshold `j - 1` and up to threshold `j`; the first class
starts at zero and the last one ends at the maximum of the type. -/
def lowB (x : Nat → Nat) (j : Nat) : Int := if j = 0 then -1 else (x (j - 1) : Int)
def upB (t : PT) (K : Nat) (x : Nat → Nat) (j : Nat) : Int := if j < K then (x j : Int) else t.hi

/-- Class `j`. -/
def classOf (l : List (Px t)) (K : Nat) (x : Nat → Nat) (j : Nat) : List (Px t) := partOf l (lowB x j) (upB t K x j)

/-- The variance between the classes, times the number of pixels. -/
def betweenVar (l : List (Px t)) (K : Nat) (x : Nat → Nat) : ℚ :=
  ((List.range (K + 1)).map fun j =>
    ((classOf l K x j).length : ℚ) * (meanVals l - meanVals (classOf l K x j)) ^ 2).sum

theorem classOf_congr (l : List (Px t)) {K : Nat} {x y : Nat → Nat} {j : Nat} (hj : j ≤ K)
    (h : ∀ i, i < K → i ≤ j → x i = y i) : classOf l K x j = classOf l K y j := by
  unfold classOf lowB upB
  by_cases h0 : j = 0
  · rw [if_pos h0, if_pos h0]
    by_cases hk : j < K
    · rw [if_pos hk, if_pos hk, h j hk le_rfl]
    · rw [if_neg hk, if_neg hk]
  · rw [if_neg h0, if_neg h0, h (j - 1) (by omega) (by omega)]
    by_cases hk : j < K
    · rw [if_pos hk, if_pos hk, h j hk le_rfl]
    · rw [if_neg hk, if_neg hk]

theorem betweenVar_congr (l : List (Px t)) {K : Nat} {x y : Nat → Nat} (h : ∀ i, i < K → x i = y i) :
    betweenVar l K x = betweenVar l K y := by
  unfold betweenVar
  congr 1
  apply List.map_congr_left
  intro j hj
  rw [List.mem_range] at hj
  rw [classOf_congr l (by omega) fun i hi _ => h i hi]

theorem foldl_addQ (g : Nat → ℚ) (l : List Nat) : ∀ r, l.foldl (fun r j => r + g j) r = r + (l.map g).sum := by
  induction l with
  | nil => intro r; simp
  | cons a l ih => intro r; simp only [List.foldl_cons, List.map_cons, List.sum_cons, ih]; ring

theorem foldl_subQ (g : Nat → ℚ) (l : List Nat) : ∀ r, l.foldl (fun r j => r - g j) r = r - (l.map g).sum := by
  induction l with
  | nil => intro r; simp
  | cons a l ih => intro r; simp only [List.foldl_cons, List.map_cons, List.sum_cons, ih]; ring

/-- Increasing thresholds below `b`. -/
def ValidT (b : Int) (K : Nat) (x : Nat → Nat) : Prop :=
  (∀ i j, i < j → j < K → x i < x j) ∧ ∀ i, i < K → (x i : Int) < b

theorem ValidT.low_le_up {b : Int} {K : Nat} {x : Nat → Nat} (h : ValidT b K x) (hb : b ≤ t.hi) {j : Nat} (hj : j ≤ K) :
    lowB x j ≤ upB t K x j := by
  have hh := t.hi_nonneg
  unfold lowB upB
  split
  · split <;> omega
  · split
    · have := h.1 (j - 1) j (by omega) (by assumption)
      omega
    · have := h.2 (j - 1) (by omega)
      omega

/-- The values of the first `n` classes are the values up to threshold `n - 1`. -/
theorem class_sums (l : List (Px t)) (hl : ∀ v ∈ l, 0 ≤ v.val) {b : Int} {K : Nat} {x : Nat → Nat} (h : ValidT b K x) (hb : b ≤ t.hi) :
    ∀ n, n ≤ K →
    ((List.range n).map fun j => ((classOf l K x j).length : ℚ)).sum = (lowPart l (lowB x n)).length ∧
    ((List.range n).map fun j => sumVals (classOf l K x j)).sum = sumVals (lowPart l (lowB x n)) := by
  intro n
  induction n with
  | zero =>
    intro _
    rw [show lowB x 0 = -1 from if_pos rfl, lowPart_nil l (fun v hv => by have := hl v hv; omega)]
    simp [sumVals]
  | succ n ih =>
    intro hn
    obtain ⟨h1, h2⟩ := ih (by omega)
    rw [List.range_succ, List.map_append, List.sum_append, h1, List.map_append, List.sum_append, h2]
    have hu : lowB x (n + 1) = upB t K x n := by
      unfold lowB upB
      rw [if_neg (by omega), if_pos (by omega)]
      rfl
    obtain ⟨e1, e2⟩ := partOf_low l (h.low_le_up (t := t) hb (show n ≤ K by omega))
    simp only [List.map_cons, List.map_nil, List.sum_cons, List.sum_nil, add_zero]
    rw [hu]
    unfold classOf
    rw [e1, e2]
    exact ⟨by ring, by ring⟩

/-! ### Lexicographic order -/

def LexLt (K : Nat) (x y : Nat → Nat) : Prop := ∃ j, j < K ∧ (∀ i, i < j → x i = y i) ∧ x j < y j

theorem LexLt.asymm {K : Nat} {x y : Nat → Nat} (h : LexLt K x y) (h' : LexLt K y x) : False := by
  obtain ⟨j, hj, h1, h2⟩ := h
  obtain ⟨i, hi, h3, h4⟩ := h'
  rcases Nat.lt_trichotomy i j with hij | hij | hij
  · have := h1 i hij; omega
  · subst hij; omega
  · have := h3 j hij; omega

theorem lex_total (K : Nat) (x y : Nat → Nat) : (∀ i, i < K → x i = y i) ∨ LexLt K x y ∨ LexLt K y x := by
  induction K with
  | zero => left; intro i hi; omega
  | succ K ih =>
    rcases ih with h | ⟨j, hj, h1, h2⟩ | ⟨j, hj, h1, h2⟩
    · rcases Nat.lt_trichotomy (x K) (y K) with h' | h' | h'
      · exact Or.inr (Or.inl ⟨K, by omega, h, h'⟩)
      · left
        intro i hi
        by_cases e : i = K
        · rw [e]; exact h'
        · exact h i (by omega)
      · exact Or.inr (Or.inr ⟨K, by omega, fun i hi => (h i hi).symm, h'⟩)
    · exact Or.inr (Or.inl ⟨j, by omega, h1, h2⟩)
    · exact Or.inr (Or.inr ⟨j, by omega, h1, h2⟩)

/-- The rank of a configuration, which bounds the number of turns. -/
def rankOf (B : Nat) (x : Nat → Nat) : Nat → Nat
  | 0 => 0
  | K + 1 => rankOf B x K * B + x K

theorem rank_congr (B : Nat) {x y : Nat → Nat} : ∀ K, (∀ i, i < K → x i = y i) → rankOf B x K = rankOf B y K
  | 0, _ => rfl
  | K + 1, h => by
    rw [rankOf, rankOf, rank_congr B K (fun i hi => h i (by omega)), h K (by omega)]

theorem rank_lt (B : Nat) {x y : Nat → Nat} : ∀ K, (∀ i, i < K → x i < B) → LexLt K x y → rankOf B x K < rankOf B y K
  | 0, _, h => by obtain ⟨j, hj, _⟩ := h; omega
  | K + 1, hx, h => by
    obtain ⟨j, hj, h1, h2⟩ := h
    rw [rankOf, rankOf]
    by_cases e : j = K
    · subst e
      rw [rank_congr B j h1]
      omega
    · have := rank_lt B K (fun i hi => hx i (by omega)) ⟨j, by omega, h1, h2⟩
      have h3 : (rankOf B x K + 1) * B ≤ rankOf B y K * B := Nat.mul_le_mul_right B this
      have h4 := hx K (by omega)
      rw [Nat.add_mul, Nat.one_mul] at h3
      omega

theorem rank_bound (B : Nat) {x : Nat → Nat} : ∀ K, (∀ i, i < K → x i < B) → rankOf B x K < B ^ K
  | 0, _ => by simp [rankOf]
  | K + 1, hx => by
    have h1 := rank_bound B K (fun i hi => hx i (by omega))
    have h2 := hx K (by omega)
    rw [rankOf, pow_succ]
    have h3 : (rankOf B x K + 1) * B ≤ B ^ K * B := Nat.mul_le_mul_right B h1
    rw [Nat.add_mul, Nat.one_mul] at h3
    omega

/-- The configuration after `x` when threshold `j` is the last that can move. -/
def succAt (j : Nat) (x : Nat → Nat) : Nat → Nat := fun i => if i < j then x i else x j + 1 + (i - j)

theorem ValidT.le_max {b : Int} {K : Nat} {y : Nat → Nat} (h : ValidT b K y) : ∀ d i, i + d + 1 = K → (y i : Int) + d < b
  | 0, i, e => by simpa using h.2 i (by omega)
  | d + 1, i, e => by
    have := h.le_max d (i + 1) (by omega)
    have := h.1 i (i + 1) (by omega) (by omega)
    push_cast
    omega

theorem ValidT.ge_step {b : Int} {K : Nat} {y : Nat → Nat} (h : ValidT b K y) (j : Nat) : ∀ d, j + d < K → y j + d ≤ y (j + d)
  | 0, _ => le_rfl
  | d + 1, e => by
    have := h.ge_step j d (by omega)
    have := h.1 (j + d) (j + (d + 1)) (by omega) e
    omega

theorem succAt_valid {b : Int} {K j : Nat} {x : Nat → Nat} (h : ValidT b K x) (hj : j < K)
    (hm : (x j : Int) < b - K + j) : ValidT b K (succAt j x) := by
  unfold succAt
  constructor
  · intro i i' hi hi'
    simp only
    split
    · split
      · exact h.1 i i' hi hi'
      · have := h.1 i j (by assumption) hj
        omega
    · rw [if_neg (by omega)]
      omega
  · intro i hi
    simp only
    split
    · exact h.2 i hi
    · push_cast
      omega

/-- No configuration is between the two. -/
theorem succAt_next {b : Int} {K j : Nat} {x y : Nat → Nat} (hj : j < K)
    (hmax : ∀ i, j < i → i < K → b - K + i ≤ (x i : Int)) (hy : ValidT b K y) (h : LexLt K x y) :
    (∀ i, i < K → y i = succAt j x i) ∨ LexLt K (succAt j x) y := by
  obtain ⟨i, hi, h1, h2⟩ := h
  rcases Nat.lt_trichotomy i j with hij | hij | hij
  · right
    refine ⟨i, hi, fun k hk => ?_, ?_⟩
    · unfold succAt; rw [if_pos (by omega)]; exact h1 k hk
    · unfold succAt; rw [if_pos hij]; exact h2
  · subst hij
    -- the prefix is the same, the rest is at least the successor
    have hge : ∀ k, k < K → succAt i x k ≤ y k := by
      intro k hk
      unfold succAt
      split
      · rw [h1 k (by assumption)]
      · have := hy.ge_step i (k - i) (by omega)
        rw [show i + (k - i) = k by omega] at this
        omega
    rcases lex_total K (succAt i x) y with h | h | ⟨k, hk, h3, h4⟩
    · left
      intro k hk
      exact (h k hk).symm
    · right; exact h
    · have := hge k hk
      omega
  · have := hmax i hij hi
    have := hy.le_max (K - 1 - i) i (by omega)
    omega

theorem lex_succAt {K j : Nat} {x : Nat → Nat} (hj : j < K) : LexLt K x (succAt j x) :=
  ⟨j, hj, fun i hi => by unfold succAt; rw [if_pos hi], by unfold succAt; rw [if_neg (by omega)]; omega⟩

theorem lex_max {b : Int} {K : Nat} {x y : Nat → Nat} (hmax : ∀ i, i < K → b - K + i ≤ (x i : Int)) (hy : ValidT b K y) :
    ¬ LexLt K x y := by
  rintro ⟨i, hi, -, h2⟩
  have := hmax i hi
  have := hy.le_max (K - 1 - i) i (by omega)
  omega

end

end Smil
