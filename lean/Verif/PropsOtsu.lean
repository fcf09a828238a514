import Verif.Otsu
import Verif.PropsHistogram
import Mathlib.Tactic.FieldSimp
import Mathlib.Tactic.Linarith
import Mathlib.Tactic.Positivity

/-!
# C62: the threshold of Otsu maximises the variance between the classes
-/

namespace Smil

section
variable {t : PT}

/-- The sum of the values of a list of pixels. -/
def sumVals (l : List (Px t)) : ℚ := (l.map fun v => (v.val : ℚ)).sum

/-- Their mean (zero for the empty list, where it is not used). -/
def meanVals (l : List (Px t)) : ℚ := sumVals l / l.length

/-- The values up to `k` and the values above `k`. -/
def lowPart (l : List (Px t)) (k : Int) : List (Px t) := l.filter fun v => decide (v.val ≤ k)
def highPart (l : List (Px t)) (k : Int) : List (Px t) := l.filter fun v => decide (k < v.val)

/-- The variance between the classes, times the number of pixels: each class weighs the square of the distance
of its mean to the mean of all. -/
def splitVar (l : List (Px t)) (k : Int) : ℚ :=
  (lowPart l k).length * (meanVals l - meanVals (lowPart l k)) ^ 2 +
  (highPart l k).length * (meanVals l - meanVals (highPart l k)) ^ 2

theorem splitVar_nonneg (l : List (Px t)) (k : Int) : 0 ≤ splitVar l k := by
  unfold splitVar
  positivity

theorem splitVar_high (l : List (Px t)) (k : Int) (h : ∀ v ∈ l, v.val ≤ k) : splitVar l k = 0 := by
  have h1 : lowPart l k = l := by
    unfold lowPart
    rw [List.filter_eq_self]
    intro v hv
    simpa using h v hv
  have h2 : highPart l k = [] := by
    unfold highPart
    rw [List.filter_eq_nil_iff]
    intro v hv
    have := h v hv
    simp only [decide_eq_true_eq]; omega
  unfold splitVar
  rw [h1, h2]
  simp

theorem splitVar_low (l : List (Px t)) (k : Int) (h : ∀ v ∈ l, k < v.val) : splitVar l k = 0 := by
  have h1 : highPart l k = l := by
    unfold highPart
    rw [List.filter_eq_self]
    intro v hv
    simpa using h v hv
  have h2 : lowPart l k = [] := by
    unfold lowPart
    rw [List.filter_eq_nil_iff]
    intro v hv
    have := h v hv
    simp only [decide_eq_true_eq]; omega
  unfold splitVar
  rw [h1, h2]
  simp

theorem high_length (l : List (Px t)) (k : Int) :
    ((highPart l k).length : ℚ) = l.length - (lowPart l k).length := by
  have : l.length = (lowPart l k).length + (highPart l k).length := by
    unfold lowPart highPart
    induction l with
    | nil => rfl
    | cons a l ih =>
      simp only [List.filter_cons, List.length_cons]
      by_cases ha : a.val ≤ k
      · simp [ha, not_lt.mpr ha]; omega
      · simp [ha, not_le.mp ha]; omega
  rw [this]
  push_cast
  ring

theorem high_sum (l : List (Px t)) (k : Int) : sumVals (highPart l k) = sumVals l - sumVals (lowPart l k) := by
  unfold lowPart highPart sumVals
  induction l with
  | nil => simp
  | cons a l ih =>
    simp only [List.filter_cons, List.map_cons, List.sum_cons]
    by_cases ha : a.val ≤ k
    · simp only [ha, decide_true, if_true, not_lt.mpr ha, decide_false, Bool.false_eq_true, if_false,
        List.map_cons, List.sum_cons, ih]
      ring
    · simp only [ha, decide_false, not_le.mp ha, decide_true, if_true, Bool.false_eq_true, if_false,
        List.map_cons, List.sum_cons, ih]
      ring

theorem low_succ (l : List (Px t)) (v : Px t) :
    ((lowPart l v.val).length : ℚ) = (lowPart l (v.val - 1)).length + l.count v ∧
    sumVals (lowPart l v.val) = sumVals (lowPart l (v.val - 1)) + v.val * l.count v := by
  unfold lowPart sumVals
  induction l with
  | nil => simp
  | cons a l ih =>
    obtain ⟨h1, h2⟩ := ih
    simp only [List.filter_cons, List.count_cons]
    by_cases ha : a = v
    · subst ha
      have : ¬ a.val ≤ a.val - 1 := by omega
      simp only [le_refl, decide_true, if_true, this, decide_false, Bool.false_eq_true, if_false,
        List.map_cons, List.sum_cons, List.length_cons, beq_self_eq_true]
      push_cast
      rw [h1, h2]
      exact ⟨by ring, by ring⟩
    · have hav : a.val ≠ v.val := fun hc => ha (Px.ext hc)
      have hb : (a == v) = false := by simpa using ha
      by_cases hle : a.val ≤ v.val
      · have : a.val ≤ v.val - 1 := by omega
        simp only [hle, decide_true, if_true, this, List.map_cons, List.sum_cons, List.length_cons, hb,
          Bool.false_eq_true, if_false]
        push_cast
        rw [h1, h2]
        exact ⟨by ring, by ring⟩
      · have : ¬ a.val ≤ v.val - 1 := by omega
        simp only [hle, decide_false, this, hb, Bool.false_eq_true, if_false]
        push_cast
        rw [h1, h2]
        exact ⟨by ring, by ring⟩

theorem meanVals_mul (l : List (Px t)) : meanVals l * l.length = sumVals l := by
  unfold meanVals
  by_cases h : l.length = 0
  · rw [List.length_eq_zero_iff] at h
    subst h
    simp [sumVals]
  · have : (l.length : ℚ) ≠ 0 := by exact_mod_cast h
    field_simp

/-- The means as the code computes them. -/
theorem mean_of (l : List (Px t)) (f S : ℚ) (hf : f = l.length) (hS : S = sumVals l) :
    (if f > 0 then S / f else 0) = meanVals l := by
  unfold meanVals
  split
  · rw [hf, hS]
  · rename_i h
    have : (l.length : ℚ) = 0 := by
      have h0 : (0 : ℚ) ≤ l.length := by positivity
      rw [hf] at h
      exact le_antisymm (not_lt.mp h) h0
    rw [this]
    simp

/-! ### The map -/

theorem IsTable.at {P : Px t → Prop} {f : Px t → Nat} {m : List (Px t × Nat)} (h : IsTable P f m)
    (k : Px t) (hk : P k) : mapAt k m = f k := by
  unfold mapAt
  cases hf : m.find? fun e => e.1 = k with
  | none =>
    rw [List.find?_eq_none] at hf
    have := hf _ ((h.2 k _).mpr ⟨hk, rfl⟩)
    simp at this
  | some e =>
    have h1 := List.find?_some hf
    have h2 := List.mem_of_find?_eq_some hf
    simp only [decide_eq_true_eq] at h1
    obtain ⟨a, n⟩ := e
    simp only at h1
    subst h1
    exact ((h.2 a n).mp h2).2

theorem length_mapIns (k : Px t) (n : Nat) (m : List (Px t × Nat))
    (hs : m.Pairwise (fun a b => a.1 < b.1)) :
    ((∃ q, (k, q) ∈ m) → (mapIns k n m).length = m.length) ∧
    ((∀ q, (k, q) ∉ m) → (mapIns k n m).length = m.length + 1) := by
  induction m with
  | nil => simp [mapIns]
  | cons e m ih =>
    obtain ⟨b, r⟩ := e
    have hs' := List.pairwise_cons.mp hs
    obtain ⟨ih1, ih2⟩ := ih hs'.2
    simp only [mapIns]
    split
    · rename_i h1
      refine ⟨?_, fun _ => rfl⟩
      rintro ⟨q, hq⟩
      rcases List.mem_cons.mp hq with hq | hq
      · rw [Prod.mk.injEq] at hq; exact absurd hq.1 h1.ne
      · exact absurd (hs'.1 _ hq) (not_lt.mpr h1.le)
    · split
      · rename_i h1 h2
        subst h2
        exact ⟨fun _ => rfl, fun h => absurd (by simp) (h r)⟩
      · rename_i h1 h2
        simp only [List.length_cons]
        constructor
        · rintro ⟨q, hq⟩
          rcases List.mem_cons.mp hq with hq | hq
          · rw [Prod.mk.injEq] at hq; exact absurd hq.1 h2
          · rw [ih1 ⟨q, hq⟩]
        · intro h
          rw [ih2 fun q hq => h q (List.mem_cons_of_mem _ hq)]

theorem length_table (f : Px t → Nat) (a b : Px t) (hab : a ≤ b) (m : List (Px t × Nat))
    (h : IsTable (fun v => a ≤ v ∧ v ≤ b) f m) : (m.length : Int) = b.val - a.val + 1 := by
  have hab' := Px.le_iff.mp hab
  have hp : (m.map fun e => e.1.val).Perm
      ((List.range (b.val - a.val + 1).toNat).map fun i : Nat => a.val + i) := by
    rw [List.perm_ext_iff_of_nodup]
    · intro x
      simp only [List.mem_map, List.mem_range]
      constructor
      · rintro ⟨⟨v, n⟩, he, rfl⟩
        have := ((h.2 v n).mp he).1
        simp only [Px.le_iff] at this
        exact ⟨(v.val - a.val).toNat, by omega, by simp only; omega⟩
      · rintro ⟨i, hi, rfl⟩
        have h1 := a.lo_le
        have h2 := b.le_hi
        refine ⟨(⟨a.val + i, by omega, by omega⟩, f _), (h.2 _ _).mpr ⟨⟨?_, ?_⟩, rfl⟩, rfl⟩
        · rw [Px.le_iff]; simp only; omega
        · rw [Px.le_iff]; simp only; omega
    · rw [List.Nodup, List.pairwise_map]
      exact h.1.imp fun hab hc => hab.ne (Px.ext hc)
    · refine List.Nodup.map_on ?_ List.nodup_range
      intro x _ y _ hxy
      omega
  have := hp.length_eq
  simp only [List.length_map, List.length_range] at this
  omega

theorem sum_weighted {α : Type} [DecidableEq α] (g : α → ℚ) (m : List (α × Nat)) (l : List α)
    (hn : (m.map Prod.fst).Nodup) (hm : ∀ e ∈ m, e.2 = l.count e.1)
    (hl : ∀ v ∈ l, v ∈ m.map Prod.fst) : (m.map fun e => g e.1 * (e.2 : ℚ)).sum = (l.map g).sum := by
  induction m generalizing l with
  | nil =>
    cases l with
    | nil => rfl
    | cons a l => have := hl a (by simp); simp at this
  | cons e m ih =>
    obtain ⟨k, n⟩ := e
    rw [List.map_cons, List.nodup_cons] at hn
    have h1 := hm (k, n) (by simp)
    simp only at h1
    have := ih (l.filter fun a => a ≠ k) hn.2 (by
      intro e he
      have hek : e.1 ≠ k := by
        intro hc
        exact hn.1 (hc ▸ List.mem_map.mpr ⟨e, he, rfl⟩)
      rw [List.count_filter (by simpa using hek)]
      exact hm e (List.mem_cons_of_mem _ he)) (by
      intro v hv
      rw [List.mem_filter] at hv
      have := hl v hv.1
      rw [List.map_cons, List.mem_cons] at this
      rcases this with h | h
      · simp [h] at hv
      · exact h)
    rw [List.map_cons, List.sum_cons, this, h1]
    clear ih this h1 hn hm hl
    induction l with
    | nil => simp
    | cons a l ih2 =>
      by_cases ha : a = k
      · subst ha
        simp only [List.count_cons_self, List.filter_cons, ne_eq, not_true, decide_false,
          Bool.false_eq_true, if_false, List.map_cons, List.sum_cons]
        push_cast
        simp only [ne_eq] at ih2
        rw [← ih2]
        ring
      · simp only [List.filter_cons, ne_eq, ha, not_false_eq_true, decide_true, if_true,
          List.map_cons, List.sum_cons, List.count_cons_of_ne ha]
        simp only [ne_eq] at ih2
        rw [← ih2]
        ring

/-! ### The search -/

/-- What holds when the threshold examined is `s.idx`. -/
structure OtsuInv (l : List (Px t)) (a b : Px t) (s : OtsuSt t) : Prop where
  tab : IsTable (fun v => (a ≤ v ∧ v ≤ b) ∨ (0 ≤ v.val ∧ v.val ≤ s.idx)) (fun v => l.count v) s.hist
  len : (s.hist.length : Int) =
    if (s.idx : Int) < a.val then b.val - a.val + 1 + s.idx + 1 else max b.val s.idx + 1
  f0 : s.f0 = (lowPart l s.idx).length
  m0 : s.m0 = meanVals (lowPart l s.idx)
  best : s.best ≤ s.idx
  var : s.bestVar = splitVar l s.best
  max : ∀ j : Nat, j ≤ s.idx → splitVar l j ≤ s.bestVar
  first : ∀ j : Nat, j < s.best → splitVar l j < s.bestVar

theorem var_eq (l : List (Px t)) (k : Int) (gm tot f0 m0 : ℚ) (hg : gm = meanVals l) (ht : tot = l.length)
    (hf : f0 = (lowPart l k).length) (hm : m0 = meanVals (lowPart l k)) :
    otsuVar gm f0 (tot - f0) m0 (if tot - f0 > 0 then (gm * tot - m0 * f0) / (tot - f0) else 0) =
      splitVar l k := by
  have h1 := mean_of (highPart l k) (tot - f0) (gm * tot - m0 * f0)
    (by rw [ht, hf, high_length])
    (by rw [hg, ht, hm, hf, meanVals_mul, meanVals_mul, high_sum])
  rw [h1]
  unfold otsuVar splitVar
  rw [high_length, hf, ht, hm, hg]
  ring

theorem otsuInit_inv (l : List (Px t)) (a b : Px t) (ha : 0 ≤ a.val) (hab : a ≤ b)
    (hl : ∀ v ∈ l, a ≤ v ∧ v ≤ b) (h : List (Px t × Nat))
    (ht : IsTable (fun v => a ≤ v ∧ v ≤ b) (fun v => l.count v) h) (gm tot : ℚ)
    (hg : gm = meanVals l) (htot : tot = l.length) : OtsuInv l a b (otsuInit gm tot h) := by
  have hw : (t.wrap 0).val = 0 := t.wrap_of_mem t.lo_nonpos t.hi_nonneg
  have hab' := Px.le_iff.mp hab
  have htab : IsTable (fun v => (a ≤ v ∧ v ≤ b) ∨ (0 ≤ v.val ∧ v.val ≤ (0 : Nat)))
      (fun v => l.count v) (mapIns (t.wrap 0) 0 h) := by
    refine (ht.ins (t.wrap 0) 0 ?_).congr fun v => ?_
    · intro hn
      exact (List.count_eq_zero_of_not_mem fun hm => hn (hl _ hm)).symm
    · rw [Px.ext_iff', hw]
      refine or_congr Iff.rfl ?_
      simp only [Nat.cast_zero]
      omega
  have hat : mapAt (t.wrap 0) (mapIns (t.wrap 0) 0 h) = l.count (t.wrap 0) :=
    htab.at _ (Or.inr (by rw [hw]; simp))
  have hlow : lowPart l (-1) = [] := by
    unfold lowPart
    rw [List.filter_eq_nil_iff]
    intro v hv
    have := Px.le_iff.mp (hl v hv).1
    simp only [decide_eq_true_eq]; omega
  obtain ⟨q1, q2⟩ := low_succ l (t.wrap 0)
  rw [hw] at q1 q2
  rw [show (0 : Int) - 1 = -1 by rfl, hlow] at q1 q2
  have hf0 : ((mapAt (t.wrap 0) (mapIns (t.wrap 0) 0 h) : Nat) : ℚ) = (lowPart l ((0 : Nat) : Int)).length := by
    rw [hat]
    simp only [List.length_nil, Nat.cast_zero, zero_add] at q1
    rw [Nat.cast_zero, q1]
  have hm0 : (0 : ℚ) = meanVals (lowPart l ((0 : Nat) : Int)) := by
    unfold meanVals
    rw [Nat.cast_zero, q2]
    simp [sumVals]
  have hvar := var_eq l ((0 : Nat) : Int) gm tot _ 0 hg htot hf0 hm0
  refine ⟨htab, ?_, hf0, hm0, le_rfl, hvar, ?_, ?_⟩
  · have hlen := length_table _ a b hab h ht
    obtain ⟨l1, l2⟩ := length_mapIns (t.wrap 0) 0 h ht.1
    unfold otsuInit
    simp only [Nat.cast_zero, add_zero]
    by_cases h0 : a.val = 0
    · rw [if_neg (by omega), l1 ⟨_, (ht.2 _ _).mpr ⟨⟨Px.le_iff.mpr (by omega), Px.le_iff.mpr (by omega)⟩, rfl⟩⟩,
        max_eq_left (by omega)]
      omega
    · rw [if_pos (by omega), l2]
      · push_cast; omega
      · intro q hq
        have := Px.le_iff.mp ((ht.2 _ _).mp hq).1.1
        omega
  · intro j hj
    have : j = 0 := by
      have : (otsuInit gm tot h).idx = 0 := rfl
      omega
    subst this
    exact hvar.symm.le
  · intro j hj
    have : (otsuInit gm tot h).best = 0 := rfl
    omega

theorem otsuStep_inv (l : List (Px t)) (a b : Px t) (h1 : 1 ≤ t.hi) (ha : 0 ≤ a.val) (hab : a ≤ b)
    (hl : ∀ v ∈ l, a ≤ v ∧ v ≤ b) (hb : t.hi < 2 ^ 32) (gm tot : ℚ)
    (hg : gm = meanVals l) (htot : tot = l.length) (s : OtsuSt t) (hs : OtsuInv l a b s) :
    (∃ s', otsuStep gm tot s = some s' ∧ OtsuInv l a b s' ∧ s'.idx = s.idx + 1 ∧
      (s'.idx : Int) < max b.val 2) ∨
    (otsuStep gm tot s = none ∧ (a = b ∨ b.val ≤ s.idx + 1)) := by
  have hab' := Px.le_iff.mp hab
  have hbhi := b.le_hi
  unfold otsuStep
  by_cases hc : s.idx < sizeT ((s.hist.length : Int) - 2)
  · left
    have hi1 : (s.idx : Int) + 1 ≤ t.hi ∧ (s.idx : Int) + 1 < max b.val 2 := by
      have hlen := hs.len
      by_cases hia : (s.idx : Int) < a.val
      · rw [if_pos hia] at hlen
        rw [sizeT, Int.emod_eq_of_lt (by omega) (by omega)] at hc
        have : (s.idx : Int) + 1 < b.val := by omega
        exact ⟨by omega, lt_of_lt_of_le this (le_max_left _ _)⟩
      · rw [if_neg hia] at hlen
        by_cases hz : max b.val s.idx = 0
        · have : (s.idx : Int) ≤ 0 := hz ▸ le_max_right _ _
          exact ⟨by omega, lt_of_lt_of_le (by omega) (le_max_right _ _)⟩
        · have hnn : 0 ≤ max b.val (s.idx : Int) := le_trans (by omega) (le_max_right _ _)
          have hlt : max b.val (s.idx : Int) < 2 ^ 64 := by
            apply max_lt (by omega)
            by_contra hcon
            rw [max_eq_right (by omega)] at hlen
            have : sizeT ((s.hist.length : Int) - 2) < 2 ^ 64 := by unfold sizeT; omega
            omega
          rw [sizeT, Int.emod_eq_of_lt (by omega) (by omega)] at hc
          have : (s.idx : Int) + 1 < b.val := by
            rcases le_total b.val (s.idx : Int) with h | h
            · rw [max_eq_right h] at hlen; omega
            · rw [max_eq_left h] at hlen; omega
          exact ⟨by omega, lt_of_lt_of_le this (le_max_left _ _)⟩
    rw [if_pos hc]
    have hlo := t.lo_nonpos
    have hw : (t.wrap ((s.idx + 1 : Nat) : Int)).val = s.idx + 1 := by
      rw [t.wrap_of_mem (by omega) (by omega)]
      push_cast
      ring
    set k := t.wrap ((s.idx + 1 : Nat) : Int) with hk
    have htab : IsTable (fun v => (a ≤ v ∧ v ≤ b) ∨ (0 ≤ v.val ∧ v.val ≤ (s.idx + 1 : Nat)))
        (fun v => l.count v) (mapIns k 0 s.hist) := by
      refine (hs.tab.ins k 0 ?_).congr fun v => ?_
      · intro hn
        exact (List.count_eq_zero_of_not_mem fun hm => hn (Or.inl (hl _ hm))).symm
      · rw [Px.ext_iff', hw, or_assoc]
        refine or_congr Iff.rfl ?_
        push_cast
        omega
    have hat : mapAt k (mapIns k 0 s.hist) = l.count k :=
      htab.at _ (Or.inr (by rw [hw]; push_cast; omega))
    obtain ⟨q1, q2⟩ := low_succ l k
    rw [hw, add_sub_cancel_right] at q1 q2
    have hf0 : s.f0 + (mapAt k (mapIns k 0 s.hist) : Nat) = (lowPart l ((s.idx + 1 : Nat) : Int)).length := by
      rw [hat, hs.f0]
      push_cast
      rw [q1]
    have hm0 : (if s.f0 + (mapAt k (mapIns k 0 s.hist) : Nat) > 0 then
        (s.m0 * s.f0 + ((s.idx + 1 : Nat) : ℚ) * (mapAt k (mapIns k 0 s.hist) : Nat)) /
          (s.f0 + (mapAt k (mapIns k 0 s.hist) : Nat)) else 0) =
        meanVals (lowPart l ((s.idx + 1 : Nat) : Int)) := by
      refine mean_of _ _ _ hf0 ?_
      rw [hs.m0, hs.f0, meanVals_mul, hat]
      push_cast
      rw [q2]
      push_cast
      ring
    have hvar := var_eq l ((s.idx + 1 : Nat) : Int) gm tot _ _ hg htot hf0 hm0
    have hlen' : ((mapIns k 0 s.hist).length : Int) =
        if ((s.idx + 1 : Nat) : Int) < a.val then b.val - a.val + 1 + (s.idx + 1 : Nat) + 1
        else max b.val (s.idx + 1 : Nat) + 1 := by
      obtain ⟨l1, l2⟩ := length_mapIns k 0 s.hist hs.tab.1
      have hlen := hs.len
      push_cast
      by_cases hin : a.val ≤ (s.idx : Int) + 1 ∧ (s.idx : Int) + 1 ≤ b.val
      · rw [l1 ⟨_, (hs.tab.2 _ _).mpr ⟨Or.inl ⟨Px.le_iff.mpr (by omega), Px.le_iff.mpr (by omega)⟩, rfl⟩⟩,
          hlen, if_neg (show ¬ (s.idx : Int) + 1 < a.val by omega), max_eq_left (by omega)]
        split
        · omega
        · rw [max_eq_left (by omega)]
      · rw [l2]
        · push_cast
          rw [hlen]
          by_cases hia : (s.idx : Int) + 1 < a.val
          · rw [if_pos hia, if_pos (by omega)]
            ring
          · rw [if_neg hia, if_neg (by omega), max_eq_right (by omega), max_eq_right (by omega)]
        · intro q hq
          rcases ((hs.tab.2 _ _).mp hq).1 with ⟨r1, r2⟩ | ⟨r1, r2⟩
          · have r1' := Px.le_iff.mp r1
            have r2' := Px.le_iff.mp r2
            omega
          · omega
    set F0 := s.f0 + ((mapAt k (mapIns k 0 s.hist) : Nat) : ℚ) with hF0
    set M0 := (if F0 > 0 then
        (s.m0 * s.f0 + ((s.idx + 1 : Nat) : ℚ) * (mapAt k (mapIns k 0 s.hist) : Nat)) / F0 else 0)
    by_cases hgt : otsuVar gm F0 (tot - F0) M0
        (if tot - F0 > 0 then (gm * tot - M0 * F0) / (tot - F0) else 0) > s.bestVar
    · refine ⟨_, if_pos hgt, ?_, rfl, by push_cast; exact hi1.2⟩
      refine ⟨htab, hlen', hf0, hm0, le_rfl, hvar, ?_, ?_⟩
      · intro j hj
        simp only at hj ⊢
        rcases Nat.lt_or_ge j (s.idx + 1) with h | h
        · exact le_trans (hs.max j (by omega)) hgt.le
        · have : j = s.idx + 1 := by omega
          subst this
          exact hvar.symm.le
      · intro j hj
        simp only at hj ⊢
        exact lt_of_le_of_lt (hs.max j (by omega)) hgt
    · have hbest := hs.best
      refine ⟨_, if_neg hgt, ?_, rfl, by push_cast; exact hi1.2⟩
      refine ⟨htab, hlen', hf0, hm0, ?_, hs.var, ?_, hs.first⟩
      · simp only; omega
      · intro j hj
        simp only at hj ⊢
        rcases Nat.lt_or_ge j (s.idx + 1) with h | h
        · exact hs.max j (by omega)
        · have : j = s.idx + 1 := by omega
          subst this
          rw [← hvar]
          exact not_lt.mp hgt
  · right
    rw [if_neg hc]
    refine ⟨rfl, ?_⟩
    have hlen := hs.len
    by_cases hia : (s.idx : Int) < a.val
    · rw [if_pos hia] at hlen
      rw [sizeT, Int.emod_eq_of_lt (by omega) (by omega)] at hc
      left
      apply Px.ext
      omega
    · rw [if_neg hia] at hlen
      by_contra hcon
      push Not at hcon
      have h2 := hcon.2
      rw [max_eq_left (by omega)] at hlen
      rw [sizeT, Int.emod_eq_of_lt (by omega) (by omega)] at hc
      omega

theorem otsuLoop_inv (l : List (Px t)) (a b : Px t) (h1 : 1 ≤ t.hi) (ha : 0 ≤ a.val) (hab : a ≤ b)
    (hl : ∀ v ∈ l, a ≤ v ∧ v ≤ b) (hb : t.hi < 2 ^ 32) (gm tot : ℚ)
    (hg : gm = meanVals l) (htot : tot = l.length) (n : Nat) (s : OtsuSt t) (hs : OtsuInv l a b s)
    (hn : max b.val 2 ≤ s.idx + n) :
    OtsuInv l a b (otsuLoop gm tot n s) ∧
      (a = b ∨ b.val ≤ (otsuLoop gm tot n s).idx + 1) := by
  induction n generalizing s with
  | zero =>
    refine ⟨hs, Or.inr ?_⟩
    have : b.val ≤ max b.val 2 := le_max_left _ _
    simp only [otsuLoop]
    push_cast at hn
    omega
  | succ n ih =>
    unfold otsuLoop
    rcases otsuStep_inv l a b h1 ha hab hl hb gm tot hg htot s hs with ⟨s', e, hs', hi, -⟩ | ⟨e, h⟩
    · rw [e]
      refine ih s' hs' ?_
      rw [hi]
      push_cast at hn ⊢
      omega
    · rw [e]
      exact ⟨hs, h⟩

/-- **C62**. For every allocated image of non-negative values, the search returns the first threshold whose
two classes, the values up to it and the values above it, have the greatest variance between them; no
other threshold of any kind does better. Missing: images with negative values
(`C62_signed_bug`), and the use of the threshold (`C62_threshold_bug`); exact arithmetic stands for `double`. -/
theorem C62_otsu_partial (im : Img (Px t)) (h : im.dims.count ≠ 0) (hc : im.dims.count < 2 ^ 32)
    (hs : SpanOk im) (h1 : 1 ≤ t.hi) (hb : t.hi < 2 ^ 32)
    (hnn : ∀ p v, im.at? p = some v → 0 ≤ v.val) :
    ∃ m, histMap false im = some m ∧
      (otsuSearch m).2 = splitVar im.vals (otsuSearch m).1 ∧
      (∀ k : Int, splitVar im.vals k ≤ splitVar im.vals (otsuSearch m).1) ∧
      (∀ k : Nat, k < (otsuSearch m).1 → splitVar im.vals k < splitVar im.vals (otsuSearch m).1) := by
  have hv : considered false im ≠ [] := by
    rw [considered_false]
    intro hn
    have := im.vals_length
    rw [hn] at this
    exact h this.symm
  obtain ⟨hA, hB⟩ := (C17_extremes false im).1 hv
  rw [considered_false] at hA hB
  obtain ⟨⟨m, hm, ht⟩, -⟩ := histCore_spec (fun _ => true) im h hc hs
  rw [kept_true] at ht
  set a := minValOf false im
  set b := maxValOf false im
  have hl : ∀ v ∈ im.vals, a ≤ v ∧ v ≤ b := fun v hv => ⟨hA.2 hv, hB.2 hv⟩
  have hab : a ≤ b := hA.2 hB.1
  have ha : 0 ≤ a.val := by
    obtain ⟨p, hp⟩ := (im.mem_vals _).mp hA.1
    exact hnn p _ hp
  have hnod : (m.map Prod.fst).Nodup := by
    rw [List.Nodup, List.pairwise_map]
    exact ht.1.imp fun hab => hab.ne
  have hcnt : ∀ e ∈ m, e.2 = im.vals.count e.1 := by
    rintro ⟨v, n⟩ he
    exact ((ht.2 v n).mp he).2
  have hkeys : ∀ v ∈ im.vals, v ∈ m.map Prod.fst := fun v hv =>
    List.mem_map.mpr ⟨(v, im.vals.count v), (ht.2 _ _).mpr ⟨hl v hv, rfl⟩, rfl⟩
  have htot : (m.map fun e => (e.2 : ℚ)).sum = im.vals.length := by
    have := sum_weighted (fun _ => (1 : ℚ)) m im.vals hnod hcnt hkeys
    simpa using this
  have hgm : (m.map fun e => (e.1.val : ℚ) * (e.2 : ℚ)).sum / (m.map fun e => (e.2 : ℚ)).sum =
      meanVals im.vals := by
    rw [htot, sum_weighted (fun v : Px t => (v.val : ℚ)) m im.vals hnod hcnt hkeys]
    rfl
  have hinit := otsuInit_inv im.vals a b ha hab hl m ht _ _ hgm htot
  have hb' := b.le_hi
  have hlo := t.lo_nonpos
  obtain ⟨hinv, hend⟩ := otsuLoop_inv im.vals a b h1 ha hab hl hb _ _ hgm htot (t.card.toNat + 2) _ hinit
    (by
      change _ ≤ ((0 : Nat) : Int) + _
      apply max_le
      · unfold PT.card; push_cast; omega
      · push_cast; omega)
  refine ⟨m, hm, hinv.var, ?_, ?_⟩
  · intro k
    rw [show splitVar im.vals (otsuSearch m).1 = (otsuSearch m).2 from hinv.var.symm]
    have hpos : 0 ≤ (otsuSearch m).2 := by
      rw [show (otsuSearch m).2 = splitVar im.vals (otsuSearch m).1 from hinv.var]
      exact splitVar_nonneg _ _
    rcases lt_or_ge k 0 with hk | hk
    · rw [splitVar_low]
      · exact hpos
      · intro v hv
        have := Px.le_iff.mp (hl v hv).1
        omega
    · obtain ⟨n, rfl⟩ := Int.eq_ofNat_of_zero_le hk
      rcases le_or_gt n (otsuLoop ((m.map fun e => (e.1.val : ℚ) * (e.2 : ℚ)).sum /
        (m.map fun e => (e.2 : ℚ)).sum) (m.map fun e => (e.2 : ℚ)).sum (t.card.toNat + 2)
        (otsuInit ((m.map fun e => (e.1.val : ℚ) * (e.2 : ℚ)).sum /
        (m.map fun e => (e.2 : ℚ)).sum) (m.map fun e => (e.2 : ℚ)).sum m)).idx with hn | hn
      · exact hinv.max n hn
      · rcases hend with hend | hend
        · rcases lt_or_ge (n : Int) a.val with hna | hna
          · rw [splitVar_low]
            · exact hpos
            · intro v hv
              have := Px.le_iff.mp (hl v hv).1
              omega
          · rw [splitVar_high]
            · exact hpos
            · intro v hv
              have := Px.le_iff.mp (hl v hv).2
              rw [← hend] at this
              omega
        · rw [splitVar_high]
          · exact hpos
          · intro v hv
            have := Px.le_iff.mp (hl v hv).2
            omega
  · intro k hk
    rw [show splitVar im.vals (otsuSearch m).1 = (otsuSearch m).2 from hinv.var.symm]
    exact hinv.first k hk

/-- The class found by the search is made of the values up to the threshold, but the threshold itself is then
put with the values above: an image of two values becomes uniformly white. -/
theorem C62_threshold_bug :
    let im := im8 ⟨4, 1, 1⟩ [10, 20, 10, 20]
    (histMap false im).map otsuSearch = some (10, 100) ∧
    (otsuThreshold (t2 := UINT8) false im ⟨4, 1, 1⟩).map (fun r => (r.1, r.2.map Img.vals)) =
      some (UINT8.wrap 10, some [⊤, ⊤, ⊤, ⊤]) := by
  decide +kernel

/-- The variance is returned as a value of the pixel type, which cannot hold it. -/
theorem C62_variance_bug :
    (histMap false (im8 ⟨2, 1, 1⟩ [0, 255])).bind otsuValues = none := by decide +kernel

/-- With negative values the search goes through the values around the end of the type. -/
theorem C62_signed_bug :
    let im : Img (Px INT8) := ⟨⟨4, 1, 1⟩, fun i => if i < 2 then INT8.wrap (-10) else INT8.wrap (-9)⟩
    (histMap false im).map otsuSearch = some (246, 261121) ∧ splitVar im.vals (-10) = 1 := by
  decide +kernel

example :
    let im := im8 ⟨4, 1, 1⟩ [0, 0, 10, 20]
    (histMap false im).map otsuSearch = some (0, 225) ∧ splitVar im.vals 0 = 225 ∧
      splitVar im.vals 10 = 625 / 3 := by
  decide +kernel

end

end Smil
