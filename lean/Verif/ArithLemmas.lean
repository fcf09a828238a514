import Verif.LineArith
import Mathlib.Order.MinMax

/-!
# Helper facts for the pixel arithmetic
-/

namespace Smil
variable {t : PT}

theorem lo_unsigned (h : t.signed = false) : t.lo = 0 := by simp [PT.lo, h]

theorem range_small (hb : t.bits ≤ 16) : t.hi ≤ 65535 ∧ -32768 ≤ t.lo := by
  unfold PT.hi PT.lo
  have h1 : (2:ℕ) ^ t.bits ≤ 2 ^ 16 := Nat.pow_le_pow_right (by norm_num) hb
  have h2 : (2:ℕ) ^ (t.bits - 1) ≤ 2 ^ 15 := Nat.pow_le_pow_right (by norm_num) (by omega)
  norm_num at h1 h2 ⊢
  zify at h1 h2
  split <;> constructor <;> omega

theorem int32_lo : INT32.lo = -2147483648 := by decide
theorem int32_hi : INT32.hi = 2147483647 := by decide

/-- In the narrow types every intermediate value of moderate size is exact. -/
theorem cpp_small (hb : t.bits ≤ 16) {v : Int} (h1 : -2147483648 ≤ v) (h2 : v ≤ 2147483647) :
    t.cpp v = some v := by
  unfold PT.cpp PT.promoted
  have e1 := int32_lo
  have e2 := int32_hi
  have e3 : INT32.signed = true := rfl
  simp only [hb, if_true, e1, e2, e3]
  rw [if_pos ⟨h1, h2⟩]

/-- In the wide unsigned types every intermediate value is reduced modulo the range. -/
theorem cpp_wide (hb : ¬ t.bits ≤ 16) (hs : t.signed = false) (v : Int) :
    t.cpp v = some (t.wrap v).val := by
  unfold PT.cpp
  have : t.promoted = t := by simp [PT.promoted, hb]
  rw [this, hs]
  simp

/-- An expression whose exact value fits the type is evaluated exactly. -/
theorem cpp_of_mem {v : Int} (h1 : t.lo ≤ v) (h2 : v ≤ t.hi) : t.cpp v = some v := by
  by_cases hb : t.bits ≤ 16
  · have := range_small hb
    exact cpp_small hb (by omega) (by omega)
  · unfold PT.cpp
    have : t.promoted = t := by simp [PT.promoted, hb]
    rw [this]
    cases hs : t.signed
    · simp [t.wrap_of_mem h1 h2]
    · simp [h1, h2]

/-- For unsigned types, and for types narrower than `int`, an intermediate value of moderate
size is never undefined, and its conversion to the type is the modular one. -/
theorem cpp_ok (hs : t.signed = false ∨ t.bits ≤ 16) {v : Int}
    (h1 : 4 * (t.lo - t.hi) ≤ v) (h2 : v ≤ 4 * (t.hi - t.lo)) :
    ∃ u, t.cpp v = some u ∧ t.wrap u = t.wrap v := by
  by_cases hb : t.bits ≤ 16
  · have := range_small hb
    exact ⟨v, cpp_small hb (by omega) (by omega), rfl⟩
  · have hs' : t.signed = false := by tauto
    exact ⟨_, cpp_wide hb hs' v, by simp⟩

/-- The residue of the type range congruent to `v` is unique. -/
theorem wrap_unique {v : Int} {a : Px t} {k : Int} (h : v = a.val + k * t.card) :
    t.wrap v = a := by
  have : t.wrap v = t.wrap a.val := t.wrap_congr ⟨k, by rw [h]; ring⟩
  rw [this, t.wrap_val]

theorem kSup_eq_max {α : Type} [LinearOrder α] (a b : α) : kSup a b = max a b := by
  unfold kSup
  split
  · rename_i h; exact (max_eq_left (le_of_lt h)).symm
  · rename_i h; exact (max_eq_right (not_lt.mp h)).symm

theorem kInf_eq_min {α : Type} [LinearOrder α] (a b : α) : kInf a b = min a b := by
  unfold kInf
  split
  · rename_i h; exact (min_eq_left (le_of_lt h)).symm
  · rename_i h; exact (min_eq_right (not_lt.mp h)).symm

/-- Closed form of inversion. -/
theorem kInv_eq (hs : t.signed = false ∨ t.bits ≤ 16) (a : Px t) :
    kInv a = some ⟨t.hi + t.lo - a.val, by have := a.le_hi; omega, by have := a.lo_le; omega⟩ := by
  have hl := a.lo_le
  have hh := a.le_hi
  have hlo := t.lo_nonpos
  have hhi := t.hi_nonneg
  have hll := t.lo_le_hi
  obtain ⟨u, hu, hwu⟩ := cpp_ok hs (v := t.hi - a.val) (by omega) (by omega)
  by_cases hb : t.bits ≤ 16
  · have hr := range_small hb
    have hu' : t.cpp (t.hi - a.val) = some (t.hi - a.val) := cpp_small hb (by omega) (by omega)
    have hv' : t.cpp (t.hi - a.val - t.lo) = some (t.hi - a.val - t.lo) :=
      cpp_small hb (by omega) (by omega)
    simp only [kInv, hu', hv', Option.bind_eq_bind, Option.bind_some]
    congr 1
    by_cases hsg : t.signed
    · -- signed: hi - a - lo = (hi + lo - a) - 2 lo and card = - 2 lo
      have hcard : t.card = -2 * t.lo := by
        unfold PT.card PT.hi PT.lo; simp [hsg]; ring
      refine wrap_unique (k := 1) ?_
      change _ = (t.hi + t.lo - a.val) + _
      rw [hcard]; ring
    · have h0 : t.lo = 0 := lo_unsigned (by simpa using hsg)
      refine wrap_unique (k := 0) ?_
      change _ = (t.hi + t.lo - a.val) + _
      rw [h0]; ring
  · have hs' : t.signed = false := by tauto
    have h0 : t.lo = 0 := lo_unsigned hs'
    have hu' : t.cpp (t.hi - a.val) = some (t.hi - a.val) := cpp_of_mem (by omega) (by omega)
    have hv' : t.cpp (t.hi - a.val - t.lo) = some (t.hi - a.val - t.lo) :=
      cpp_of_mem (by omega) (by omega)
    simp only [kInv, hu', hv', Option.bind_eq_bind, Option.bind_some]
    congr 1
    refine wrap_unique (k := 0) ?_
    change _ = (t.hi + t.lo - a.val) + _
    rw [h0]; ring

end Smil
