import Mathlib.Order.BoundedOrder.Basic
import Mathlib.Order.Lattice
import Mathlib.Data.Int.Order.Basic
import Mathlib.Tactic.Linarith
import Mathlib.Tactic.Ring

/-!
# Pixel types

`ImDtTypes<T>` of Core/include/private/DTypes.hpp:88-134 for the integer types
`UINT8 .. UINT32, INT8 .. INT32` (DTypes.hpp:54-80).
-/

namespace Smil

/-- An integer pixel type: signedness and number of bits
(Core/include/private/DTypes.hpp:54-80). -/
structure PT where
  signed : Bool
  bits : Nat
deriving DecidableEq, Repr

/-- DTypes.hpp:63 -/ def UINT8 : PT := ⟨false, 8⟩
/-- DTypes.hpp:64 -/ def UINT16 : PT := ⟨false, 16⟩
/-- DTypes.hpp:65 -/ def UINT32 : PT := ⟨false, 32⟩
/-- DTypes.hpp:77 -/ def INT8 : PT := ⟨true, 8⟩
/-- DTypes.hpp:79 -/ def INT16 : PT := ⟨true, 16⟩
/-- DTypes.hpp:80 -/ def INT32 : PT := ⟨true, 32⟩

/-- `ImDtTypes<T>::min()`, DTypes.hpp:104-107 (`numeric_limits<T>::min()`). -/
def PT.lo (t : PT) : Int := if t.signed then -(2 ^ (t.bits - 1) : Nat) else 0

/-- `ImDtTypes<T>::max()`, DTypes.hpp:108-111 (`numeric_limits<T>::max()`). -/
def PT.hi (t : PT) : Int :=
  if t.signed then (2 ^ (t.bits - 1) : Nat) - 1 else (2 ^ t.bits : Nat) - 1

theorem PT.lo_le_hi (t : PT) : t.lo ≤ t.hi := by
  unfold PT.lo PT.hi
  have h1 := Nat.one_le_two_pow (n := t.bits - 1)
  have h2 := Nat.one_le_two_pow (n := t.bits)
  split <;> omega

theorem PT.lo_nonpos (t : PT) : t.lo ≤ 0 := by
  unfold PT.lo
  have h1 := Nat.one_le_two_pow (n := t.bits - 1)
  split <;> omega

theorem PT.hi_nonneg (t : PT) : 0 ≤ t.hi := by
  unfold PT.hi
  have h1 := Nat.one_le_two_pow (n := t.bits - 1)
  have h2 := Nat.one_le_two_pow (n := t.bits)
  split <;> omega

/-- Number of values, `ImDtTypes<T>::cardinal()`, DTypes.hpp:112-115 (as an exact integer). -/
def PT.card (t : PT) : Int := t.hi - t.lo + 1

theorem PT.card_pos (t : PT) : 0 < t.card := by
  have := t.lo_le_hi; unfold PT.card; omega

/-- A pixel value: an integer in the range of the type. -/
@[ext] structure Px (t : PT) where
  /-- The value as an exact integer. -/
  val : Int
  lo_le : t.lo ≤ val
  le_hi : val ≤ t.hi
deriving DecidableEq

namespace Px
variable {t : PT}

instance : LinearOrder (Px t) := LinearOrder.lift' Px.val (fun _ _ h => Px.ext h)

instance : BoundedOrder (Px t) where
  top := ⟨t.hi, t.lo_le_hi, le_refl _⟩
  le_top a := a.le_hi
  bot := ⟨t.lo, le_refl _, t.lo_le_hi⟩
  bot_le a := a.lo_le

instance : Repr (Px t) := ⟨fun a _ => repr a.1⟩
instance : Inhabited (Px t) := ⟨⊥⟩

theorem ext_iff' {a b : Px t} : a = b ↔ a.val = b.val := ⟨fun h => by rw [h], Px.ext⟩
theorem le_iff {a b : Px t} : a ≤ b ↔ a.val ≤ b.val := Iff.rfl
theorem lt_iff {a b : Px t} : a < b ↔ a.val < b.val := Iff.rfl
@[simp] theorem top_val : (⊤ : Px t).val = t.hi := rfl
@[simp] theorem bot_val : (⊥ : Px t).val = t.lo := rfl

end Px

/-- Conversion of an integer to the pixel type, `(T)(v)`: modular, as done by
gcc/clang and required since C++20. -/
def PT.wrap (t : PT) (v : Int) : Px t :=
  ⟨t.lo + (v - t.lo) % t.card,
    by
      have h1 := Int.emod_nonneg (v - t.lo) (ne_of_gt t.card_pos)
      omega,
    by
      have h2 := Int.emod_lt_of_pos (v - t.lo) t.card_pos
      unfold PT.card at *
      omega⟩

/-- A value that fits the type is converted to itself. -/
theorem PT.wrap_of_mem (t : PT) {v : Int} (h1 : t.lo ≤ v) (h2 : v ≤ t.hi) :
    (t.wrap v).val = v := by
  unfold PT.wrap
  simp only
  rw [Int.emod_eq_of_lt (by omega) (by unfold PT.card; omega)]
  omega

@[simp] theorem PT.wrap_val (t : PT) (a : Px t) : t.wrap a.val = a :=
  Px.ext (t.wrap_of_mem a.lo_le a.le_hi)

/-- Two integers congruent modulo the number of values convert to the same pixel. -/
theorem PT.wrap_congr (t : PT) {u v : Int} (h : t.card ∣ u - v) : t.wrap u = t.wrap v := by
  apply Px.ext
  unfold PT.wrap
  simp only
  have : (u - t.lo) % t.card = (v - t.lo) % t.card := by
    rw [Int.emod_eq_emod_iff_emod_sub_eq_zero]
    have : u - t.lo - (v - t.lo) = u - v := by ring
    rw [this]
    exact Int.emod_eq_zero_of_dvd h
  rw [this]

/-- The exact value and the converted one differ by a multiple of the number of values. -/
theorem PT.wrap_dvd (t : PT) (v : Int) : t.card ∣ v - (t.wrap v).val := by
  unfold PT.wrap
  simp only
  have := Int.emod_add_mul_ediv (v - t.lo) t.card
  exact ⟨(v - t.lo) / t.card, by omega⟩

/-- Range of the type in which C++ evaluates an arithmetic expression on operands of type
`T` (integer promotion): `int` for the 8 and 16 bit types, `T` itself for the wider ones
(the library has no types of 17 to 31 bits). -/
def PT.promoted (t : PT) : PT := if t.bits ≤ 16 then INT32 else t

/-- Evaluation of an intermediate C++ arithmetic result `v` (exact integer) for operands of
type `T`: signed overflow is undefined behaviour (`none`), unsigned overflow is modular. -/
def PT.cpp (t : PT) (v : Int) : Option Int :=
  if t.promoted.signed then
    if t.promoted.lo ≤ v ∧ v ≤ t.promoted.hi then some v else none
  else some (t.promoted.wrap v).val

end Smil
