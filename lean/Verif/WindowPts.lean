import Mathlib.Algebra.Order.Group.Int
import Mathlib.Tactic.Ring
import Mathlib.Tactic.Linarith

/-!
# Points of a window

Addons/MorphoExtras/include/private/WindowPoints.hpp. `off_t` is a signed type of 64 bits; an overflow and a division by zero are `none`. The messages are left out.
-/

namespace Smil

/-- The value of an `off_t` expression. -/
def off64 (v : Int) : Option Int := if -2 ^ 63 ≤ v ∧ v < 2 ^ 63 then some v else none

/-- `WindowPoints`, WindowPoints.hpp:76-82 and 135-138. -/
structure WinPts where
  w : Int
  h : Int
  d : Int

/-- `index`, WindowPoints.hpp:84-87. -/
def WinPts.index (s : WinPts) (x y z : Int) : Option Int :=
  (off64 (z * s.h)).bind fun a => (off64 (y + a)).bind fun b => (off64 (b * s.w)).bind fun c => off64 (x + c)

/-- `coords`, WindowPoints.hpp:89-99. The remainder and the quotient of C++ are towards zero. `-2^63 / -1` does not occur for a positive width and height, and is left out. -/
def WinPts.coords (s : WinPts) (p : Int) : Option (Int × Int × Int) :=
  if s.w = 0 ∨ s.h = 0 then none
  else
    let x := p.tmod s.w
    (off64 (p - x)).bind fun a =>
      let p' := a.tdiv s.w
      let y := p'.tmod s.h
      (off64 (p' - y)).map fun b => (x, y, b.tdiv s.h)

/-- `max(0, min(x + dx, n - 1))`, as in lines 111-113. -/
def clamp64 (x dx n : Int) : Option Int := (off64 (x + dx)).bind fun a => (off64 (n - 1)).map fun b => max 0 (min a b)

/-- `translate`, WindowPoints.hpp:107-115. -/
def WinPts.translate (s : WinPts) (p dx dy dz : Int) : Option Int :=
  (s.coords p).bind fun c => (clamp64 c.1 dx s.w).bind fun x => (clamp64 c.2.1 dy s.h).bind fun y => (clamp64 c.2.2 dz s.d).bind fun z => s.index x y z

/-- `inWindow(x, y, z)`, WindowPoints.hpp:117-126. -/
def WinPts.inWin (s : WinPts) (x y z : Int) : Bool :=
  if x < 0 ∨ s.w ≤ x then false else if y < 0 ∨ s.h ≤ y then false else if z < 0 ∨ s.d ≤ z then false else true

/-- `inWindow(p)`, WindowPoints.hpp:128-133. -/
def WinPts.inWinAt (s : WinPts) (p : Int) : Option Bool := (s.coords p).map fun c => s.inWin c.1 c.2.1 c.2.2

/-! ### Lemmas -/

theorem off64_of {v : Int} (h1 : -2 ^ 63 ≤ v) (h2 : v < 2 ^ 63) : off64 v = some v := if_pos ⟨h1, h2⟩

/-- The sizes of a window whose pixels can be counted. -/
structure WinPts.OK (s : WinPts) : Prop where
  w : 0 < s.w
  h : 0 < s.h
  d : 0 < s.d
  count : s.w * s.h * s.d < 2 ^ 63

theorem tmod_of_split {w x a : Int} (h0 : 0 ≤ x) (h1 : x < w) (ha : 0 ≤ a) : (x + a * w).tmod w = x := by
  rw [Int.tmod_eq_emod_of_nonneg (by nlinarith), Int.add_mul_emod_self_right, Int.emod_eq_of_lt h0 h1]

theorem tdiv_mul_self {w a : Int} (hw : w ≠ 0) : (a * w).tdiv w = a := Int.mul_tdiv_cancel a hw

theorem coords_index {s : WinPts} (hs : s.OK) {x y z : Int} (hx : 0 ≤ x ∧ x < s.w) (hy : 0 ≤ y ∧ y < s.h) (hz : 0 ≤ z) (hb : x + (y + z * s.h) * s.w < 2 ^ 63) :
    s.coords (x + (y + z * s.h) * s.w) = some (x, y, z) := by
  have hw := hs.w
  have hh := hs.h
  have h1 : 0 ≤ z * s.h := by positivity
  have h2 : 0 ≤ y + z * s.h := by omega
  have h3 : 0 ≤ (y + z * s.h) * s.w := by positivity
  have h4 : z * s.h ≤ (y + z * s.h) * s.w := by nlinarith
  unfold WinPts.coords
  rw [if_neg (by omega)]
  dsimp only
  rw [tmod_of_split hx.1 hx.2 h2, show x + (y + z * s.h) * s.w - x = (y + z * s.h) * s.w by ring, off64_of (by omega) (by omega), Option.bind_some, tdiv_mul_self (by omega), tmod_of_split hy.1 hy.2 hz,
    show y + z * s.h - y = z * s.h by ring, off64_of (by omega) (by omega), Option.map_some, tdiv_mul_self (by omega)]

theorem index_val {s : WinPts} (hs : s.OK) {x y z : Int} (hx : 0 ≤ x ∧ x < s.w) (hy : 0 ≤ y ∧ y < s.h) (hz : 0 ≤ z ∧ z < s.d) :
    s.index x y z = some (x + (y + z * s.h) * s.w) ∧ 0 ≤ x + (y + z * s.h) * s.w ∧ x + (y + z * s.h) * s.w < s.w * s.h * s.d := by
  have hw := hs.w
  have hh := hs.h
  have hc := hs.count
  have h1 : 0 ≤ z * s.h := by have := hz.1; positivity
  have h2 : 0 ≤ y + z * s.h := by omega
  have h3 : 0 ≤ (y + z * s.h) * s.w := by positivity
  have h4 : y + z * s.h ≤ (y + z * s.h) * s.w := by nlinarith
  have h5 : y + z * s.h + 1 ≤ s.h * s.d := by nlinarith
  have h6 : (y + z * s.h + 1) * s.w ≤ s.h * s.d * s.w := by nlinarith
  have h7 : s.h * s.d * s.w = s.w * s.h * s.d := by ring
  have h8 : (y + z * s.h + 1) * s.w = (y + z * s.h) * s.w + s.w := by ring
  unfold WinPts.index
  rw [off64_of (by omega) (by omega), Option.bind_some, off64_of (by omega) (by omega), Option.bind_some, off64_of (by omega) (by omega), Option.bind_some, off64_of (by omega) (by omega)]
  exact ⟨rfl, by omega, by omega⟩

/-- Every number is the index of coordinates, those of the slices below the first included. -/
theorem split_index {s : WinPts} (hs : s.OK) {p : Int} (hp : 0 ≤ p) : ∃ x y z, (0 ≤ x ∧ x < s.w) ∧ (0 ≤ y ∧ y < s.h) ∧ 0 ≤ z ∧ p = x + (y + z * s.h) * s.w := by
  have hw := hs.w
  have hh := hs.h
  have e1 := Int.mul_ediv_add_emod p s.w
  have e2 := Int.mul_ediv_add_emod (p / s.w) s.h
  refine ⟨p % s.w, p / s.w % s.h, p / s.w / s.h, ⟨Int.emod_nonneg _ (by omega), Int.emod_lt_of_pos _ hw⟩, ⟨Int.emod_nonneg _ (by omega), Int.emod_lt_of_pos _ hh⟩, ?_, ?_⟩
  · exact Int.ediv_nonneg (Int.ediv_nonneg hp hw.le) hh.le
  · have : p / s.w % s.h + p / s.w / s.h * s.h = p / s.w := by linarith [mul_comm (p / s.w / s.h) s.h]
    rw [this]
    linarith [mul_comm (p / s.w) s.w]

end Smil
