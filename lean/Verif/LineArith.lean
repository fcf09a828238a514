import Verif.Pix

/-!
# Scalar kernels of the line operations

One definition per line functor of Base/include/private/DLineArith.hpp: the expression
assigned to `lOut[i]` from `lIn1[i]`, `lIn2[i]`.  `none` is undefined behaviour (signed
overflow of the intermediate expression).
-/

namespace Smil
variable {t : PT}

/-- `invLine`, DLineArith.hpp:116-123: `max() - lineIn[i] - min()`. -/
def kInv (a : Px t) : Option (Px t) := do
  let u ← t.cpp (t.hi - a.val)
  let v ← t.cpp (u - t.lo)
  some (t.wrap v)

/-- `addLine`, DLineArith.hpp:125-135:
`lIn1[i] > (T)(max() - lIn2[i]) ? max() : lIn1[i] + lIn2[i]`. -/
def kAdd (a b : Px t) : Option (Px t) := do
  let u ← t.cpp (t.hi - b.val)
  if a > t.wrap u then some ⊤
  else do
    let s ← t.cpp (a.val + b.val)
    some (t.wrap s)

/-- `addNoSatLine`, DLineArith.hpp:137-145. -/
def kAddNoSat (a b : Px t) : Option (Px t) := do
  let s ← t.cpp (a.val + b.val)
  some (t.wrap s)

/-- `subLine`, DLineArith.hpp:147-157:
`lIn1[i] < (T)(min() + lIn2[i]) ? min() : lIn1[i] - lIn2[i]`. -/
def kSub (a b : Px t) : Option (Px t) := do
  let u ← t.cpp (t.lo + b.val)
  if a < t.wrap u then some ⊥
  else do
    let s ← t.cpp (a.val - b.val)
    some (t.wrap s)

/-- `subNoSatLine`, DLineArith.hpp:159-167. -/
def kSubNoSat (a b : Px t) : Option (Px t) := do
  let s ← t.cpp (a.val - b.val)
  some (t.wrap s)

/-- `supLine`, DLineArith.hpp:169-177: `lIn1[i] > lIn2[i] ? lIn1[i] : lIn2[i]`. -/
def kSup {α : Type} [LinearOrder α] (a b : α) : α := if a > b then a else b

/-- `infLine`, DLineArith.hpp:179-187: `lIn1[i] < lIn2[i] ? lIn1[i] : lIn2[i]`. -/
def kInf {α : Type} [LinearOrder α] (a b : α) : α := if a < b then a else b

/-- Pixel constant `T(0)`. -/
def Px.zero : Px t := ⟨0, t.lo_nonpos, t.hi_nonneg⟩

/-- `grtLine`, DLineArith.hpp:189-204 (trueVal = max, falseVal = 0). -/
def kGrt (a b : Px t) : Px t := if a > b then ⊤ else Px.zero
/-- `grtOrEquLine`, DLineArith.hpp:227-242. -/
def kGrtOrEqu (a b : Px t) : Px t := if a ≥ b then ⊤ else Px.zero
/-- `lowLine`, DLineArith.hpp:265-280. -/
def kLow (a b : Px t) : Px t := if a < b then ⊤ else Px.zero
/-- `lowOrEquLine`, DLineArith.hpp:303-318. -/
def kLowOrEqu (a b : Px t) : Px t := if a ≤ b then ⊤ else Px.zero
/-- `equLine`, DLineArith.hpp:341-356. -/
def kEqu (a b : Px t) : Px t := if a = b then ⊤ else Px.zero
/-- `diffLine`, DLineArith.hpp:358-373: `(lIn1[i] == lIn2[i]) ? falseVal : trueVal`. -/
def kDiff (a b : Px t) : Px t := if a = b then Px.zero else ⊤

/-- `absDiffLine`, DLineArith.hpp:402-410. -/
def kAbsDiff (a b : Px t) : Option (Px t) := do
  let s ← if a > b then t.cpp (a.val - b.val) else t.cpp (b.val - a.val)
  some (t.wrap s)

/-- `mulLine`, DLineArith.hpp:412-423.  The comparison is made in `double`; it is modelled
as the exact comparison, which agrees for types of at most 32 bits: an integer product
above `max` is at least `max+1`, a power of two, which `double` represents exactly, and
rounding is monotone. -/
def kMul (a b : Px t) : Option (Px t) :=
  if a.val * b.val > t.hi then some ⊤
  else do
    let s ← t.cpp (a.val * b.val)
    some (t.wrap s)

/-- `divLine`, DLineArith.hpp:435-444: division by zero gives the maximum.
C++ integer division truncates; `INT_MIN / -1` overflows (`none` through `cpp`). -/
def kDiv (a b : Px t) : Option (Px t) :=
  if b.val = 0 then some ⊤
  else do
    let s ← t.cpp (a.val.tdiv b.val)
    some (t.wrap s)

/-- Conversion of a pixel to `bool` in a condition: nonzero. -/
def Px.truthy (a : Px t) : Bool := a.val ≠ 0

/-- `logicAndLine`, DLineArith.hpp:484-492. -/
def kLogicAnd (a b : Px t) : Px t := t.wrap (if a.truthy && b.truthy then 1 else 0)
/-- `logicOrLine`, DLineArith.hpp:504-512. -/
def kLogicOr (a b : Px t) : Px t := t.wrap (if a.truthy || b.truthy then 1 else 0)
/-- `logicXOrLine`, DLineArith.hpp:524-532. -/
def kLogicXOr (a b : Px t) : Px t :=
  t.wrap (if (a.truthy && !b.truthy) || (!a.truthy && b.truthy) then 1 else 0)

/-- `testLine`, DLineArith.hpp:571-584: `lIn1[i] ? lIn2[i] : lIn3[i]`. -/
def kTest {β : Type} (a : Px t) (b c : β) : β := if a.truthy then b else c

/-- Which scalar kernel `_compare_base` selects for an operator string,
Base/include/private/DImageArith.hpp:1153-1168; `none` is the `RES_ERR` return. -/
def compareKernel (op : String) : Option (Px t → Px t → Px t) :=
  if op = "==" then some kEqu
  else if op = "!=" then some kDiff
  else if op = ">" then some kGrt
  else if op = "<" then some kLow
  else if op = ">=" then some kGrtOrEqu
  else if op = "<=" then some kLowOrEqu
  else none

/-- One pixel of `compare`, DImageArith.hpp:1145-1173: comparison image, then `test`. -/
def kCompare {β : Type} (op : String) (a b : Px t) (tv fv : β) : Option β :=
  (compareKernel op).map fun k => kTest (k a b) tv fv

end Smil
