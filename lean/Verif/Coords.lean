import Mathlib.Tactic.Linarith
import Mathlib.Tactic.Ring
import Mathlib.Data.Nat.Basic

/-!
# Offsets, coordinates and the image cursor

Core/include/DBaseImage.h:186-272 and `ImageBox`, Core/include/DCommon.h:323-508.
-/

namespace Smil

/-- Image dimensions (`BaseImage::width/height/depth`, DBaseImage.h:317-319). -/
structure Dims where
  w : Nat
  h : Nat
  d : Nat
deriving DecidableEq, Repr

/-- `pixelCount = lineCount * w`, `lineCount = d * h` (DImage.hxx:300-302). -/
def Dims.count (D : Dims) : Nat := D.d * D.h * D.w

/-- `isCoordsInImage` (signed version), DBaseImage.h:192-199. -/
def Dims.isCoordsInImage (D : Dims) (x y z : Int) : Bool :=
  if x < 0 ∨ y < 0 ∨ z < 0 then false
  else if x ≥ D.w ∨ y ≥ D.h ∨ z ≥ D.d then false
  else true

/-- `isOffsetInImage` (signed version), DBaseImage.h:222-229. -/
def Dims.isOffsetInImage (D : Dims) (off : Int) : Bool :=
  if off < 0 then false
  else if off > D.count then false
  else true

/-- `getOffsetFromCoords`, DBaseImage.h:245-254; `none` is the return value `-1`. -/
def Dims.getOffsetFromCoords (D : Dims) (x y : Nat) (z : Nat := 1) : Option Nat :=
  if x ≥ D.w then none
  else if y ≥ D.h then none
  else if z ≥ D.d then none
  else some (z * D.w * D.h + y * D.w + x)

/-- `getCoordsFromOffset`, DBaseImage.h:257-263; `none` is the division by zero. -/
def Dims.getCoordsFromOffset (D : Dims) (off : Nat) : Option (Nat × Nat × Nat) :=
  if D.w * D.h = 0 ∨ D.w = 0 then none
  else some (off % D.w, (off % (D.w * D.h)) / D.w, off / (D.w * D.h))

/-- An integer point (`IntPoint`). -/
structure IntPoint where
  x : Int
  y : Int
  z : Int
deriving DecidableEq, Repr

/-- `ImageBox`, DCommon.h:323-326. -/
structure ImageBox where
  pt : IntPoint
  reference : Int
  width : Int
  height : Int
  depth : Int
deriving DecidableEq, Repr

namespace ImageBox

/-- Constructor, DCommon.h:367-374. -/
def mk' (w h d : Int) : ImageBox := ⟨⟨0, 0, 0⟩, 0, w, h, d⟩

/-- `setReference(x,y,z)`, DCommon.h:380-387. -/
def setReferenceXYZ (b : ImageBox) (x y z : Int) : ImageBox :=
  { b with pt := ⟨x, y, z⟩, reference := x + y * b.width + z * b.width * b.height }

/-- `setReference(IntPoint)`, DCommon.h:393-397. -/
def setReferencePt (b : ImageBox) (p : IntPoint) : ImageBox :=
  { b with pt := p, reference := p.x + (p.y + p.z * b.width) * b.height }

/-- `setReference(off_t)`, DCommon.h:402-410 (C++ `%` and `/` truncate; a zero dimension is a
division by zero, `none`). -/
def setReferenceOff (b : ImageBox) (off : Int) : Option ImageBox :=
  if b.width = 0 ∨ b.height = 0 then none
  else
    let x := off.tmod b.width
    let o := (off - x).tdiv b.width
    let y := o.tmod b.height
    let z := (o - y).tdiv b.height
    some { b with pt := ⟨x, y, z⟩, reference := off }

/-- `shift(dx,dy,dz)`, DCommon.h:431-437. -/
def shiftXYZ (b : ImageBox) (dx dy dz : Int) : ImageBox :=
  let p : IntPoint := ⟨b.pt.x + dx, b.pt.y + dy, b.pt.z + dz⟩
  { b with pt := p, reference := p.x + (p.y * b.width + p.z * b.height) * b.width }

/-- `shift(IntPoint)`, DCommon.h:442-448. -/
def shiftPt (b : ImageBox) (dp : IntPoint) : ImageBox :=
  let p : IntPoint := ⟨b.pt.x + dp.x, b.pt.y + dp.y, b.pt.z + dp.z⟩
  { b with pt := p, reference := p.x + (p.y + p.z * b.height) * b.width }

/-- `inImage(x,y,z)`, DCommon.h:467-471. -/
def inImage (b : ImageBox) (p : IntPoint) : Bool :=
  p.x ≥ 0 ∧ p.x < b.width ∧ p.y ≥ 0 ∧ p.y < b.height ∧ p.z ≥ 0 ∧ p.z < b.depth

/-- `getOffset(IntPoint)`, DCommon.h:489-492. -/
def getOffset (b : ImageBox) (p : IntPoint) : Int := p.x + b.width * (p.y + p.z * b.height)

/-- `getCoords(off_t)`, DCommon.h:499-508. -/
def getCoords (b : ImageBox) (off : Int) : Option IntPoint :=
  if b.width = 0 ∨ b.height = 0 then none
  else
    let x := off.tmod b.width
    let o := (off - x).tdiv b.width
    let y := o.tmod b.height
    let z := (o - y).tdiv b.height
    some ⟨x, y, z⟩

end ImageBox

/-- The calls a user can make on a cursor. -/
inductive Move where
  | setXYZ (x y z : Int)
  | setPt (p : IntPoint)
  | setOff (off : Int)
  | shiftXYZ (dx dy dz : Int)
  | shiftPt (p : IntPoint)

/-- Effect of one call on the cursor. -/
def ImageBox.move (b : ImageBox) : Move → Option ImageBox
  | .setXYZ x y z => some (b.setReferenceXYZ x y z)
  | .setPt p => some (b.setReferencePt p)
  | .setOff o => b.setReferenceOff o
  | .shiftXYZ x y z => some (b.shiftXYZ x y z)
  | .shiftPt p => some (b.shiftPt p)

/-- Effect of a sequence of calls. -/
def ImageBox.moves (b : ImageBox) : List Move → Option ImageBox
  | [] => some b
  | m :: ms => (b.move m).bind fun b' => b'.moves ms

end Smil
