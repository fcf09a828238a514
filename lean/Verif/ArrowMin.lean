import Verif.Arrow
import Verif.Label

/-!
# Arrows towards the lowest neighbours

Morpho/include/private/DMorphoArrow.hpp:332-615 (`arrowMin`, `arrowMinStep`). The line functions only fit together when the input and the arrows have the same
type; an arrow of `n` bits is a bit vector. Input and output are different images. The lines are distributed over threads, each with its own buffers; the
buffers are never freed.
-/

namespace Smil
variable {α : Type} [LinearOrder α] {n : Nat}

/-- The line compared for the point `b`, DMorphoArrow.hpp:450-460 and 581-591. `z` is only looked at to tell whether the slice exists: the line is taken from
the current slice, `srcLines[y]`. -/
def arrowMinTerm (border : α) (im : Img α) (odd : Bool) (s l : Nat) (b : IntPoint) (out : Line α) : Option (Line α) :=
  let y := (l : Int) + b.y
  let x := -b.x - (if (odd && cOdd l) && cOdd (y + 1) then 1 else 0)
  let z := (s : Int) + b.z
  if z < 0 ∨ z ≥ im.dims.d ∨ y < 0 ∨ y ≥ im.dims.h then some (copyLine im.dims.w (fun _ => border) out)
  else shiftLine (fun i => im.px i y.toNat s) x im.dims.w out border

/-- What the four line functions of lines 462-465 and 598-601 do to one pixel, `v` being the neighbour: `lowLine`, `infLine`, `testLine`, and
`equSupLine3`, which adds. `s.1` is the minimum so far, `s.2` the arrows. -/
def arrowMinPx (s : α × BitVec n) (v : α) (k : Nat) : α × BitVec n :=
  let low := decide (v < s.1)
  let m := if v < s.1 then v else s.1
  let a := if low then 0 else s.2
  (m, a + (if v = m then BitVec.ofNat n (2 ^ k) else 0))

/-- One turn of the loop over the points, DMorphoArrow.hpp:449-466 and 580-602. `sel` gives the value that takes part, from the pixel and its neighbour: the
neighbour itself for `arrowMin`, lines 593-596 for `arrowMinStep`. A shift of 64 or more is undefined. -/
def arrowMinTurn (sel : α → α → α) (border : α) (im : Img α) (odd : Bool) (s l : Nat) (acc : Line (α × BitVec n)) (bk : IntPoint × Nat) :
    Option (Line (α × BitVec n)) :=
  if bk.2 < 64 then
    (arrowMinTerm border im odd s l bk.1 (fun _ => border)).map fun t => fun i =>
      if i < im.dims.w then arrowMinPx (acc i) (sel (im.px i l s) (t i)) bk.2 else acc i
  else none

/-- One line of the output, DMorphoArrow.hpp:440-466 and 571-602; `ini` is what the line of minima is filled with first. -/
def arrowMinLine (sel : α → α → α) (ini : α → α) (border : α) (im : Img α) (odd : Bool) (s l : Nat) (pts : List IntPoint) : Option (Line (BitVec n)) :=
  (pts.zipIdx.foldlM (arrowMinTurn sel border im odd s l) fun i => (ini (im.px i l s), (0 : BitVec n))).map fun r => fun i => (r i).2

/-- Both functions; an element without points leaves the output as it is. -/
def arrowMinExec (auto : Bool) (raw : Nat → BitVec n) (sel : α → α → α) (ini : α → α) (border : α) (se : StrElt) (im : Img α) (out : Img (BitVec n)) :
    Option (Except Int (Img (BitVec n))) :=
  match checkDims auto im.dims out.dims with
  | .error c => some (.error c)
  | .ok _ =>
    match se.points with
    | [] => some (.ok (if out.dims = im.dims then out else ⟨im.dims, raw⟩))
    | pts => (buildLines im.dims 0 fun s l => arrowMinLine sel ini border im se.odd s l pts).map .ok

/-- `arrowMin`, DMorphoArrow.hpp:393-485: the size of the element is not looked at. -/
def arrowMin (auto : Bool) (raw : Nat → BitVec n) (border : α) (se : StrElt) (im : Img α) (out : Img (BitVec n)) : Option (Except Int (Img (BitVec n))) :=
  arrowMinExec auto raw (fun _ v => v) (fun a => a) border se im out

/-- `arrowMinStep`, DMorphoArrow.hpp:517-615. -/
def arrowMinStep (auto : Bool) (raw : Nat → BitVec n) (border : α) (se : StrElt) (im : Img α) (out : Img (BitVec n)) :
    Option (Except Int (Img (BitVec n))) :=
  arrowMinExec auto raw (fun a v => if v ≥ a then v else border) (fun _ => border) border se.noCenter im out

end Smil
