import Verif.Img
import Verif.StrElt
import Mathlib.Order.BoundedOrder.Basic
import Mathlib.Order.Lattice

/-!
# Dilation and erosion: the generic algorithm

Morpho/include/private/DMorphImageOperations.hpp, .hxx (`_exec_single_generic`).
Pixels live in an arbitrary type; `f` is the line function (`supLine` or `infLine`) and `border`
the value of `borderBuf`.
-/

namespace Smil
variable {α : Type}

/-- `_extract_translated_line`, DMorphImageOperations.hpp:171-178: the line `(y, z)` shifted by `x`,
or the border line outside the image. -/
def extractLine (border : α) (im : Img α) (x y z : Int) (out : Line α) : Option (Line α) :=
  if z < 0 ∨ z ≥ im.dims.d ∨ y < 0 ∨ y ≥ im.dims.h then
    some (copyLine im.dims.w (fun _ => border) out)
  else shiftLine (fun i => im.px i y.toNat z.toNat) x im.dims.w out border

/-- `oddLine` of the generic algorithm, DMorphImageOperations.hxx:504-505. -/
def oddLine (odd : Bool) (l s : Nat) : Bool := odd && (cOdd ((l : Int) + 1) && cOdd ((s : Int) + 1))

/-- One term of the generic algorithm, DMorphImageOperations.hxx:506-510 and 515-519: the line
read for the point `p` of the element when line `l` of slice `s` is computed. -/
def genericTerm (border : α) (im : Img α) (odd : Bool) (s l : Nat) (p : IntPoint) (out : Line α) :
    Option (Line α) :=
  let z := (s : Int) - p.z
  let y := (l : Int) - p.y
  let x := p.x + (if oddLine odd l s && cOdd y then 1 else 0)
  extractLine border im x y z out

/-- The computation of one output line by the generic algorithm,
DMorphImageOperations.hxx:502-524, for an element with at least one point. -/
def genericLine (f : α → α → α) (border : α) (im : Img α) (odd : Bool) (s l : Nat)
    (p0 : IntPoint) (ps : List IntPoint) : Option (Line α) :=
  let scratch : Line α := fun _ => border
  (genericTerm border im odd s l p0 scratch).bind fun t0 =>
    ps.foldlM (fun acc p =>
      (genericTerm border im odd s l p scratch).map fun t => zipLineInto f im.dims.w acc t) t0

/-- The image made of lines that are all defined. -/
def buildLines (D : Dims) (border : α) (g : Nat → Nat → Option (Line α)) : Option (Img α) :=
  if ∀ s, s < D.d → ∀ l, l < D.h → (g s l).isSome then
    some (Img.ofFn D fun x y z => (match g z y with | some L => L | none => fun _ => border) x)
  else none

/-- `_exec_single_generic`, DMorphImageOperations.hxx:446-532: an element without points leaves
the output as it was. The lines are distributed over threads; each line is computed in private
buffers from the input (cloned if it is also the output) and written once, so the order does not
matter and is not modelled. -/
def execGeneric (f : α → α → α) (border : α) (se : StrElt) (im out : Img α) : Option (Img α) :=
  match se.points with
  | [] => some out
  | p0 :: ps => buildLines im.dims border fun s l => genericLine f border im se.odd s l p0 ps

end Smil
