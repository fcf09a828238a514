import Verif.FastLine
import Verif.Residues

/-!
# The operators of FastLineSoille.hpp

The three numbers `dx`, `dy` and `r` are computed from the angle and the radius in floating point, lines 547-552; here
they are parameters. For the angles 0 and 90 used by the operators on squares they are `(max W H, 0, radius)` and
`(0, -max W H, radius)`.
-/

namespace Smil
variable {α : Type} [LinearOrder α]

/-- `lineDilate`, FastLineSoille.hpp:515-563. `same`: `imOut` is `imIn`; `raw`: contents of the arrays `g`, `h` and
`h2`. -/
def lineDilate (E : Env α) (same : Bool) (dx dy : Int) (r : Nat) (raw : Nat → VH α) (im out : Img α) :
    Option (Except Int (Img α)) :=
  match checkSize E im out with
  | .error c => some (.error c)
  | .ok o =>
    if im.dims.d > 1 then some (.error (-100))
    else (grayDilate im.dims.w im.dims.h (r * 2 + 1) dx dy raw same im.buf (if same then im.buf else o.buf)).map
      fun b => .ok ⟨im.dims, b⟩

omit [LinearOrder α] in
/-- `Image<T> imTmp(imIn)`, DImage.hxx:66-74: a new image of the same size (`cloneData` is false). -/
def newLike (E : Env α) (im : Img α) : Img α := ⟨im.dims, E.raw⟩

variable {t : PT}

/-- `lineErode`, FastLineSoille.hpp:565-577. -/
def lineErode (E : Env (Px t)) (dx dy : Int) (r : Nat) (raw : Nat → VH (Px t)) (im out : Img (Px t)) :
    Option (Except Int (Img (Px t))) :=
  andThen (invImg E im (newLike E im)) fun tmp =>
    andThen (lineDilate E false dx dy r raw tmp out) fun res => invImg E res res

/-- `lineOpen`, FastLineSoille.hpp:579-589. -/
def lineOpen (E : Env (Px t)) (dx dy : Int) (r : Nat) (raw raw' : Nat → VH (Px t)) (im out : Img (Px t)) :
    Option (Except Int (Img (Px t))) :=
  andThen (lineErode E dx dy r raw im (newLike E im)) fun tmp => lineDilate E false dx dy r raw' tmp out

/-- `lineClose`, FastLineSoille.hpp:591-601. -/
def lineClose (E : Env (Px t)) (dx dy : Int) (r : Nat) (raw raw' : Nat → VH (Px t)) (im out : Img (Px t)) :
    Option (Except Int (Img (Px t))) :=
  andThen (lineDilate E false dx dy r raw im (newLike E im)) fun tmp => lineErode E dx dy r raw' tmp out

/-- The longest side, FastLineSoille.hpp:531. -/
def maxSide (D : Dims) : Nat := max D.w D.h

/-- `squareDilate`, FastLineSoille.hpp:669-678. -/
def squareDilate (E : Env α) (r : Nat) (raw raw' : Nat → VH α) (im out : Img α) : Option (Except Int (Img α)) :=
  andThen (lineDilate E false (maxSide im.dims) 0 r raw im (newLike E im)) fun tmp =>
    lineDilate E false 0 (-(maxSide im.dims : Int)) r raw' tmp out

/-- `squareErode`, FastLineSoille.hpp:680-688. -/
def squareErode (E : Env (Px t)) (r : Nat) (raw raw' : Nat → VH (Px t)) (im out : Img (Px t)) :
    Option (Except Int (Img (Px t))) :=
  andThen (lineErode E (maxSide im.dims) 0 r raw im (newLike E im)) fun tmp =>
    lineErode E 0 (-(maxSide im.dims : Int)) r raw' tmp out

/-- `squareOpen`, FastLineSoille.hpp:690-702. The last two calls write in images of the right size. -/
def squareOpen (E : Env (Px t)) (r : Nat) (raw : Nat → Nat → VH (Px t)) (im out : Img (Px t)) :
    Option (Except Int (Img (Px t))) :=
  andThen (lineErode E (maxSide im.dims) 0 r (raw 0) im (newLike E im)) fun tmp =>
    andThen (lineErode E 0 (-(maxSide im.dims : Int)) r (raw 1) tmp out) fun o =>
      andThen (lineDilate E false (maxSide im.dims) 0 r (raw 2) o tmp) fun tmp' =>
        lineDilate E false 0 (-(maxSide im.dims : Int)) r (raw 3) tmp' o

/-- `squareClose`, FastLineSoille.hpp:704-717. -/
def squareClose (E : Env (Px t)) (r : Nat) (raw : Nat → Nat → VH (Px t)) (im out : Img (Px t)) :
    Option (Except Int (Img (Px t))) :=
  andThen (lineDilate E false (maxSide im.dims) 0 r (raw 0) im (newLike E im)) fun tmp =>
    andThen (lineDilate E false 0 (-(maxSide im.dims : Int)) r (raw 1) tmp out) fun o =>
      andThen (lineErode E (maxSide im.dims) 0 r (raw 2) o tmp) fun tmp' =>
        lineErode E 0 (-(maxSide im.dims : Int)) r (raw 3) tmp' o

end Smil
