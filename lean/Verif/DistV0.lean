import Verif.MorphoTop
import Verif.Transform
import Verif.LineArith

/-!
# The distance by successive erosions

Morpho/include/private/DMorphoDistance.hpp:983-1005 (`distV0`). The loop has no bound: the model runs at most a given number of turns and says whether the loop has
ended by then. The input image is only read before the output is written, so the function may work in place.
-/

namespace Smil
section
variable {t : PT}

/-- `add(tmpIm, imOut, imOut)`, line 1000: the saturated addition on all the pixels; `none`: it overflows an `int`. -/
def v0Add (a b : Img (Px t)) : Option (Img (Px t)) :=
  if (List.range b.dims.count).all fun i => (kAdd (a.buf i) (b.buf i)).isSome then
    some ⟨b.dims, fun i => (kAdd (a.buf i) (b.buf i)).getD Px.zero⟩
  else none

/-- `vol(tmpIm)`, line 1002 (a `double`: exact here, the pixels are at most one). -/
def v0Vol (a : Img (Px t)) : Int := ((List.range a.dims.count).map fun i => (a.buf i).val).sum

/-- `inf(imIn, T(1), tmpIm)`, line 994. -/
def v0Start (im : Img (Px t)) : Img (Px t) := ⟨im.dims, fun i => kInf (im.buf i) (t.wrap 1)⟩

/-- The loop, lines 998-1002, on `tmpIm` and `imOut`. `some (.ok none)`: it has not ended after the given number of turns. -/
def v0Loop (E : Env (Px t)) (se : StrElt) : Nat → Img (Px t) → Img (Px t) → Option (Except Int (Option (Img (Px t))))
  | 0, _, _ => some (.ok none)
  | f + 1, tmp, out =>
    (erode E true se tmp tmp).bind fun
      | .error _ => some (.error errRes)
      | .ok tmp' => (v0Add tmp' out).bind fun out' => if v0Vol tmp' ≠ 0 then v0Loop E se f tmp' out' else some (.ok (some out'))

/-- `distV0`, run for at most `fuel` turns of its loop. -/
def distV0 (E : Env (Px t)) (se : StrElt) (im out : Img (Px t)) (fuel : Nat) : Option (Except Int (Option (Img (Px t)))) :=
  match checkSize E im out with
  | .error c => some (.error c)
  | .ok _ => v0Loop E se fuel (v0Start im) (v0Start im)

end
end Smil
