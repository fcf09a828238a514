import Verif.PixelHeap
import Verif.ImgOps
import Verif.LineArith

/-!
# The area opening by pixel queue

Model of `ImAreaOpening_PixelQueue`, Addons/PathOpening/include/DFastAreaOpening.h:41-56: the input is inverted into a new image, closed, and the result inverted.
-/

namespace Smil

/-- `ImAreaOpening_PixelQueue`, DFastAreaOpening.h:41-56, between images of the same type. The closing reads the new image `imNeg`, so it is never made in place, even when `imOut` is
`imIn`. `none`: undefined, in one of the inversions or in the closing. Simplified: the results of `inv` are always `RES_OK` here, since the sizes are equal. -/
def areaOpeningPQ {t : PT} (auto : Bool) (im : Img (Px t)) (lam : Nat) (out : Img (Px t)) : Option (Except Int (Img (Px t))) :=
  match checkOne auto im.dims out.dims with
  | .error c => some (.error c)
  | .ok _ =>
    (Img.mapK kInv im).bind fun neg =>
      (areaClosingPQ auto false neg lam ⟨im.dims, out.buf⟩).bind fun r =>
        match r with
        | .error c => some (.error c)
        | .ok o => (Img.mapK kInv o).map .ok

end Smil
