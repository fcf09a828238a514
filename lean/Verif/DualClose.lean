import Verif.AreaOpen
import Verif.GeoMeas
import Verif.ImgOps
import Verif.LineArith

/-!
# Closings computed on the inverted image

Advanced/include/private/AreaOpening/DAreaOpen.hpp, GeodesicThinning/GeodesicPathOpening.hpp.
-/

namespace Smil
variable {t u : PT}

/-- `areaClosing` with the method `unionfind`, DAreaOpen.hpp:92-113. The opening reads the temporary image, so that input
and output can be the same image. -/
def areaClosing (auto : Bool) (se : StrElt) (lam : Nat) (im : Img (Px t)) (dout : Dims) :
    Option (Except Int (Img (Px t))) :=
  match checkDims auto im.dims dout with
  | .error c => some (.error c)
  | .ok _ =>
    (Img.mapK kInv im).bind fun tmp =>
      (areaOpening auto false se lam tmp im.dims).bind fun r =>
        match r with
        | .error c => some (.error c)
        | .ok o => (Img.mapK kInv o).map .ok

/-- `geodesicPathClosing`, GeodesicPathOpening.hpp:1118-1142: the first inversion is made in the type of the input, the
second in the type of the output. -/
def geodesicPathClosing (root : ℚ → ℚ) (auto : Bool) (len : ℚ) (method : Int) (sx sy sz : ℚ) (im : Img (Px t)) (dout : Dims) :
    Option (Except Int (Img (Px u))) :=
  if method < 0 ∨ 3 < method then some (.error (-100))
  else
    match checkOneOut auto im.dims dout with
    | .error c => some (.error c)
    | .ok _ =>
      (Img.mapK kInv im).bind fun tmp =>
        (geodesicPathOpening (u := u) root auto false len method sx sy sz tmp im.dims).bind fun r =>
          match r with
          | .error c => some (.error c)
          | .ok o => (Img.mapK kInv o).map .ok

end Smil
