import Verif.Build
import Verif.Label

/-!
# Extrema of a given height

Model of `hMinima`, `hMaxima` and of the labelled extrema
(Morpho/include/private/DMorphoExtrema.hpp:132-244). Input and output of `hMinima` and `hMaxima` may be one
image: the input is only read before the output is written.
-/

namespace Smil
variable {t : PT}

/-- `hMinima`, DMorphoExtrema.hpp:156-171. -/
def hMinima (E : Env (Px t)) (se : StrElt) (height : Px t) (im out : Img (Px t)) :
    Option (Except Int (Img (Px t))) :=
  match checkSize E im out with
  | .error c => some (.error c)
  | .ok o => andThen (hDualBuild E false se height im ⟨im.dims, E.raw⟩) fun g => minima E false se g o

/-- `hMaxima`, DMorphoExtrema.hpp:205-220. -/
def hMaxima (E : Env (Px t)) (se : StrElt) (height : Px t) (im out : Img (Px t)) :
    Option (Except Int (Img (Px t))) :=
  match checkSize E im out with
  | .error c => some (.error c)
  | .ok o => andThen (hBuild E false se height im ⟨im.dims, E.raw⟩) fun g => maxima E false se g o

/-- The common end of the labelled extrema: `ext` computes the extrema into a new image of the size of
`im`, which is then labelled into `imOut`; the return codes of both calls are ignored. `dout`: size of
`imOut` before the call; `raw`: its pixels after the resize; `M`: maximum of the label type. -/
def labelExtrema (E : Env (Px t)) (raw : Nat → Nat) (M : Nat) (se : StrElt) (im : Img (Px t)) (dout : Dims)
    (ext : Img (Px t) → Option (Except Int (Img (Px t)))) : Option (Except Int (Img Nat)) :=
  match checkDims E.auto im.dims dout with
  | .error c => some (.error c)
  | .ok _ =>
    (ext ⟨im.dims, E.raw⟩).bind fun r =>
      let m : Img (Px t) := match r with | .ok m => m | .error _ => ⟨im.dims, E.raw⟩
      (label E.auto M false se se m im.dims).map fun r =>
        match r with | .ok l => .ok l.2 | .error _ => .ok ⟨im.dims, raw⟩

/-- `maximaLabeled`, DMorphoExtrema.hpp:132-146. -/
def maximaLabeled (E : Env (Px t)) (raw : Nat → Nat) (M : Nat) (se : StrElt) (im : Img (Px t)) (dout : Dims) :
    Option (Except Int (Img Nat)) :=
  labelExtrema E raw M se im dout (maxima E false se im)

/-- `hMinimaLabeled`, DMorphoExtrema.hpp:181-195. -/
def hMinimaLabeled (E : Env (Px t)) (raw : Nat → Nat) (M : Nat) (se : StrElt) (height : Px t) (im : Img (Px t))
    (dout : Dims) : Option (Except Int (Img Nat)) :=
  labelExtrema E raw M se im dout (hMinima E se height im)

/-- `hMaximaLabeled`, DMorphoExtrema.hpp:230-244. -/
def hMaximaLabeled (E : Env (Px t)) (raw : Nat → Nat) (M : Nat) (se : StrElt) (height : Px t) (im : Img (Px t))
    (dout : Dims) : Option (Except Int (Img Nat)) :=
  labelExtrema E raw M se im dout (hMaxima E se height im)

end Smil
