import Verif.Build

/-!
# Geodesic dilation and erosion, alternate sequential filters by reconstruction

Model of `geoDilate`, `geoErode`, `asBuildOpen` and `asBuildClose`
(Morpho/include/private/DMorphoGeodesic.hpp:71-132, 623-673). In all of them the input may be the output.
-/

namespace Smil
variable {α : Type}

/-- The loop of `geoDilate` and `geoErode`, DMorphoGeodesic.hpp:83-86 and 119-122. `msOut`: mask and output
are the same image, then each combination with the mask combines the output with itself. -/
def geoSteps (morph : Img α → Option (Except Int (Img α))) (F : α → α → α) (ms : Img α) (msOut : Bool) :
    Nat → Img α → Option (Except Int (Img α))
  | 0, a => some (.ok a)
  | n + 1, a => andThen (morph a) fun d =>
      geoSteps morph F ms msOut n (Img.zipF F d (if msOut then d else ms))

section
variable [LinearOrder α] [BoundedOrder α]

/-- `geoDilate`, DMorphoGeodesic.hpp:71-88 (`inf` is the minimum by `C09_*`, and `sup` below the maximum). -/
def geoDilate (E : Env α) (msOut : Bool) (se : StrElt) (im ms out : Img α) : Option (Except Int (Img α)) :=
  match checkSize3 E im ms out with
  | .error c => some (.error c)
  | .ok m => geoSteps (fun a => dilate E true (se.resize 1) a a) min m msOut se.size (Img.zipF min im m)

/-- `geoErode`, DMorphoGeodesic.hpp:107-124. -/
def geoErode (E : Env α) (msOut : Bool) (se : StrElt) (im ms out : Img α) : Option (Except Int (Img α)) :=
  match checkSize3 E im ms out with
  | .error c => some (.error c)
  | .ok m => geoSteps (fun a => erode E true (se.resize 1) a a) max m msOut se.size (Img.zipF max im m)

end

section
variable {t : PT}

/-- `asBuildOpen`, DMorphoGeodesic.hpp:623-640 (the final copy gives `tmpIm`). -/
def asBuildOpen (E : Env (Px t)) (se : StrElt) (im out : Img (Px t)) : Option (Except Int (Img (Px t))) :=
  match checkSize E im out with
  | .error c => some (.error c)
  | .ok o => asfLoop (buildOpen E false) (buildClose E false) se se.size 1 im o

/-- `asBuildClose`, DMorphoGeodesic.hpp:656-673. -/
def asBuildClose (E : Env (Px t)) (se : StrElt) (im out : Img (Px t)) : Option (Except Int (Img (Px t))) :=
  match checkSize E im out with
  | .error c => some (.error c)
  | .ok o => asfLoop (buildClose E false) (buildOpen E false) se se.size 1 im o

end
end Smil
