import Verif.Blob
import Mathlib.Algebra.Field.Rat
import Mathlib.Tactic.Ring

/-!
# Values on blobs

`blobsMeanVal`, `blobsValueList`, `blobsModeVal`, `blobsMedianVal` and `blobsBoundBox` of
Base/include/private/DBlobMeasures.hpp: the functors of DMeasures.hpp run by `processBlobMeasure`, then their `finalize`.
-/

namespace Smil

variable {κ : Type} {t : PT}

/-- `measMeanValFunc::finalize`, DMeasures.hpp:186-195: the mean and the number whose square root is the standard deviation.
The `double` are rationals: the sums are exact below 2^53, the two divisions are not rounded here. -/
def meanFin (s : Nat × Int × Int) : ℚ × ℚ :=
  if s.1 = 0 then (0, 0)
  else ((s.2.1 : ℚ) / s.1, (s.2.2 : ℚ) / s.1 - (s.2.1 : ℚ) / s.1 * ((s.2.1 : ℚ) / s.1))

/-- `blobsMeanVal`, DBlobMeasures.hpp:146-151. -/
def blobsMeanVal (im : Img (Px t)) (m : BlobMap κ) : Option (List (κ × (ℚ × ℚ))) :=
  (blobMeasure meanFn im m).map fun r => r.map fun e => (e.1, meanFin e.2)

/-- `blobsValueList`, DBlobMeasures.hpp:161-166. -/
def blobsValueList (im : Img (Px t)) (m : BlobMap κ) : Option (List (κ × List (Px t))) :=
  blobMeasure valueListFn im m

/-- `blobsModeVal`, DBlobMeasures.hpp:176-180; the value of an entry is `none` when `retVal` has never been assigned (a
blob without sequences). -/
def blobsModeVal (im : Img (Px t)) (m : BlobMap κ) : Option (List (κ × Option (Px t))) :=
  (blobMeasure modeFn im m).map fun r => r.map fun e => (e.1, e.2.ret)

/-- `blobsMedianVal`, DBlobMeasures.hpp:189-193. -/
def blobsMedianVal (im : Img (Px t)) (m : BlobMap κ) : Option (List (κ × Px t)) :=
  (blobMeasure medianFn im m).map fun r => r.map fun e => (e.1, t.wrap (medianLoop e.2.2 0 e.2.1))

/-- `measBoundBoxFunc::finalize`, DMeasures.hpp:745-755. -/
def boxFin (im3d : Bool) (s : BoxSt) : List Nat :=
  if im3d then [s.x0, s.y0, s.z0, s.x1, s.y1, s.z1] else [s.x0, s.y0, s.x1, s.y1]

/-- `blobsBoundBox(imIn, blobs)`, DBlobMeasures.hpp:255-260. The image only gives its size. -/
def blobsBoundBox (im : Img (Px t)) (m : BlobMap κ) : Option (List (κ × List Nat)) :=
  (posBlobMeasure (boxFn im.dims) im m).map fun r => r.map fun e => (e.1, boxFin (decide (im.dims.d > 1)) e.2)

/-- `blobsBoundBox(imLbl, onlyNonZero)`, DBlobMeasures.hpp:238-243, through `processBlobMeasure(imIn, onlyNonZero)`,
DBaseMeasureOperations.hpp:290-296. -/
def blobsBoundBoxLbl (onlyNZ : Bool) (lab : Img (Px t)) : Option (List (Px t × List Nat)) :=
  blobsBoundBox lab (computeBlobs Px.zero onlyNZ lab)

end Smil
