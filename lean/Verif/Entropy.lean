import Verif.Blob
import Verif.Histogram
import Mathlib.Analysis.SpecialFunctions.Log.Base

/-!
# Entropy

Base/include/private/DMeasures.hpp:1229-1336 and Base/include/private/DBlobMeasures.hpp:328-344. Logarithms and sums are real numbers instead of
`double`; the counts, of type `UINT`, do not wrap (images of fewer than 2^32 pixels).
-/

namespace Smil
section
variable {t : PT} {κ : Type} [LinearOrder κ]

/-- `measEntropyFunc::processSequence`, DMeasures.hpp:1239-1247: `histo[val]++`. -/
def entFn : MeasFn (List (Int × Nat)) (Px t) := ⟨[], fun s l => l.foldl (fun h v => mapIncr v.val h) s⟩

/-- `measEntropyFunc::finalize`, DMeasures.hpp:1249-1265, on the counts in the order of the keys; also lines 1321-1335. -/
noncomputable def entFin (counts : List Nat) : ℝ :=
  let s := counts.foldl (fun (s : ℝ × ℝ) (n : Nat) => if 0 < n then (s.1 + (n : ℝ), s.2 + (n : ℝ) * Real.logb 2 (n : ℝ)) else s) (0, 0)
  if 0 < s.1 then Real.logb 2 s.1 - s.2 / s.1 else 0

/-- `measEntropy(imIn)`, DMeasures.hpp:1280-1305. The error code is returned as a `double`. -/
noncomputable def measEntropy (im : Img (Px t)) : ℝ :=
  match measRun entFn nzPx false im with
  | none => -99
  | some m => entFin (m.map Prod.snd)

/-- `measEntropy(imIn, imMask)`, DMeasures.hpp:1318-1341. With automatic resizing a mask of another size is resized, after which its pixels are
arbitrary. `none`: undefined behaviour of the histogram. -/
noncomputable def measEntropyMask (auto : Bool) (raw : Nat → Px t) (im mask : Img (Px t)) : Option ℝ :=
  if im.dims.count = 0 ∨ mask.dims.count = 0 then some (-99)
  else if mask.dims = im.dims then (histMapMask false im mask).map fun m => entFin (m.map Prod.snd)
  else if auto then (histMapMask false im ⟨im.dims, raw⟩).map fun m => entFin (m.map Prod.snd)
  else some (-98)

/-- `blobsEntropy`, DBlobMeasures.hpp:339-344. -/
noncomputable def blobsEntropy (im : Img (Px t)) (m : BlobMap κ) : Option (List (κ × ℝ)) :=
  (blobMeasure entFn im m).map fun r => r.map fun e => (e.1, entFin (e.2.map Prod.snd))

end
end Smil
