import Verif.Measures
import Verif.Label

/-!
# Histograms and thresholds

Base/include/private/DImageHistogram.hpp and DLineHistogram.hpp. `none` stands for undefined
behaviour: a signed overflow, an access out of the bounds of an array or of a vector.
-/

namespace Smil

section
variable {t : PT}

/-- Conversion of an integer to `size_t`. -/
def sizeT (v : Int) : Nat := (v % 2 ^ 64).toNat

/-- `ImDtTypes<T>::cardinal()`, Core/include/private/DTypes.hpp:112-115, as the code evaluates it. -/
def cardT (t : PT) : Option Nat := do
  let a ← t.cpp (t.hi - t.lo)
  let b ← t.cpp (a + 1)
  pure (sizeT b)

/-- `buf[size_t(pixels[i] - base)]++` on an array of `n` cells, DImageHistogram.hpp:70, 104, 135 and 185. -/
def histIncr (n : Nat) (base v : Px t) (h : Nat → Nat) : Option (Nat → Nat) := do
  let d ← t.cpp (v.val - base.val)
  if sizeT d < n then some fun j => if j = sizeT d then h j + 1 else h j else none

/-- The counting loop, DImageHistogram.hpp:68-70 and 102-104, 134-135, 183-185. `keep` is the condition
on the mask. -/
def histLoop (n : Nat) (base : Px t) (im : Img (Px t)) (keep : Nat → Bool) : Option (Nat → Nat) :=
  (List.range im.dims.count).foldlM
    (fun h i => if keep i then histIncr n base (im.buf i) h else some h) fun _ => 0

/-- `histogram(imIn, h)`, DImageHistogram.hpp:62-73, with `h` an array of `cardinal()` cells. -/
def histArr (im : Img (Px t)) : Option (Nat → Nat) := do
  let n ← cardT t
  histLoop n ⊥ im fun _ => true

/-- `histogram(imIn, imMask, h)`, DImageHistogram.hpp:92-108. -/
def histArrMask (im mask : Img (Px t)) : Option (Except Int (Nat → Nat)) :=
  if im.dims.count ≠ 0 ∧ mask.dims = im.dims then do
    let n ← cardT t
    let h ← histLoop n ⊥ im fun i => nzPx (mask.buf i)
    pure (.ok h)
  else some (.error (-100))

/-- `std::map::insert` on the list of the pairs in key order: does nothing if the key is present. -/
def mapIns (k : Px t) (n : Nat) : List (Px t × Nat) → List (Px t × Nat)
  | [] => [(k, n)]
  | (a, q) :: m =>
    if k < a then (k, n) :: (a, q) :: m else if k = a then (a, q) :: m else (a, q) :: mapIns k n m

/-- `i++` on a variable of type `T`. -/
def incrT (i : Px t) : Option (Px t) := (t.cpp (i.val + 1)).map t.wrap

/-- `for (T i = …; i < rVals[0]; i++) h.insert(pair(i, 0))`, DImageHistogram.hpp:140-141 and 188-189.
The first argument bounds the number of turns. -/
def lowLoop : Nat → Px t → Px t → List (Px t × Nat) → Option (List (Px t × Nat))
  | 0, _, _, h => some h
  | n + 1, i, a, h => if i < a then (incrT i).bind fun j => lowLoop n j a (mapIns i 0 h) else some h

/-- `for (T i = rVals[1]; i <= max && i != min; i++) h.insert(pair(i, 0))`, DImageHistogram.hpp:146-149
and 194-197. -/
def upLoop : Nat → Px t → List (Px t × Nat) → Option (List (Px t × Nat))
  | 0, _, h => some h
  | n + 1, i, h =>
    if i ≤ ⊤ ∧ i ≠ ⊥ then (incrT i).bind fun j => upLoop n j (mapIns i 0 h) else some h

/-- The common part of the two functions that return a map, DImageHistogram.hpp:127-153 and 174-201.
The counts are converted to `UINT`. -/
def histCore (keep : Nat → Bool) (fullRange : Bool) (im : Img (Px t)) :
    Option (List (Px t × Nat)) := do
  let r ← rangeValOf false im
  let c1 ← t.cpp (r.2.val - r.1.val)
  let c ← t.cpp (c1 + 1)
  let buf ← histLoop (sizeT c) r.1 im keep
  let h0 ← if fullRange then lowLoop t.card.toNat ⊥ r.1 [] else some []
  let h1 := (List.range (sizeT c)).foldl
    (fun h (i : Nat) => mapIns (t.wrap ((i : Int) + r.1.val)) (buf i % 2 ^ 32) h) h0
  if fullRange then upLoop t.card.toNat r.2 h1 else some h1

/-- `histogram(imIn, fullRange)`, DImageHistogram.hpp:124-154. -/
def histMap (fullRange : Bool) (im : Img (Px t)) : Option (List (Px t × Nat)) :=
  histCore (fun _ => true) fullRange im

/-- `histogram(imIn, imMask, fullRange)`, DImageHistogram.hpp:167-202: the empty map if the images do not
have the same size. -/
def histMapMask (fullRange : Bool) (im mask : Img (Px t)) : Option (List (Px t × Nat)) :=
  if im.dims.count ≠ 0 ∧ mask.dims = im.dims then
    histCore (fun i => nzPx (mask.buf i)) fullRange im
  else some []

/-- `histogramMap(imIn, binSize)`, DImageHistogram.hpp:210-224. Simplification: the counters, of type `UINT`, are
natural numbers; the two agree for less than 2^32 pixels. -/
def histBins (bin : Px t) (im : Img (Px t)) : List (Int × Nat) :=
  if im.dims.count = 0 then []
  else (List.range im.dims.count).foldl
    (fun m i => mapIncr (Int.tdiv (im.buf i).val (max bin (t.wrap 1)).val) m) []

/-! ### Thresholds -/

variable {t2 : PT}

/-- `threshLine::_exec`, DLineHistogram.hpp:48-53. -/
def kThresh (lo hi : Px t) (tv fv : Px t2) (v : Px t) : Px t2 := if v ≥ lo ∧ v ≤ hi then tv else fv

/-- `threshold`, DImageHistogram.hpp:275-285: the checks and the call of the line function on every line. -/
def thrCore (auto : Bool) (im : Img (Px t)) (lo hi : Px t) (tv fv : Px t2) (dout : Dims) :
    Except Int (Img (Px t2)) :=
  match checkDims auto im.dims dout with
  | .error c => .error c
  | .ok () => .ok ⟨im.dims, fun i => kThresh lo hi tv fv (im.buf i)⟩

/-- `threshold(imIn, minVal, maxVal, trueVal, falseVal, imOut)`, DImageHistogram.hpp:268-286; the
recursive call of line 273 does not recurse again. -/
def threshold (auto : Bool) (im : Img (Px t)) (lo hi : Px t) (tv fv : Px t2) (dout : Dims) :
    Except Int (Img (Px t2)) :=
  if lo > hi then thrCore auto im hi lo fv tv dout else thrCore auto im lo hi tv fv dout

/-- `threshold(imIn, minVal, maxVal, imOut)`, DImageHistogram.hpp:304-309. -/
def threshold2 (auto : Bool) (im : Img (Px t)) (lo hi : Px t) (dout : Dims) :
    Except Int (Img (Px t2)) :=
  threshold auto im lo hi ⊤ ⊥ dout

/-- `threshold(imIn, minVal, imOut)`, DImageHistogram.hpp:325-331. -/
def threshold1 (auto : Bool) (im : Img (Px t)) (lo : Px t) (dout : Dims) :
    Except Int (Img (Px t2)) :=
  threshold auto im lo ⊤ ⊤ ⊥ dout

end

end Smil
