import Verif.Histogram
import Verif.ImgOps
import Verif.Resize

/-!
# Stretching of the histogram, contrast

Base/include/private/DImageHistogram.hpp:232-248, 354-546 and DLineHistogram.hpp:56-78. `none` stands for undefined
behaviour: a signed overflow, an access out of the bounds of an array, the conversion of a NaN to an
integer. Simplification: the computations in `double` are exact computations on rationals, with the infinities and the NaN that come
from the division by zero.
-/

namespace Smil

section
variable {t t2 : PT}

/-- The two tests of `stretchHistLine::_exec`, DLineHistogram.hpp:70-73. -/
def stretchClamp (t2 : PT) (q : ℚ) : ℚ :=
  if q > (t2.hi : ℚ) then (t2.hi : ℚ) else if q < (t2.lo : ℚ) then (t2.lo : ℚ) else q

/-- One turn of `stretchHistLine::_exec`, DLineHistogram.hpp:68-75, with `coeff = num / den`. With `den = 0` the
coefficient is infinite, or not a number if `num = 0`; times zero it is not a number; a value that is not a number passes
both tests of lines 70 and 72 and reaches the conversion of line 74. -/
def stretchPx (inOrig : Px t) (outOrig : Px t2) (num den : Int) (v : Px t) : Option (Px t2) :=
  if den = 0 then
    if num = 0 ∨ v.val = inOrig.val then none
    else if (0 < num ↔ inOrig.val < v.val) then some ⊤ else some ⊥
  else
    convToPx t2 (roundQ (stretchClamp t2
      ((outOrig.val : ℚ) + ((v.val : ℚ) - (inOrig.val : ℚ)) * ((num : ℚ) / (den : ℚ)))))

/-- The checks of lines 376-377 and 414-415: the allocation of the output is not tested, an output of another size is
resized. -/
def stretchCheck (auto : Bool) (di dout : Dims) : Except Int Unit :=
  if di.count = 0 then .error errBadAllocation
  else if dout = di then .ok ()
  else if auto then .ok ()
  else .error errBadSize

/-- `stretchHist(imIn, inMinVal, inMaxVal, imOut, outMinVal, outMaxVal)`, DImageHistogram.hpp:372-387. -/
def stretchHist (auto : Bool) (im : Img (Px t)) (inMin inMax : Px t) (outMin outMax : Px t2) (dout : Dims) :
    Option (Except Int (Img (Px t2))) :=
  match stretchCheck auto im.dims dout with
  | .error c => some (.error c)
  | .ok () => do
    let num ← t2.cpp (outMax.val - outMin.val)
    let den ← t.cpp (inMax.val - inMin.val)
    let r ← im.mapK (stretchPx inMin outMin num den)
    pure (.ok r)

/-- `stretchHist(imIn, imOut, outMinVal, outMaxVal)`, DImageHistogram.hpp:410-425. -/
def stretchHistRange (auto : Bool) (im : Img (Px t)) (outMin outMax : Px t2) (dout : Dims) :
    Option (Except Int (Img (Px t2))) :=
  match stretchCheck auto im.dims dout with
  | .error c => some (.error c)
  | .ok () => do
    let r ← rangeValOf false im
    let num ← t2.cpp (outMax.val - outMin.val)
    let den ← t.cpp (r.2.val - r.1.val)
    let r ← im.mapK (stretchPx r.1 outMin num den)
    pure (.ok r)

/-- `stretchHist(imIn, imOut)`, DImageHistogram.hpp:447-452. -/
def stretchHistFull (auto : Bool) (im : Img (Px t)) (dout : Dims) : Option (Except Int (Img (Px t2))) :=
  stretchHistRange auto im ⊥ ⊤ dout

/-- The left loop of `histogramRange`, DImageHistogram.hpp:496-505, over the array `h` of `n` cells. The first argument is the number
of turns to do, `i` the index, `cur` is `curVol` and `left` is `threshValLeft`. -/
def histLeft (n : Nat) (h : Nat → Nat) (cum : Bool) (sat : ℚ) : Nat → Nat → ℚ → Px t → Option (Px t)
  | 0, _, _, left => some left
  | k + 1, i, cur, left =>
    if i < n then
      let cur := if cum then cur + (h i : ℚ) else (h i : ℚ)
      if cur > sat then some left else histLeft n h cum sat k (i + 1) cur (t.wrap i)
    else none

/-- The right loop, DImageHistogram.hpp:509-518. -/
def histRight (n : Nat) (h : Nat → Nat) (cum : Bool) (sat : ℚ) : Nat → Nat → ℚ → Px t → Option (Px t)
  | 0, _, _, right => some right
  | k + 1, i, cur, right =>
    if i < n then
      let cur := if cum then cur + (h i : ℚ) else (h i : ℚ)
      if cur > sat then some right else histRight n h cum sat k (i - 1) cur (t.wrap i)
    else none

/-- `histogramRange`, DImageHistogram.hpp:468-525; `some none` is the empty vector of an image that is not
allocated. The bounds of the loops are values of the pixels converted to `size_t`, and the array is indexed from the minimum of
the type. -/
def histogramRange (im : Img (Px t)) (percent : ℚ) (cum : Bool) : Option (Option (Px t × Px t)) :=
  if im.dims.count = 0 then some none
  else do
    let n ← cardT t
    let h ← histArr im
    let vol : Nat := if cum then im.dims.count else ((List.range n).map h).foldl max 0
    let r ← rangeValOf false im
    let sat : ℚ := (vol : ℚ) * percent / 100
    let a := sizeT r.1.val
    let b := sizeT r.2.val
    let left ← histLeft n h cum sat (b - a) a 0 r.1
    let right ← histRight n h cum sat (b - a) b 0 r.2
    pure (some (left, right))

/-- `enhanceContrast`, DImageHistogram.hpp:534-546: the code returned by `stretchHist` is not looked at. -/
def enhanceContrast (auto : Bool) (im : Img (Px t)) (percent : ℚ) (out : Img (Px t)) :
    Option (Except Int (Img (Px t))) := do
  match ← histogramRange im percent true with
  | none => pure (.error errRes)
  | some r =>
    match ← stretchHist auto im r.1 r.2 ⊥ ⊤ out.dims with
    | .error _ => pure (.ok out)
    | .ok res => pure (.ok res)

/-- `histogramMap(imIn, imMask, binSize)`, DImageHistogram.hpp:232-248: the mask is only used for its size.
Simplification: the call of the variadic `haveSameSize` of line 239 lacks the final `NULL`; it is taken as if it were there. -/
def histBinsMask (bin : Px t) (im mask : Img (Px t)) : List (Int × Nat) :=
  if im.dims.count = 0 ∨ mask.dims.count = 0 ∨ mask.dims ≠ im.dims then [] else histBins bin im

end

end Smil
