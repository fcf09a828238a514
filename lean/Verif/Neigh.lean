import Verif.Label
import Mathlib.Data.List.Sort

/-!
# Operations computed pixel by pixel from the neighbourhood

`MorphImageFunctionBase::processLine` (Morpho/include/private/DMorphImageOperations.hxx:139-218) and the
functions built on it: `neighbors` (DMorphoLabel.hpp:851-911), `mean`, `median`, `rank`
(DMorphoFilter.hpp:230-362).
-/

namespace Smil
variable {α β : Type}

/-- `se_xmin`, DMorphImageOperations.hxx:61-72 (`INT_MAX` without points). -/
def seXmin (se : StrElt) : Int := se.points.foldl (fun m p => if p.x < m then p.x else m) (2 ^ 31 - 1)

/-- `se_xmax`, DMorphImageOperations.hxx:61-73 (`INT_MIN` without points). -/
def seXmax (se : StrElt) : Int := se.points.foldl (fun m p => if p.x > m then p.x else m) (-2 ^ 31)

/-- `ptList` and `relOffsetList` for the line `y` of slice `z`, DMorphImageOperations.hxx:155-170: the
abscissa (corrected on odd lines) and the relative offset of the points that fall on a line of the
image. -/
def linePts (D : Dims) (se : StrElt) (y z : Nat) : List (Int × Int) :=
  se.points.filterMap fun p =>
    let y' := (y : Int) + p.y
    let z' := (z : Int) + p.z
    if 0 ≤ y' ∧ y' < D.h ∧ 0 ≤ z' ∧ z' < D.d then
      some (p.x + oddCorr se y y',
        p.x + p.y * D.w + p.z * D.w * D.h + oddCorr se y y')
    else none

/-- The bound `pixNbr - se_xmax` of the middle loop (line 193), in `size_t`. -/
def midBound (D : Dims) (se : StrElt) : Int := ((D.w : Int) - seXmax se) % 2 ^ 64

/-- Do the three loops stay on the line? The left loop (line 175) runs up to `-se_xmin` and the middle
loop up to `pixNbr - se_xmax` whatever the width; beyond the width they process pixels of the next
lines and, on the last line, outside of the buffers. -/
def lineFits (D : Dims) (se : StrElt) : Prop := -(seXmin se) ≤ D.w ∧ midBound D se ≤ D.w

instance (D : Dims) (se : StrElt) : Decidable (lineFits D se) := by unfold lineFits; infer_instance

/-- `offsetList` at the pixel `x` of the line: in the left and right loops the points outside of the line
are left out (lines 178-184 and 206-212), in the middle loop none is (lines 189-191). -/
def pixelOffsets (D : Dims) (se : StrElt) (x y z : Nat) : List Int :=
  let l := linePts D se y z
  if (x : Int) < -(seXmin se) ∨ midBound D se ≤ x then
    (l.filter fun q => 0 ≤ (x : Int) + q.1 ∧ (x : Int) + q.1 < D.w).map (·.2)
  else l.map (·.2)

/-- `pixelsIn[pointOffset + *dOffset]`; `none`: outside of the buffer. -/
def readRel (im : Img α) (off : Nat) (d : Int) : Option α :=
  if 0 ≤ (off : Int) + d ∧ (off : Int) + d < im.dims.count then some (im.buf ((off : Int) + d).toNat)
  else none

/-- The values seen by `processPixel`. -/
def pixelVals (se : StrElt) (im : Img α) (x y z : Nat) : Option (List α) :=
  (pixelOffsets im.dims se x y z).mapM (readRel im (rasterIndex im.dims.w im.dims.h x y z))

/-- `MorphImageFunctionBase::_exec` (lines 89-117), `processImage`, `processSlice`, `processLine` for a
`processPixel` that writes `F` of the values of the neighbourhood. `inPl`: input and output are the
same image, then `_exec` calls itself for ever (line 97). `raw`: contents of the result outside of the
image. -/
def execNeigh (raw : β) (inPl : Bool) (F : List α → Option β) (se : StrElt) (im : Img α) :
    Option (Img β) :=
  if inPl then none
  else if lineFits im.dims (execSe se) ∧ ∀ z < im.dims.d, ∀ y < im.dims.h, ∀ x < im.dims.w,
      ((pixelVals (execSe se) im x y z).bind F).isSome then
    some (Img.ofFn im.dims fun x y z => ((pixelVals (execSe se) im x y z).bind F).getD raw)
  else none

/-- The checks, then the computation. -/
def neighGuarded (auto : Bool) (dout : Dims) (raw : β) (inPl : Bool) (F : List α → Option β)
    (se : StrElt) (im : Img α) : Option (Except Int (Img β)) :=
  match checkDims auto im.dims dout with
  | .error c => some (.error c)
  | .ok _ => (execNeigh raw inPl F se im).map .ok

/-- The loop of `neighborsFunct::processPixel`, DMorphoLabel.hpp:858-870. -/
def countLoop [DecidableEq α] : List α → Nat → List α → Nat
  | _, n, [] => n
  | vals, n, v :: l => if v ∈ vals then countLoop vals n l else countLoop (vals ++ [v]) (n + 1) l

/-- `neighbors`, DMorphoLabel.hpp:897-911; the count goes through the conversion to the output type. -/
def neighbors (auto : Bool) (t2 : PT) [DecidableEq α] (inPl : Bool) (se : StrElt) (im : Img α)
    (dout : Dims) : Option (Except Int (Img (Px t2))) :=
  neighGuarded auto dout (t2.wrap 0) inPl (fun l => some (t2.wrap (countLoop [] 0 l))) se im

section
variable [LinearOrder α]

/-- `sort(vals.begin(), vals.end())`: the increasing arrangement does not depend on the algorithm. -/
def sorted (l : List α) : List α := l.insertionSort (· ≤ ·)

variable [Inhabited α]

/-- `median`, DMorphoFilter.hpp:272-311; `none` inside: `vals[0]` of an empty vector. -/
def median (auto : Bool) (inPl : Bool) (se : StrElt) (im : Img α) (dout : Dims) :
    Option (Except Int (Img α)) :=
  neighGuarded auto dout default inPl (fun l => (sorted l)[l.length / 2]?) se im

/-- `rank`, DMorphoFilter.hpp:314-362; `rk n` is `static_cast<int>(n * percentile)` (a product in
`double`, left arbitrary here), converted to `size_t` by the subscript. -/
def rankFilter (auto : Bool) (inPl : Bool) (rk : Nat → Int) (se : StrElt) (im : Img α) (dout : Dims) :
    Option (Except Int (Img α)) :=
  neighGuarded auto dout default inPl
    (fun l => if 0 ≤ rk l.length then (sorted l)[(rk l.length).toNat]? else none) se im

end

/-- `mean`, DMorphoFilter.hpp:230-269; the quotient is computed in `double` and truncated, here it is
exact (the same for sums below 2^53 and pixels of at most 16 bits). `none`: 0/0 converted to an
integer. -/
def mean {t : PT} (auto : Bool) (inPl : Bool) (se : StrElt) (im : Img (Px t)) (dout : Dims) :
    Option (Except Int (Img (Px t))) :=
  neighGuarded auto dout Px.zero inPl
    (fun l => if l = [] then none else some (t.wrap ((l.map Px.val).sum.tdiv l.length))) se im

end Smil
