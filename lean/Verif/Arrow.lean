import Verif.MorphoLemmas
import Verif.MorphoTop

/-!
# Arrow images

Morpho/include/private/DMorphoArrow.hpp:44-224. An output pixel of an integer type of `n` bits is the
bit vector of its representation. The rhombicuboctahedron (a path of its own when input and output
have the same type) is not modelled; `arrowMin` and `arrowMinStep` are in ArrowMin, `arrowPropagate` is in FastExtrema.
-/

namespace Smil
variable {α : Type} {n : Nat}

/-- The line compared for the point `b`, DMorphoArrow.hpp:141-146. The coordinates are `size_t` in
the code: the parity of `y + 1` is that of the integer, and `_extract_translated_line` takes them
back to `int`. -/
def arrowTerm (border : α) (im : Img α) (odd : Bool) (s l : Nat) (b : IntPoint) (out : Line α) :
    Option (Line α) :=
  let y := (l : Int) + b.y
  let x := -b.x - (if (odd && cOdd l) && cOdd (y + 1) then 1 else 0)
  let z := (s : Int) + b.z
  extractLine border im x y z out

/-- One step of the loop on the points, DMorphoArrow.hpp:140-148 with the line functions of
Base/include/private/DLineArith.hpp:206-395: `lOut[i] |= cmp(lIn[i], tmpBuf[i]) ? trueVal : 0`, where
`trueVal` is `1UL << k` converted to the output type; a shift by 64 or more is undefined. -/
def arrowStep (cmp : α → α → Bool) (border : α) (im : Img α) (odd : Bool) (s l : Nat)
    (acc : Line (BitVec n)) (bk : IntPoint × Nat) : Option (Line (BitVec n)) :=
  if bk.2 < 64 then
    (arrowTerm border im odd s l bk.1 (fun _ => border)).map fun t => fun i =>
      if i < im.dims.w then
        acc i ||| (if cmp (im.px i l s) (t i) then BitVec.ofNat n (2 ^ bk.2) else 0)
      else acc i
  else none

/-- The computation of one output line, DMorphoArrow.hpp:132-150. -/
def arrowLine (cmp : α → α → Bool) (border : α) (im : Img α) (odd : Bool) (s l : Nat)
    (pts : List IntPoint) : Option (Line (BitVec n)) :=
  pts.zipIdx.foldlM (arrowStep cmp border im odd s l) (fun _ => 0)

/-- `unaryMorphArrowImageFunction::_exec_single`, DMorphoArrow.hpp:75-156. `raw` are the contents of
freshly allocated images: when the output is the input (`inPl`) the image that is read is
`Image<T_in> tmpIm = imIn`, whose constructor (Core/include/private/DImage.hpp:72, DImage.hxx:67-74) copies
the size and not the pixels. -/
def arrowSingle (cmp : α → α → Bool) (border : α) (raw : Nat → α) (inPl : Bool) (se : StrElt) (im : Img α)
    (out : Img (BitVec n)) : Option (Img (BitVec n)) :=
  let src : Img α := if inPl then ⟨im.dims, raw⟩ else im
  match se.points with
  | [] => some out
  | pts => buildLines im.dims 0 fun s l => arrowLine cmp border src se.odd s l pts

/-- `_exec` for an output of another type than the input, DMorphImageOperations.hxx:313-341: an
element of size greater than one is replaced by its homothetic. -/
def arrowExec (cmp : α → α → Bool) (border : α) (raw : Nat → α) (se : StrElt) (im : Img α)
    (out : Img (BitVec n)) : Option (Img (BitVec n)) :=
  arrowSingle cmp border raw false (if se.size > 1 then se.homothety se.size else se) im out

/-- The loop of the second form of `_exec`, DMorphImageOperations.hxx:376-393, seen from the values:
`k` further arrow images, each of the previous one; not in place. -/
def arrowIter (cmp : BitVec n → BitVec n → Bool) (border : BitVec n) (raw : Nat → BitVec n) (se : StrElt) :
    Nat → Img (BitVec n) → Option (Img (BitVec n))
  | 0, a => some a
  | k + 1, a => (arrowSingle cmp border raw (isInplaceSafe se) se a a).bind fun r =>
      arrowIter cmp border raw se k r

/-- `_exec` for an output of the same (unsigned) type as the input, DMorphImageOperations.hxx:344-412:
an element of size `s` is applied `s` times, the second time to the arrow image itself. When the element
is in-place safe the later applications are made in place. -/
def arrowExecSame (cmp : BitVec n → BitVec n → Bool) (border : BitVec n) (raw : Nat → BitVec n) (inPl : Bool)
    (se : StrElt) (im out : Img (BitVec n)) : Option (Img (BitVec n)) :=
  if se.size = 0 then some im
  else (arrowSingle cmp border raw (inPl && isInplaceSafe se) se im out).bind fun r =>
    arrowIter cmp border raw se (se.size - 1) r

/-- The comparisons accepted by `arrow`, DMorphoArrow.hpp:219-234. -/
def arrowOp [LinearOrder α] (op : String) : Option (α → α → Bool) :=
  if op = "==" then some fun a b => decide (a = b)
  else if op = ">" then some fun a b => decide (a > b)
  else if op = ">=" then some fun a b => decide (a ≥ b)
  else if op = "<" then some fun a b => decide (a < b)
  else if op = "<=" then some fun a b => decide (a ≤ b)
  else none

/-- `arrow(imIn, operation, imOut, se, borderValue)`, DMorphoArrow.hpp:214-237, for an output of
another type than the input: `ASSERT_ALLOCATED(&imIn)` and `ASSERT_SAME_SIZE` first
(DMorphImageOperations.hxx:315-316), `dout` being the dimensions of the output. An output that is
not allocated has the dimensions 0 and is resized or refused. -/
def arrow [LinearOrder α] (auto : Bool) (raw : Nat → α) (border : α) (op : String) (se : StrElt)
    (im : Img α) (out : Img (BitVec n)) : Option (Except Int (Img (BitVec n))) :=
  match arrowOp op with
  | none => some (.error (-100))
  | some cmp =>
    if im.alloc = false then some (.error errBadAllocation)
    else if out.dims = im.dims then (arrowExec cmp border raw se im out).map .ok
    else if auto then (arrowExec cmp border raw se im ⟨im.dims, out.buf⟩).map .ok
    else some (.error errBadSize)

end Smil
