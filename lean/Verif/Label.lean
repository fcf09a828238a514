import Verif.Build

/-!
# Labelling

Morpho/include/private/DMorphoLabel.hpp.
-/

namespace Smil

/-- The checks `ASSERT_ALLOCATED` and `ASSERT_SAME_SIZE` on an input and an output of possibly
different pixel types (Core/include/DBaseImage.h:388-438). -/
def checkDims (auto : Bool) (di dout : Dims) : Except Int Unit :=
  if di.count = 0 ∨ dout.count = 0 then .error errBadAllocation
  else if dout = di then .ok ()
  else if auto then .ok ()
  else .error errBadSize

/-- The element used by `MorphImageFunctionBase::_exec`, DMorphImageOperations.hxx:100-104. -/
def execSe (se : StrElt) : StrElt := if se.size > 1 then se.homothety se.size else se

/-- What an instance of the propagation is made of: number of pixels, neighbour lists,
`compareFunc(pixelsIn[nb], pixelsIn[cur])`, `pVal != 0`, and the value of the label type at which the
counter starts again. -/
structure LabCfg where
  n : Nat
  nbs : Nat → List Nat
  cmp : Nat → Nat → Bool
  keep : Nat → Bool
  top : Nat

/-- The body of the loop over the points of the element, DMorphoLabel.hpp:148-159: the neighbour is
relabelled and queued if it does not carry the current label and compares. The labels are kept as
natural numbers; they never exceed the maximum of the label type. -/
def labVisit (C : LabCfg) (lab cur : Nat) (s : (Nat → Nat) × List Nat) (nb : Nat) :
    (Nat → Nat) × List Nat :=
  if s.1 nb ≠ lab ∧ C.cmp nb cur = true then (Function.update s.1 nb lab, s.2 ++ [nb]) else s

/-- The loop `while (!propagation.empty())`, DMorphoLabel.hpp:130-163: the front is popped after its
neighbours have been visited. `none`: fuel exhausted. -/
def labBfs (C : LabCfg) (lab : Nat) : Nat → (Nat → Nat) → List Nat → Option (Nat → Nat)
  | 0, _, _ => none
  | _ + 1, out, [] => some out
  | fuel + 1, out, cur :: q =>
    let s := (C.nbs cur).foldl (labVisit C lab cur) (out, cur :: q)
    labBfs C lab fuel s.1 s.2.tail

/-- `pixelsOut`, `labels`, `real_labels`. -/
structure LabSt where
  out : Nat → Nat
  labels : Nat
  real : Nat

/-- `++labels; if (labels == max_value_label) labels = 1;`, DMorphoLabel.hpp:120-122. -/
def nextLab (top l : Nat) : Nat := if l + 1 = top then 1 else l + 1

/-- `processPixel`, DMorphoLabel.hpp:107-164. -/
def labPixel (C : LabCfg) (s : LabSt) (i : Nat) : Option LabSt :=
  if C.keep i = false ∨ s.out i ≠ 0 then some s
  else
    let lab := nextLab C.top s.labels
    (labBfs C lab (C.n + 1) (Function.update s.out i lab) [i]).map fun o => ⟨o, lab, s.real + 1⟩

/-- `initialize` and `processImage`, DMorphoLabel.hpp:84-105: every pixel in raster order. -/
def labRun (C : LabCfg) : Option LabSt :=
  (List.range C.n).foldlM (labPixel C) ⟨fun _ => 0, 0, 0⟩

section
variable {t : PT}

/-- `labelFunctGeneric::_exec`, with the checks; the result is `getLabelNbr()` and the image of the
labels. `M` is the maximum of the label type. The test `nbOffset != curOffset` and the bounds of
lines 151-155 are those of `nbOffset`. -/
def labelExec (auto : Bool) (M : Nat) (cmp : Px t → Px t → Bool) (se : StrElt) (im : Img (Px t))
    (dout : Dims) : Option (Except Int (Nat × Img Nat)) :=
  match checkDims auto im.dims dout with
  | .error c => some (.error c)
  | .ok _ =>
    let C : LabCfg := ⟨im.dims.count, nbOffsets im.dims (execSe se),
      fun nb cur => cmp (im.buf nb) (im.buf cur), fun i => im.buf i ≠ Px.zero, M⟩
    (labRun C).map fun s => .ok (s.real, ⟨im.dims, s.out⟩)

/-- `label`, DMorphoLabel.hpp:533-557; `inPl`: input and output are the same image, then the clone is
labelled without passing `se`, that is with the default element `dflt`. -/
def label (auto : Bool) (M : Nat) (inPl : Bool) (dflt se : StrElt) (im : Img (Px t)) (dout : Dims) :
    Option (Except Int (Nat × Img Nat)) :=
  labelExec auto M (fun a b => a = b) (if inPl then dflt else se) im dout

/-- What `label` returns to the caller: the error codes go through the `size_t` of the return
type. -/
def labelRet : Except Int (Nat × Img Nat) → Nat
  | .ok r => r.1
  | .error c => (c % 2 ^ 64).toNat

/-- `lambdaEqualOperator`, DMorphoLabel.hpp:356-363; the differences are computed in `int`, here
exactly. -/
def lambdaCmp (lam a b : Px t) : Bool :=
  if a.val > b.val then a.val - b.val ≤ lam.val else b.val - a.val ≤ lam.val

/-- `lambdaLabel`, DMorphoLabel.hpp:574-592. -/
def lambdaLabel (auto : Bool) (M : Nat) (lam : Px t) (se : StrElt) (im : Img (Px t)) (dout : Dims) :
    Option (Except Int (Nat × Img Nat)) :=
  labelExec auto M (lambdaCmp lam) se im dout

/-- `labelWithoutFunctor`, DMorphoLabel.hpp:367-443: the same propagation with the element as it is
(its size is ignored), starting again at `max - 1`, and nothing but the cleared output when the element has
no point apart from the origin. Coordinates are `size_t`: a negative one is a huge one, rejected by
the upper bound. -/
def labelWithoutFunctor (auto : Bool) (M : Nat) (se : StrElt) (im : Img (Px t)) (dout : Dims) :
    Option (Except Int (Nat × Img Nat)) :=
  match checkDims auto im.dims dout with
  | .error c => some (.error c)
  | .ok _ =>
    if se.noCenter.points = [] then some (.ok (0, ⟨im.dims, fun _ => 0⟩))
    else
      let C : LabCfg := ⟨im.dims.count, nbOffsets im.dims se.noCenter,
        fun nb cur => im.buf nb = im.buf cur, fun i => im.buf i ≠ Px.zero, M - 1⟩
      (labRun C).map fun s => .ok (s.real, ⟨im.dims, s.out⟩)

end

end Smil
