import Verif.Label
import Verif.Residues

/-!
# Fast labelling

`labelFunctFast`, `fastLabel` and `lambdaFastLabel`, Morpho/include/private/DMorphoLabel.hpp:179-353,
619-672.
-/

namespace Smil

/-- The variables of `processImage`: `pixelsOut`, `labels`, `labels_real`, `current_label`,
`is_not_a_gap`, DMorphoLabel.hpp:238-247. -/
structure FlSt where
  out : Nat → Nat
  labels : Nat
  real : Nat
  cur : Nat
  run : Bool

/-- The body of the first pass, DMorphoLabel.hpp:248-311, on pixel `i`; `w` is `imSize[0]`, `res i` is
`pixelsTmp[i] != 0`, and `C.cmp nb cur` compares the input at `nb` with the residue at `cur`. The loop over
the points skips the front itself, which carries the label already. -/
def flPixel (C : LabCfg) (w : Nat) (res : Nat → Bool) (s : FlSt) (i : Nat) : Option FlSt :=
  let run := if i % w = 0 then false else s.run
  if res i = true then
    if s.out i = 0 then
      let labels := if run = true then s.labels else nextLab C.top s.labels
      let real := if run = true then s.real else s.real + 1
      let cur := if run = true then s.cur else labels
      (labBfs C cur (C.n + 1) (Function.update s.out i cur) [i]).map fun o =>
        ⟨o, labels, real, cur, C.keep i⟩
    else some ⟨s.out, s.labels, s.real, s.out i, C.keep i⟩
  else some ⟨s.out, s.labels, s.real, s.cur, run && C.keep i⟩

/-- The first pass over all the pixels, DMorphoLabel.hpp:246-312. -/
def flRun (C : LabCfg) (w : Nat) (res : Nat → Bool) : Option FlSt :=
  (List.range C.n).foldlM (flPixel C w res) ⟨fun _ => 0, 0, 0, 0, false⟩

section
variable {t : PT}

/-- One line of the second pass, DMorphoLabel.hpp:334-345: the state is `previous_value`,
`previous_label` and the labels; `b` is the offset of the line and `w` its length. -/
def flLine (cmp : Px t → Px t → Bool) (buf : Nat → Px t) (w b : Nat) (out : Nat → Nat) : Nat → Nat :=
  ((List.range (w - 1)).foldl (fun (s : Px t × Nat × (Nat → Nat)) v =>
    if cmp (buf (b + v + 1)) s.1 = true then (s.1, s.2.1, Function.update s.2.2 (b + v + 1) s.2.1)
    else (buf (b + v + 1), s.2.2 (b + v + 1), s.2.2)) (buf b, out b, out)).2.2

/-- The second pass, DMorphoLabel.hpp:324-348: the line is number `l + s * nSlices`. `none`: a line
that does not exist. The lines of one slice are distinct, so that the threads do not matter. -/
def flLines (cmp : Px t → Px t → Bool) (im : Img (Px t)) (out : Nat → Nat) : Option (Nat → Nat) :=
  (List.range im.dims.d).foldlM (fun o s => (List.range im.dims.h).foldlM (fun o l =>
    if l + s * im.dims.d < im.dims.h * im.dims.d then
      some (flLine cmp im.buf im.dims.w ((l + s * im.dims.d) * im.dims.w) o)
    else none) o) out

/-- The residue, DMorphoLabel.hpp:212-236: the input minus its erosion by the square or the cube; the
first pixel of every line is the one of the input. -/
def flResidue (E : Env (Px t)) (im : Img (Px t)) : Option (Except Int (Img (Px t))) :=
  andThen (erode E false (if im.dims.d = 1 then SquSE 1 else CubeSE 1) im ⟨im.dims, E.raw⟩) fun e =>
  andThen (subImg E im e im) fun r =>
    some (.ok ⟨im.dims, fun i => if i % im.dims.w = 0 then im.buf i else r.buf i⟩)

/-- `labelFunctFast::_exec` with the checks of `fastLabel`; `cmp` is `compareFunc` and `M` the maximum of
the label type. `inPl`: input and output are the same image, then `_exec` calls itself with the same
arguments for ever (DMorphImageOperations.hxx:94-98), here `none`. A failure of the erosion gives the
number 0. -/
def fastLabelExec (E : Env (Px t)) (M : Nat) (inPl : Bool) (cmp : Px t → Px t → Bool) (se : StrElt)
    (im : Img (Px t)) (dout : Dims) : Option (Except Int (Nat × Img Nat)) :=
  match checkDims E.auto im.dims dout with
  | .error c => some (.error c)
  | .ok _ =>
    if inPl = true then none
    else
      match flResidue E im with
      | none => none
      | some (.error _) => some (.ok (0, ⟨im.dims, fun _ => 0⟩))
      | some (.ok tmp) =>
        let C : LabCfg := ⟨im.dims.count, nbOffsets im.dims (execSe se),
          fun nb cur => cmp (im.buf nb) (tmp.buf cur), fun i => im.buf i ≠ Px.zero, M⟩
        (flRun C im.dims.w fun i => tmp.buf i ≠ Px.zero).bind fun s =>
          (flLines cmp im s.out).map fun o => .ok (s.real, ⟨im.dims, o⟩)

/-- `fastLabel`, DMorphoLabel.hpp:619-637. -/
def fastLabel (E : Env (Px t)) (M : Nat) (inPl : Bool) (se : StrElt) (im : Img (Px t)) (dout : Dims) :
    Option (Except Int (Nat × Img Nat)) :=
  fastLabelExec E M inPl (fun a b => a = b) se im dout

/-- `lambdaFastLabel`, DMorphoLabel.hpp:651-672. -/
def lambdaFastLabel (E : Env (Px t)) (M : Nat) (inPl : Bool) (lam : Px t) (se : StrElt) (im : Img (Px t))
    (dout : Dims) : Option (Except Int (Nat × Img Nat)) :=
  fastLabelExec E M inPl (lambdaCmp lam) se im dout

end

end Smil
