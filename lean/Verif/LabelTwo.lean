import Verif.Label

/-!
# Labelling of two partitions

`labelWithoutFunctor2Partitions` of Morpho/include/private/DMorphoLabel.hpp.
-/

namespace Smil

variable {t : PT}

/-- `labelWithoutFunctor2Partitions`, DMorphoLabel.hpp:447-525: the propagation of `labelWithoutFunctor` with one more
condition, `in2P[nb_o] == in2P[o]`. `ASSERT_SAME_SIZE(&imIn, &imOut)` resizes the output to the first image in the
mode `auto` and `ASSERT_SAME_SIZE(&imIn2, &imOut)` to the second: when they have different sizes, the output has those of
the second and the loops run over the first with its strides: the outcome is `none` as soon as the element has a point
(simplified: it is not told apart whether the accesses stay inside of the two others). -/
def label2Partitions (auto : Bool) (M : Nat) (se : StrElt) (im im2 : Img (Px t)) (dout : Dims) :
    Option (Except Int (Nat × Img Nat)) :=
  if im2.dims.count = 0 then some (.error errBadAllocation)
  else
    match checkDims auto im.dims dout with
    | .error c => some (.error c)
    | .ok _ =>
      match checkDims auto im2.dims im.dims with
      | .error c => some (.error c)
      | .ok _ =>
        if se.noCenter.points = [] then some (.ok (0, ⟨im2.dims, fun _ => 0⟩))
        else if im2.dims ≠ im.dims then none
        else
          let C : LabCfg := ⟨im.dims.count, nbOffsets im.dims se.noCenter,
            fun nb cur => im.buf nb = im.buf cur ∧ im2.buf nb = im2.buf cur, fun i => im.buf i ≠ Px.zero, M - 1⟩
          (labRun C).map fun s => .ok (s.real, ⟨im.dims, s.out⟩)

end Smil
