import Verif.Graph
import Verif.Draw
import Verif.Inertia
import Verif.Label
import Verif.Transform
import Mathlib.Data.Rat.Floor

/-!
# Drawing a graph on its mosaic

`drawGraph`, Morpho/include/private/DMorphoGraph.hpp:403-434. The `double` coordinates are rationals.
-/

namespace Smil
section
variable {t : PT} {α W : Type}

/-- `int(d)`: towards zero; `none`: the number does not exist or does not fit. -/
def dblToInt (q : Option ℚ) : Option Int :=
  q.bind fun q =>
    let n := if q < 0 then ⌈q⌉ else ⌊q⌋
    if -(2 ^ 31) ≤ n ∧ n < 2 ^ 31 then some n else none

/-- The body of the loop, DMorphoGraph.hpp:415-431. The keys of `barys` are pixels of the mosaic: the nodes are converted to that type. A node that is not there gives an empty vector, and the
edge is left out. -/
def drawEdge (barys : List (Px t × List (Option ℚ))) (v : α) (im : Img α) (e : GEdge W) : Option (Img α) :=
  if e.src = e.tgt then some im
  else match (barys.lookup (t.wrap e.src)).getD [], (barys.lookup (t.wrap e.tgt)).getD [] with
    | x1 :: y1 :: _, x2 :: y2 :: _ =>
      (dblToInt x1).bind fun a => (dblToInt y1).bind fun b => (dblToInt x2).bind fun c => (dblToInt y2).bind fun d =>
        (drawLine im a b c d v).bind fun r => r.toOption
    | [], _ => some im
    | _, [] => some im
    | _, _ => none

/-- `drawGraph`. With `autoResizeImages` an output of another size takes the size of the mosaic, its content is `raw`. The return on an error of `drawLine` is not followed: the output is
allocated there (`none` would be given). -/
def drawGraph (auto : Bool) (raw : Nat → α) (mos : Img (Px t)) (edges : List (GEdge W)) (out : Img α) (v : α) : Option (Except Int (Img α)) :=
  match checkDims auto mos.dims out.dims with
  | .error c => some (.error c)
  | .ok _ =>
    (blobsBarycenter mos (computeBlobs Px.zero true mos)).bind fun barys =>
      (edges.foldlM (drawEdge barys v) (setSize raw mos.dims out)).map .ok

end
end Smil
