import Verif.Neigh
import Verif.GraphMst

/-!
# Adjacency graph of a mosaic

`mosaicToGraphFunct` and `mosaicToGraph`, Morpho/include/private/DMorphoGraph.hpp:44-300. Labels, edge values
and node values are integers; the conversions to the node and weight types of the graph are taken to keep
the values (they do when these types are at least as large as the pixel types).
-/

namespace Smil

/-- The values read at an offset in the mosaic, in the image of edge values and in the image of node values
(0 for an image that is not given). -/
structure MPix where
  lab : Int
  ev : Int
  nv : Int
  deriving DecidableEq, Repr

/-- The three images, read at the same offsets. -/
def zip3 (mos : Img Int) (ev nv : Option (Img Int)) : Img MPix :=
  ⟨mos.dims, fun i => ⟨mos.buf i, (ev.map fun im => im.buf i).getD 0, (nv.map fun im => im.buf i).getD 0⟩⟩

/-- The `else` branch, DMorphoGraph.hpp:187-198: a new edge. -/
def mosAdd (hasE hasN : Bool) (c : MPix) (g : Graph Int) (n : MPix) : Graph Int :=
  let g1 := if hasN then (g.addNodeVal c.lab c.nv).addNodeVal n.lab n.nv else g
  g1.addEdge ⟨c.lab, n.lab, if hasE then c.ev else 0⟩ false

/-- The body of the loop of `processPixel`, DMorphoGraph.hpp:175-201: `c` the current pixel, `n` the
neighbour. -/
def mosVisit (hasE hasN : Bool) (c : MPix) (g : Graph Int) (n : MPix) : Graph Int :=
  if n.lab ≠ c.lab then
    match g.findEdge ⟨c.lab, n.lab, 1⟩ with
    | some i =>
      if hasE then { g with edges := g.edges.modify i fun e => { e with weight := min e.weight c.ev } }
      else mosAdd hasE hasN c g n
    | none => mosAdd hasE hasN c g n
  else g

/-- The pixels in the order of `processImage`, `processSlice`, `processLine`. -/
def rasterPts (D : Dims) : List (Nat × Nat × Nat) :=
  (List.range D.d).flatMap fun z => (List.range D.h).flatMap fun y => (List.range D.w).map fun x => (x, y, z)

/-- `processPixel` at the pixel `(x, y, z)`; `none`: read outside of the buffer. -/
def mosPixel (hasE hasN : Bool) (se : StrElt) (im : Img MPix) (g : Graph Int) (p : Nat × Nat × Nat) :
    Option (Graph Int) :=
  match pixelVals se im p.1 p.2.1 p.2.2 with
  | none => none
  | some l => some (l.foldl (mosVisit hasE hasN (im.buf (rasterIndex im.dims.w im.dims.h p.1 p.2.1 p.2.2))) g)

/-- `mosaicToGraph(imMosaic [, imEdgeValues [, imNodeValues]], graph, se)`, DMorphoGraph.hpp:75-135 and
210-252 with `_exec(imIn, se)`, DMorphImageOperations.hxx:119-138. With `autoResizeImages` a value image
of another size is resized by the check and its contents are lost: `none`. -/
def mosaicToGraph (auto : Bool) (mos : Img Int) (ev nv : Option (Img Int)) (se : StrElt) :
    Option (Except Int (Graph Int)) :=
  let ims := ev.toList ++ nv.toList
  if mos.dims.count = 0 ∨ ∃ im ∈ ims, im.dims.count = 0 then some (.error errBadAllocation)
  else if ∃ im ∈ ims, im.dims ≠ mos.dims then if auto then none else some (.error errBadSize)
  else if lineFits mos.dims (execSe se) then
    ((rasterPts mos.dims).foldlM (mosPixel ev.isSome nv.isSome (execSe se) (zip3 mos ev nv))
      Graph.empty).map .ok
  else none

end Smil
