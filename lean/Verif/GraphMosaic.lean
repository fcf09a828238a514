import Verif.Graph
import Verif.Lookup
import Mathlib.Data.Finset.Sort

/-! # From a graph back to a mosaic -/

namespace Smil

variable {W : Type} {t : PT}

/-- The insertion of a range in an empty `std::map`: of the pairs with the same key the first one is kept. -/
def keepFirst : LutMap t t → LutMap t t
  | [] => []
  | e :: l => e :: (keepFirst l).filter fun x => x.1 ≠ e.1

/-- The nodes in the order of `std::map`. -/
def sortedNodes (nodes : Finset Int) : List Int :=
  Quot.liftOn nodes.val (List.insertionSort (· ≤ ·)) fun _ _ h =>
    ((List.perm_insertionSort _ _).trans (h.trans (List.perm_insertionSort _ _).symm)).eq_of_pairwise' (r := (· ≤ ·))
      (List.pairwise_insertionSort _ _) (List.pairwise_insertionSort _ _)

/-- `map<T,T> lut(nodeMap.begin(), nodeMap.end())`, DMorphoGraph.hpp:359: the pairs in the order of the nodes,
converted to the pixel type. -/
def graphLut (nodes : Finset Int) (lk : Int → Option Int) : LutMap t t :=
  keepFirst ((sortedNodes nodes).filterMap fun n => (lk n).map fun l => (t.wrap n, t.wrap l))

/-- `graphToMosaic<T, graphT>`, DMorphoGraph.hpp:352-362; the error of the outer level is the exception of
`labelizeNodes`. `raw` is the content of the array of `applyLookup` (C12). -/
def graphToMosaic (auto : Bool) (raw : Nat → Px t) (im : Img (Px t)) (g : Graph W) (dout : Dims) :
    Except LabErr (Except Int (Img (Px t))) :=
  if dout.count = 0 then .ok (.error (-99))
  else match g.labelizeNodes with
    | .error e => .error e
    | .ok lk => .ok (applyLookupMap auto raw (graphLut g.nodes lk) Px.zero im dout)

end Smil
