import Verif.Graph

/-!
# The class `Digraph` of the addon

Addons/Digraph/include/private/DDigraph.hpp is a copy of Core/include/private/DGraph.hpp with other names and a member `oriented`, which is set to `true` by the constructor and by `clear`, copied,
printed, and read nowhere else. The edges are those of `Graph` (`Diedge::operator==`, DDigraph.hpp:135-142, has the same text as `Edge::operator==`; the member `oriented` of `Diedge` is never
written nor read).
-/

namespace Smil
variable {W : Type}

/-- The members of `Digraph`, DDigraph.hpp:216-221. -/
structure Digraph (W : Type) where
  graph : Graph W
  oriented : Bool

/-- The default constructor, DDigraph.hpp:225-227, and `clear`, DDigraph.hpp:255-263. -/
def Digraph.empty : Digraph W := ⟨Graph.empty, true⟩

/-- The edits, DDigraph.hpp:266-276 (`addNode`), 306-334 (`addEdge`), 382-403 (`removeNode`), 408-426 (`removeNodeEdges`), 431-467 (`removeEdge`), 475-499 (`removeHighEdges`, `removeLowEdges`). -/
def Digraph.addNode (d : Digraph W) (n : Int) : Digraph W := { d with graph := d.graph.addNode n }
/-- See `Digraph.addNode`. -/
def Digraph.addNodeVal (d : Digraph W) (n : Int) (v : W) : Digraph W := { d with graph := d.graph.addNodeVal n v }
/-- See `Digraph.addNode`. -/
def Digraph.addEdge (d : Digraph W) (e : GEdge W) (check : Bool) : Digraph W := { d with graph := d.graph.addEdge e check }
/-- See `Digraph.addNode`. -/
def Digraph.removeNode (d : Digraph W) (n : Int) : Option (Digraph W) := (d.graph.removeNode n).map fun g => { d with graph := g }
/-- See `Digraph.addNode`. -/
def Digraph.removeNodeEdges (d : Digraph W) (n : Int) : Option (Digraph W) := (d.graph.removeNodeEdges n).map fun g => { d with graph := g }
/-- See `Digraph.addNode`. -/
def Digraph.removeEdge (d : Digraph W) (i : Nat) : Digraph W := { d with graph := d.graph.removeEdge i }
/-- See `Digraph.addNode`. -/
def Digraph.removeEdgeLike (d : Digraph W) (e : GEdge W) : Digraph W := { d with graph := d.graph.removeEdgeLike e }
/-- See `Digraph.addNode`. -/
def Digraph.removeWhere (d : Digraph W) (p : W → Bool) : Digraph W := { d with graph := d.graph.removeWhere p }

/-- `labelizeNodes`, DDigraph.hpp:605-615, with `propagateLabel`, DDigraph.hpp:618-639. -/
def Digraph.labelizeNodes (d : Digraph W) : Except LabErr (Int → Option Int) := d.graph.labelizeNodes

end Smil
