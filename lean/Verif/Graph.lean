import Mathlib.Data.Finset.Lattice.Fold
import Mathlib.Data.Finset.Max
import Mathlib.Algebra.BigOperators.Group.Finset.Basic
import Mathlib.Data.List.Basic

/-!
# The graph class

`Edge`, `Graph`, `labelizeNodes`, `propagateLabel` and `graphMST` of Core/include/private/DGraph.hpp.
Node identifiers are integers (every node type of the library is an integer type; identifiers are only
compared, never computed with), the weights belong to any linearly ordered type. The results of
`findEdge` are kept as exact indices (an `int` in the code: fewer than 2^31 edges).
-/

namespace Smil
variable {W : Type}

/-- `Edge`, DGraph.hpp:62-150. -/
structure GEdge (W : Type) where
  src : Int
  tgt : Int
  weight : W
  deriving DecidableEq, Repr

/-- `Edge::operator==`, DGraph.hpp:128-135: the same two ends, in any order; the weight is not compared. -/
def GEdge.same (e f : GEdge W) : Bool :=
  decide (f.src = e.src ∧ f.tgt = e.tgt) || decide (f.src = e.tgt ∧ f.tgt = e.src)

/-- `Edge::isActive`, DGraph.hpp:113-116. -/
def GEdge.isActive (e : GEdge W) : Bool := decide (e.src ≠ 0 ∨ e.tgt ≠ 0)

/-- `Edge::desactivate`, DGraph.hpp:121-125. -/
def GEdge.off (e : GEdge W) : GEdge W := ⟨0, 0, e.weight⟩

/-- The members of `Graph`, DGraph.hpp:210-215. `nodeEdgeList`, a `std::map`, is its set of keys and the
value of each key. -/
structure Graph (W : Type) where
  edgeNbr : Nat
  nodes : Finset Int
  vals : Int → Option W
  edges : List (GEdge W)
  keys : Finset Int
  adj : Int → List Nat

/-- The default constructor, DGraph.hpp:218-221, and `clear`, DGraph.hpp:248-255. -/
def Graph.empty : Graph W := ⟨0, ∅, fun _ => none, [], ∅, fun _ => []⟩

/-- `addNode(ind)`, DGraph.hpp:258-261. -/
def Graph.addNode (g : Graph W) (n : Int) : Graph W := { g with nodes := insert n g.nodes }

/-- `addNode(ind, val)`, DGraph.hpp:264-268. -/
def Graph.addNodeVal (g : Graph W) (n : Int) (v : W) : Graph W :=
  { g with nodes := insert n g.nodes, vals := Function.update g.vals n (some v) }

/-- `findEdge`, DGraph.hpp:273-290: the first edge with these ends (`none` for -1). -/
def Graph.findEdge (g : Graph W) (e : GEdge W) : Option Nat := g.edges.findIdx? (fun f => f.same e)

/-- `nodeEdgeList[n].push_back(i)`. -/
def Graph.pushAdj (g : Graph W) (n : Int) (i : Nat) : Graph W :=
  { g with keys := insert n g.keys, adj := Function.update g.adj n (g.adj n ++ [i]) }

/-- The unconditional part of `addEdge`, DGraph.hpp:305-311. -/
def Graph.pushEdge (g : Graph W) (e : GEdge W) : Graph W :=
  let g1 := { g with edges := g.edges ++ [e], nodes := insert e.tgt (insert e.src g.nodes) }
  let g2 := (g1.pushAdj e.src g1.edgeNbr).pushAdj e.tgt g1.edgeNbr
  { g2 with edgeNbr := g2.edgeNbr + 1 }

/-- `addEdge`, DGraph.hpp:299-312. -/
def Graph.addEdge (g : Graph W) (e : GEdge W) (check : Bool) : Graph W :=
  if check && (g.findEdge e).isSome then g else g.pushEdge e

/-- `removeNodeEdge`, DGraph.hpp:385-398. -/
def Graph.removeNodeEdge (g : Graph W) (n : Int) (i : Nat) : Graph W :=
  if n ∈ g.keys then { g with adj := Function.update g.adj n ((g.adj n).erase i) } else g

/-- One turn of the loop of `removeNodeEdges`, DGraph.hpp:411-419. `none`: undefined behaviour, the edge
does not exist or `removeNodeEdge` erases from the vector that the loop is iterating over, which
happens when both ends are `n`. -/
def Graph.removeTurn (n : Int) (g : Graph W) (i : Nat) : Option (Graph W) :=
  match g.edges[i]? with
  | none => none
  | some e =>
    let other := if e.src = n then e.tgt else e.src
    if other = n then none
    else
      let g1 := g.removeNodeEdge other i
      some { g1 with edges := g1.edges.set i e.off }

/-- `removeNodeEdges`, DGraph.hpp:404-421. -/
def Graph.removeNodeEdges (g : Graph W) (n : Int) : Option (Graph W) :=
  if n ∈ g.keys then
    match (g.adj n).foldlM (Graph.removeTurn n) g with
    | none => none
    | some g1 => some { g1 with adj := Function.update g1.adj n [] }
  else some g

/-- `removeNode`, DGraph.hpp:377-383 (a protected member). -/
def Graph.removeNode (g : Graph W) (n : Int) : Option (Graph W) :=
  Graph.removeNodeEdges { g with nodes := g.nodes.erase n } n

/-- `removeEdge(index)`, DGraph.hpp:426-436. -/
def Graph.removeEdge (g : Graph W) (i : Nat) : Graph W :=
  match g.edges[i]? with
  | none => g
  | some e =>
    let g1 := (g.removeNodeEdge e.src i).removeNodeEdge e.tgt i
    { g1 with edges := g1.edges.set i e.off }

/-- `removeEdge(src, targ)` and `removeEdge(edge)`, DGraph.hpp:441-463. -/
def Graph.removeEdgeLike (g : Graph W) (e : GEdge W) : Graph W :=
  match g.findEdge e with
  | none => g
  | some i => g.removeEdge i

/-- One turn of the loops of `removeHighEdges` and `removeLowEdges`. -/
def Graph.removeIf (p : W → Bool) (g : Graph W) (i : Nat) : Graph W :=
  match g.edges[i]? with
  | none => g
  | some e => if p e.weight then g.removeEdge i else g

/-- `removeHighEdges` (`p w := w > t`) and `removeLowEdges` (`p w := w < t`), DGraph.hpp:471-495. -/
def Graph.removeWhere (g : Graph W) (p : W → Bool) : Graph W :=
  (List.range g.edges.length).foldl (Graph.removeIf p) g

/-- The end of `sortEdges`, DGraph.hpp:343-350: the graph is emptied (its node values are kept) and the
edges `s` are added one by one. `s` is the sorted copy of the edges (`std::sort` leaves the order of
equal weights open). -/
def Graph.readd (g : Graph W) (s : List (GEdge W)) : Graph W :=
  s.foldl Graph.pushEdge { Graph.empty with vals := g.vals }

/-- How `labelizeNodes` can fail. -/
inductive LabErr where
  /-- `nodeEdgeList.at(ind)` throws `std::out_of_range` -/
  | outOfRange
  /-- an edge index outside of the vector of edges -/
  | badIndex
  /-- the model's bound on the depth of the recursion is exceeded -/
  | fuel
  deriving DecidableEq, Repr

/-- State of the labelling: `lookup` and `nList`. -/
structure GLabSt where
  lookup : Int → Option Int
  todo : Finset Int

/-- `propagateLabel`, DGraph.hpp:596-618. The recursion ends because every call that goes on removes a
node from `nList`; the model carries a bound on its depth. -/
def Graph.propagate (g : Graph W) (lbl : Int) : Nat → Int → GLabSt → Except LabErr GLabSt
  | 0, _, _ => .error .fuel
  | fuel + 1, ind, s =>
    if ind ∈ s.todo then
      let s1 : GLabSt := ⟨Function.update s.lookup ind (some lbl), s.todo.erase ind⟩
      if ind ∈ g.keys then
        (g.adj ind).foldlM (init := s1) fun s i =>
          match g.edges[i]? with
          | none => .error .badIndex
          | some e =>
            if e.src ≠ ind then g.propagate lbl fuel e.src s
            else if e.tgt ≠ ind then g.propagate lbl fuel e.tgt s
            else .ok s
      else .error .outOfRange
    else .ok s

/-- The loop of `labelizeNodes`, DGraph.hpp:587-590. -/
def Graph.labLoop (g : Graph W) : Nat → GLabSt → Except LabErr GLabSt
  | 0, _ => .error .fuel
  | fuel + 1, s =>
    match s.todo.min with
    | none => .ok s
    | some n =>
      match g.propagate n (s.todo.card + 1) n s with
      | .error e => .error e
      | .ok s' => g.labLoop fuel s'

/-- `labelizeNodes`, DGraph.hpp:582-592. -/
def Graph.labelizeNodes (g : Graph W) : Except LabErr (Int → Option Int) :=
  match g.labLoop (g.nodes.card + 1) ⟨fun _ => none, g.nodes⟩ with
  | .error e => .error e
  | .ok s => .ok s.lookup

/-- How the computation of the tree can fail. -/
inductive MstErr where
  /-- `(*nodeEdgeList.begin()).first` of an empty map: undefined behaviour -/
  | emptyMap
  /-- `nodeEdgeList.at(curNode)` throws -/
  | outOfRange
  /-- an edge index outside of the vector of edges -/
  | badIndex
  /-- the model's bound on the number of turns is exceeded -/
  | fuel
  deriving DecidableEq, Repr

/-- `pq.push(edges[*it])` for the edges of a node, DGraph.hpp:646-649 and 666-669. -/
def Graph.pushAll (g : Graph W) (n : Int) (q : List (GEdge W)) : Except MstErr (List (GEdge W)) :=
  if n ∈ g.keys then
    match (g.adj n).mapM (fun i => g.edges[i]?) with
    | none => .error .badIndex
    | some l => .ok (q ++ l)
  else .error .outOfRange

/-- The loop of `graphMST`, DGraph.hpp:651-670. The priority queue is a list, `top` gives an edge that no
other one precedes; which one among equal weights is left open: `pick` returns the chosen edge and
the rest. -/
def Graph.mstLoop (g : Graph W) (pick : List (GEdge W) → Option (GEdge W × List (GEdge W))) :
    Nat → Finset Int → List (GEdge W) → Graph W → Except MstErr (Graph W)
  | 0, _, _, _ => .error .fuel
  | fuel + 1, visited, q, mst =>
    match pick q with
    | none => .ok mst
    | some (e, q') =>
      if e.src ∉ visited then
        match g.pushAll e.src q' with
        | .error x => .error x
        | .ok q2 => g.mstLoop pick fuel (insert e.src visited) q2 (mst.addEdge e false)
      else if e.tgt ∉ visited then
        match g.pushAll e.tgt q' with
        | .error x => .error x
        | .ok q2 => g.mstLoop pick fuel (insert e.tgt visited) q2 (mst.addEdge e false)
      else g.mstLoop pick fuel visited q' mst

/-- `graphMST`, DGraph.hpp:626-675. -/
def Graph.mst (g : Graph W) (pick : List (GEdge W) → Option (GEdge W × List (GEdge W))) :
    Except MstErr (Graph W) :=
  match g.keys.min with
  | none => .error .emptyMap
  | some n =>
    match g.pushAll n [] with
    | .error x => .error x
    | .ok q =>
      match g.mstLoop pick (g.keys.sum (fun k => (g.adj k).length) + 1) {n} q Graph.empty with
      | .error x => .error x
      | .ok m => .ok { m with vals := g.vals }

end Smil
