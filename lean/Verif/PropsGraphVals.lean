import Verif.PropsDigraph

/-!
# C120: the values of the nodes of a graph
-/

namespace Smil
variable {W : Type}

/-- The edits of C44, and `sortEdges`, which adds the edges again in the order `s`. -/
inductive NodeOp (W : Type) where
  | edit (op : GOp W)
  | sort (s : List (GEdge W))

def NodeOp.run (g : Graph W) : NodeOp W → Option (Graph W)
  | .edit op => op.run g
  | .sort s => some (g.readd s)

/-- The concrete graph after these edits; `none`: undefined behaviour. -/
def runVOps (ops : List (NodeOp W)) : Option (Graph W) := ops.foldlM (fun g op => op.run g) Graph.empty

/-! ### Specification -/

/-- The edit says nothing about the value of `n`: it is no `addNode(n, v)` and no `clear`. -/
def NodeOp.Silent (n : Int) (op : NodeOp W) : Prop := (∀ v, op ≠ .edit (.addNodeVal n v)) ∧ op ≠ .edit .clear

/-- `v` is the value last given to `n`, and the graph was not cleared since. -/
def LastValue (ops : List (NodeOp W)) (n : Int) (v : W) : Prop :=
  ∃ pre post, ops = pre ++ .edit (.addNodeVal n v) :: post ∧ ∀ op ∈ post, op.Silent n

/-! ### Proof -/

theorem pushEdge_vals (g : Graph W) (e : GEdge W) : (g.pushEdge e).vals = g.vals := rfl

theorem readd_vals (g : Graph W) (s : List (GEdge W)) : (g.readd s).vals = g.vals := by
  unfold Graph.readd
  have : ∀ (s : List (GEdge W)) (g : Graph W), (s.foldl Graph.pushEdge g).vals = g.vals := by
    intro s
    induction s with
    | nil => intro g; rfl
    | cons e s ih => intro g; rw [List.foldl_cons, ih, pushEdge_vals]
  rw [this]

theorem removeIf_vals (p : W → Bool) (g : Graph W) (i : Nat) : (g.removeIf p i).vals = g.vals := by
  unfold Graph.removeIf
  split
  · rfl
  · split
    · exact (removeEdge_edges g i).2.2.2.2
    · rfl

theorem removeTurn_vals {n : Int} {g g' : Graph W} {i : Nat} (h : g.removeTurn n i = some g') : g'.vals = g.vals := by
  unfold Graph.removeTurn at h
  split at h
  · cases h
  · rename_i e he
    by_cases hc : (if e.src = n then e.tgt else e.src) = n
    · rw [if_pos hc] at h
      cases h
    · rw [if_neg hc] at h
      rw [← Option.some.inj h]
      exact (removeNodeEdge_edges _ _ _).2.2.2.2

theorem removeTurns_vals {n : Int} : ∀ (l : List Nat) (g g' : Graph W), l.foldlM (Graph.removeTurn n) g = some g' → g'.vals = g.vals
  | [], g, g', h => by rw [← Option.some.inj h]
  | i :: l, g, g', h => by
    rw [List.foldlM_cons] at h
    obtain ⟨g1, h1, h2⟩ := Option.bind_eq_some_iff.mp h
    rw [removeTurns_vals l g1 g' h2, removeTurn_vals h1]

theorem removeNodeEdges_vals {n : Int} {g g' : Graph W} (h : g.removeNodeEdges n = some g') : g'.vals = g.vals := by
  unfold Graph.removeNodeEdges at h
  split at h
  · split at h
    · cases h
    · rename_i g1 h1
      rw [← Option.some.inj h]
      exact removeTurns_vals (g.adj n) g g1 h1
  · rw [← Option.some.inj h]

theorem removeWhere_vals (g : Graph W) (p : W → Bool) : (g.removeWhere p).vals = g.vals := by
  unfold Graph.removeWhere
  generalize List.range g.edges.length = l
  induction l generalizing g with
  | nil => rfl
  | cons i l ih => rw [List.foldl_cons, ih, removeIf_vals]

theorem silent_vals {op : NodeOp W} {n : Int} {g g' : Graph W} (hs : op.Silent n) (h : op.run g = some g') : g'.vals n = g.vals n := by
  cases op with
  | sort s => rw [← Option.some.inj h, readd_vals]
  | edit op =>
    cases op with
    | addNode m => rw [← Option.some.inj h]; rfl
    | addNodeVal m v =>
      rw [← Option.some.inj h]
      show Function.update g.vals m (some v) n = _
      rw [Function.update_apply, if_neg]
      rintro rfl
      exact hs.1 v rfl
    | addEdge e c =>
      rw [← Option.some.inj h]
      unfold Graph.addEdge
      split <;> rfl
    | removeNode m =>
      have : g'.vals = g.vals := removeNodeEdges_vals (g := { g with nodes := g.nodes.erase m }) h
      rw [this]
    | removeNodeEdges m => rw [removeNodeEdges_vals h]
    | removeEdge i => rw [← Option.some.inj h, (removeEdge_edges g i).2.2.2.2]
    | removeEdgeLike e =>
      rw [← Option.some.inj h]
      unfold Graph.removeEdgeLike
      split
      · rfl
      · rw [(removeEdge_edges g _).2.2.2.2]
    | removeWhere p => rw [← Option.some.inj h, removeWhere_vals]
    | clear => exact absurd rfl hs.2

open Classical in
/-- **C120.** After any defined sequence of edits and sorts, the value of a node is the one last given to it since the last `clear`, and there is none if none was given. -/
theorem C120_values (ops : List (NodeOp W)) (g : Graph W) (h : runVOps ops = some g) (n : Int) (v : W) : g.vals n = some v ↔ LastValue ops n v := by
  induction ops using List.reverseRecOn generalizing g with
  | nil =>
    rw [← Option.some.inj h]
    constructor
    · intro h; cases h
    · rintro ⟨pre, post, h, -⟩
      simp at h
  | append_singleton ops op ih =>
    unfold runVOps at h ih
    rw [List.foldlM_append] at h
    obtain ⟨g0, h0, h1⟩ := Option.bind_eq_some_iff.mp h
    have h1 : op.run g0 = some g := by
      rw [List.foldlM_cons] at h1
      obtain ⟨g1, k1, k2⟩ := Option.bind_eq_some_iff.mp h1
      rw [k1]; exact k2
    have ih := ih g0 h0
    by_cases hs : op.Silent n
    · rw [silent_vals hs h1, ih]
      constructor
      · rintro ⟨pre, post, rfl, hp⟩
        refine ⟨pre, post ++ [op], by simp, fun o ho => ?_⟩
        rcases List.mem_append.mp ho with ho | ho
        · exact hp o ho
        · rw [List.mem_singleton.mp ho]; exact hs
      · rintro ⟨pre, post, e, hp⟩
        rcases List.eq_nil_or_concat post with rfl | ⟨post', o, rfl⟩
        · have := (List.append_inj' e rfl).2
          exact absurd (List.cons.inj this).1 (hs.1 v)
        · rw [List.concat_eq_append, ← List.cons_append, ← List.append_assoc] at e
          exact ⟨pre, post', (List.append_inj' e rfl).1, fun o ho => hp o (by simp [ho])⟩
    · have key : ∀ pre post, ops ++ [op] = pre ++ NodeOp.edit (.addNodeVal n v) :: post → (∀ o ∈ post, o.Silent n) → op = .edit (.addNodeVal n v) := by
        intro pre post e hp
        rcases List.eq_nil_or_concat post with rfl | ⟨post', o, rfl⟩
        · exact (List.cons.inj (List.append_inj' e rfl).2).1
        · rw [List.concat_eq_append, ← List.cons_append, ← List.append_assoc] at e
          have := (List.cons.inj (List.append_inj' e rfl).2).1
          exact absurd (this ▸ hp o (by simp)) hs
      unfold NodeOp.Silent at hs
      rw [not_and_or, not_forall, not_not] at hs
      rcases hs with ⟨w, hw⟩ | hc
      · have hw : op = .edit (.addNodeVal n w) := not_not.mp hw
        have hv : g.vals n = some w := by
          rw [hw] at h1
          rw [← Option.some.inj h1]
          show Function.update g0.vals n (some w) n = _
          rw [Function.update_self]
        rw [hv]
        constructor
        · intro e
          rw [← Option.some.inj e, hw]
          exact ⟨ops, [], rfl, fun _ h => by cases h⟩
        · rintro ⟨pre, post, e, hp⟩
          have := (key pre post e hp).symm.trans hw
          injection this with this
          injection this with _ this
          rw [this]
      · rw [hc] at h1
        rw [← Option.some.inj h1]
        constructor
        · intro h; cases h
        · rintro ⟨pre, post, e, hp⟩
          have := (key pre post e hp).symm.trans hc
          injection this with this
          cases this

/-- The digraph of the addon has the same values. -/
theorem C120_digraph (ops : List (GOp W)) (d : Digraph W) (h : runOpsD ops = some d) (n : Int) (v : W) : d.graph.vals n = some v ↔ LastValue (ops.map .edit) n v := by
  rw [runOpsD_eq] at h
  obtain ⟨g, hg, rfl⟩ := Option.map_eq_some_iff.mp h
  refine C120_values _ g ?_ n v
  unfold runVOps
  rw [List.foldlM_map]
  exact hg

/-- Values given, changed, kept through edits and a sort. -/
example : (match runVOps (W := Int) [.edit (.addNodeVal 1 5), .edit (.addNodeVal 2 6), .edit (.addEdge ⟨1, 2, 3⟩ true), .edit (.addNodeVal 1 7), .edit (.removeEdge 0), .sort [⟨1, 2, 3⟩]] with
    | none => none
    | some g => some ([1, 2, 3].map g.vals)) = some [some 7, some 6, none] := by decide

/-- **C120 fails as a map from the nodes.** A node without edges is lost by `sortEdges`, and its value stays in the map of the values; added again without a value, the node has the old one. -/
theorem C120_sort_bug : (match runVOps (W := Int) [.edit (.addNodeVal 4 9), .sort []] with
    | none => none
    | some g => some (g.nodes, g.vals 4, (g.addNode 4).nodes, (g.addNode 4).vals 4)) = some (∅, some 9, {4}, some 9) := by decide

/-- Likewise `removeNode`, whatever the graph, leaves the value of the node that it removes. -/
theorem C120_remove_bug (g g' : Graph W) (n : Int) (h : g.removeNode n = some g') : g'.vals n = g.vals n :=
  silent_vals (op := .edit (.removeNode n)) ⟨by simp, by simp⟩ h

/-- A node with a value that is removed. -/
example : (match runVOps (W := Int) [.edit (.addNodeVal 4 9), .edit (.removeNode 4)] with
    | none => none
    | some g => some (g.nodes, g.vals 4)) = some (∅, some 9) := by decide

end Smil
