import Verif.Graph
import Mathlib.Data.List.Count

/-!
# Refinement of the graph edits

`AGraph`: what the edits mean, a set of nodes and one slot per edge ever added, emptied when the edge is
removed.
-/

namespace Smil
variable {W : Type}

/-- The abstract graph: nodes, and for each edge ever added its contents or `none` once removed. -/
structure AGraph (W : Type) where
  nodes : Finset Int
  slots : List (Option (GEdge W))

/-- How many ends of the slot `o` are the node `n`. -/
def endCount (n : Int) : Option (GEdge W) → Nat
  | none => 0
  | some e => (if e.src = n then 1 else 0) + (if e.tgt = n then 1 else 0)

/-- The concrete graph represents the abstract one. -/
structure Rep (g : Graph W) (a : AGraph W) : Prop where
  len : g.edges.length = a.slots.length
  nbr : g.edgeNbr = a.slots.length
  nodes : g.nodes = a.nodes
  live : ∀ (i : Nat) e, a.slots[i]? = some (some e) → g.edges[i]? = some e
  dead : ∀ (i : Nat), a.slots[i]? = some none → ∃ w, g.edges[i]? = some ⟨0, 0, w⟩
  adj : ∀ n i, (g.adj n).count i = endCount n (a.slots[i]?).join
  keys : ∀ n, n ∉ g.keys → g.adj n = []
  ends : ∀ (i : Nat) e, a.slots[i]? = some (some e) → e.src ∈ a.nodes ∧ e.tgt ∈ a.nodes
  pos : ∀ (i : Nat) e, a.slots[i]? = some (some e) → ¬(e.src = 0 ∧ e.tgt = 0)

theorem Rep.empty : Rep (Graph.empty : Graph W) ⟨∅, []⟩ := by
  refine ⟨rfl, rfl, rfl, ?_, ?_, ?_, ?_, ?_, ?_⟩ <;> simp [Graph.empty, endCount]

theorem Rep.addNode {g : Graph W} {a : AGraph W} (h : Rep g a) (n : Int) :
    Rep (g.addNode n) { a with nodes := insert n a.nodes } := by
  refine ⟨h.len, h.nbr, by simp [Graph.addNode, h.nodes], h.live, h.dead, h.adj, h.keys, ?_, h.pos⟩
  intro i e hi
  exact ⟨Finset.mem_insert_of_mem (h.ends i e hi).1, Finset.mem_insert_of_mem (h.ends i e hi).2⟩

theorem Rep.addNodeVal {g : Graph W} {a : AGraph W} (h : Rep g a) (n : Int) (v : W) :
    Rep (g.addNodeVal n v) { a with nodes := insert n a.nodes } := by
  refine ⟨h.len, h.nbr, by simp [Graph.addNodeVal, h.nodes], h.live, h.dead, h.adj, h.keys, ?_, h.pos⟩
  intro i e hi
  exact ⟨Finset.mem_insert_of_mem (h.ends i e hi).1, Finset.mem_insert_of_mem (h.ends i e hi).2⟩

theorem pushAdj_count (g : Graph W) (m : Int) (k : Nat) (n : Int) (i : Nat) :
    ((g.pushAdj m k).adj n).count i = (g.adj n).count i + if m = n ∧ k = i then 1 else 0 := by
  unfold Graph.pushAdj
  by_cases h : m = n
  · subst h
    simp only [Function.update_self, List.count_append, List.count_singleton, true_and, beq_iff_eq]
  · simp [Function.update_of_ne (Ne.symm h), h]

theorem Rep.pushEdge {g : Graph W} {a : AGraph W} (h : Rep g a) (e : GEdge W)
    (he : ¬(e.src = 0 ∧ e.tgt = 0)) :
    Rep (g.pushEdge e) ⟨insert e.tgt (insert e.src a.nodes), a.slots ++ [some e]⟩ := by
  have hget : ∀ i, (a.slots ++ [some e])[i]? = if i = a.slots.length then some (some e) else a.slots[i]? := by
    intro i
    rw [List.getElem?_append]
    split_ifs with h1 h2 h2
    · omega
    · rfl
    · subst h2; simp
    · rw [List.getElem?_eq_none (by simp; omega), List.getElem?_eq_none (by omega)]
  have hgetc : ∀ i, (g.edges ++ [e])[i]? = if i = a.slots.length then some e else g.edges[i]? := by
    intro i
    rw [List.getElem?_append, h.len]
    split_ifs with h1 h2 h2
    · omega
    · rfl
    · subst h2; simp
    · rw [List.getElem?_eq_none (by simp; omega), List.getElem?_eq_none (by rw [h.len]; omega)]
  have hnone : a.slots[a.slots.length]? = none := by simp
  refine ⟨?_, ?_, ?_, ?_, ?_, ?_, ?_, ?_, ?_⟩
  · simp [Graph.pushEdge, Graph.pushAdj, h.len]
  · simp [Graph.pushEdge, Graph.pushAdj, h.nbr]
  · simp [Graph.pushEdge, Graph.pushAdj, h.nodes]
  · intro i f hi
    simp only [Graph.pushEdge, Graph.pushAdj]
    rw [hget] at hi; rw [hgetc]
    split_ifs at hi ⊢ with h1
    · simp only [Option.some.injEq] at hi; rw [hi]
    · exact h.live i f hi
  · intro i hi
    simp only [Graph.pushEdge, Graph.pushAdj]
    rw [hget] at hi; rw [hgetc]
    split_ifs at hi ⊢ with h1
    · simp at hi
    · exact h.dead i hi
  · intro n i
    have : ((g.pushEdge e).adj n).count i =
        (g.adj n).count i + (if e.src = n ∧ g.edgeNbr = i then 1 else 0) +
          (if e.tgt = n ∧ g.edgeNbr = i then 1 else 0) := by
      unfold Graph.pushEdge
      simp only [pushAdj_count]
    rw [this, h.adj, h.nbr, hget]
    by_cases h1 : i = a.slots.length
    · subst h1
      rw [hnone]
      simp [endCount]
    · have h2 : ¬ a.slots.length = i := fun h => h1 h.symm
      simp [h1, h2]
  · intro n hn
    simp only [Graph.pushEdge, Graph.pushAdj, Finset.mem_insert, not_or] at hn ⊢
    rw [Function.update_of_ne hn.1, Function.update_of_ne hn.2.1]
    exact h.keys n hn.2.2
  · intro i f hi
    rw [hget] at hi
    split_ifs at hi with h1
    · simp only [Option.some.injEq] at hi; subst hi; simp
    · have := h.ends i f hi
      simp [this.1, this.2]
  · intro i f hi
    rw [hget] at hi
    split_ifs at hi with h1
    · simp only [Option.some.injEq] at hi; subst hi; exact he
    · exact h.pos i f hi

/-- The same two ends, in any order. -/
def SameEnds (e f : GEdge W) : Prop := (f.src = e.src ∧ f.tgt = e.tgt) ∨ (f.src = e.tgt ∧ f.tgt = e.src)

instance (e f : GEdge W) : Decidable (SameEnds e f) := by unfold SameEnds; infer_instance

theorem same_iff (e f : GEdge W) : e.same f = true ↔ SameEnds e f := by
  simp [GEdge.same, SameEnds]

/-- The first live slot with the ends of `e`. -/
def AGraph.find (a : AGraph W) (e : GEdge W) : Option Nat :=
  a.slots.findIdx? fun o => match o with | some f => decide (SameEnds f e) | none => false

theorem findIdx?_congr {α β : Type} {p : α → Bool} {q : β → Bool} : ∀ {l : List α} {m : List β},
    l.length = m.length → (∀ (i : Nat) x y, l[i]? = some x → m[i]? = some y → p x = q y) →
    l.findIdx? p = m.findIdx? q := by
  intro l
  induction l with
  | nil => intro m h _; cases m <;> simp_all
  | cons x l ih =>
    intro m h hpq
    cases m with
    | nil => simp at h
    | cons y m =>
      rw [List.findIdx?_cons, List.findIdx?_cons, hpq 0 x y rfl rfl,
        ih (by simpa using h) (fun i x y hx hy => hpq (i + 1) x y hx hy)]

theorem Rep.find {g : Graph W} {a : AGraph W} (h : Rep g a) (e : GEdge W)
    (he : ¬(e.src = 0 ∧ e.tgt = 0)) : g.findEdge e = a.find e := by
  unfold Graph.findEdge AGraph.find
  refine findIdx?_congr h.len ?_
  intro i f o hf ho
  cases o with
  | none =>
    obtain ⟨w, hw⟩ := h.dead i ho
    rw [hw] at hf; simp only [Option.some.injEq] at hf; subst hf
    rw [Bool.eq_false_iff]
    intro hs
    rw [same_iff] at hs
    unfold SameEnds at hs
    simp only at hs
    omega
  | some f' =>
    rw [h.live i f' ho] at hf; simp only [Option.some.injEq] at hf; subst hf
    rw [Bool.eq_iff_iff, same_iff]; simp

theorem removeNodeEdge_count (g : Graph W) (hk : ∀ n, n ∉ g.keys → g.adj n = []) (m : Int) (k : Nat)
    (n : Int) (i : Nat) :
    ((g.removeNodeEdge m k).adj n).count i = (g.adj n).count i - if m = n ∧ k = i then 1 else 0 := by
  unfold Graph.removeNodeEdge
  by_cases h1 : m ∈ g.keys
  · rw [if_pos h1]
    by_cases h : m = n
    · subst h
      simp only [Function.update_self, true_and]
      rw [List.count_erase]
      simp
    · simp [Function.update_of_ne (Ne.symm h), h]
  · rw [if_neg h1]
    by_cases h : m = n ∧ k = i
    · obtain ⟨rfl, rfl⟩ := h
      simp [hk m h1]
    · simp [h]

theorem removeNodeEdge_keys (g : Graph W) (hk : ∀ n, n ∉ g.keys → g.adj n = []) (m : Int) (k : Nat) :
    ∀ n, n ∉ (g.removeNodeEdge m k).keys → (g.removeNodeEdge m k).adj n = [] := by
  intro n hn
  unfold Graph.removeNodeEdge at *
  split_ifs at * with h1
  · simp only at hn ⊢
    rw [Function.update_of_ne (by rintro rfl; exact hn h1)]
    exact hk n hn
  · exact hk n hn

theorem removeNodeEdge_edges (g : Graph W) (m : Int) (k : Nat) :
    (g.removeNodeEdge m k).edges = g.edges ∧ (g.removeNodeEdge m k).nodes = g.nodes ∧
    (g.removeNodeEdge m k).edgeNbr = g.edgeNbr ∧ (g.removeNodeEdge m k).keys = g.keys ∧
    (g.removeNodeEdge m k).vals = g.vals := by
  unfold Graph.removeNodeEdge
  split_ifs <;> simp

theorem removeEdge_edges (g : Graph W) (i : Nat) :
    (g.removeEdge i).nodes = g.nodes ∧ (g.removeEdge i).edgeNbr = g.edgeNbr ∧
    (g.removeEdge i).edges.length = g.edges.length ∧ (g.removeEdge i).keys = g.keys ∧
    (g.removeEdge i).vals = g.vals := by
  unfold Graph.removeEdge
  split
  · simp
  · simp [removeNodeEdge_edges]

theorem Rep.removeEdge {g : Graph W} {a : AGraph W} (h : Rep g a) (k : Nat) :
    Rep (g.removeEdge k) { a with slots := a.slots.set k none } := by
  unfold Graph.removeEdge
  rcases Nat.lt_or_ge k a.slots.length with hk | hk
  swap
  · rw [List.getElem?_eq_none (by rw [h.len]; exact hk), List.set_eq_of_length_le hk]
    exact h
  have hk' : k < g.edges.length := by rw [h.len]; exact hk
  obtain ⟨o, ho⟩ : ∃ o, a.slots[k]? = some o := ⟨_, List.getElem?_eq_getElem hk⟩
  obtain ⟨e, he⟩ : ∃ e, g.edges[k]? = some e := ⟨_, List.getElem?_eq_getElem hk'⟩
  rw [he]
  simp only
  have hget : ∀ i, (a.slots.set k none)[i]? = if k = i then some none else a.slots[i]? := by
    intro i
    rw [List.getElem?_set]
    split_ifs <;> simp_all
  have hgetc : ∀ i, (g.edges.set k e.off)[i]? = if k = i then some e.off else g.edges[i]? := by
    intro i
    rw [List.getElem?_set]
    split_ifs <;> simp_all
  obtain ⟨e1, n1, b1, k1, v1⟩ := removeNodeEdge_edges g e.src k
  obtain ⟨e2, n2, b2, k2, v2⟩ := removeNodeEdge_edges (g.removeNodeEdge e.src k) e.tgt k
  refine ⟨?_, ?_, ?_, ?_, ?_, ?_, ?_, ?_, ?_⟩
  · simp [e2, e1, h.len]
  · simp [b2, b1, h.nbr]
  · simp [n2, n1, h.nodes]
  · intro i f hi
    simp only [e2, e1]
    rw [hget] at hi; rw [hgetc]
    split_ifs at hi ⊢ with h1
    · simp at hi
    · exact h.live i f hi
  · intro i hi
    simp only [e2, e1]
    rw [hget] at hi; rw [hgetc]
    split_ifs at hi ⊢ with h1
    · exact ⟨e.weight, rfl⟩
    · exact h.dead i hi
  · intro n i
    simp only
    rw [removeNodeEdge_count _ (removeNodeEdge_keys g h.keys _ _), removeNodeEdge_count _ h.keys, h.adj,
      hget]
    by_cases h1 : k = i
    · subst h1
      rw [ho]
      cases o with
      | none => simp [endCount]
      | some f =>
        rw [h.live k f ho] at he; simp only [Option.some.injEq] at he; subst he
        simp only [Option.join_some, endCount, and_true, if_true]
        split_ifs <;> simp [endCount]
    · simp [h1]
  · intro n hn
    exact removeNodeEdge_keys _ (removeNodeEdge_keys g h.keys _ _) _ _ n hn
  · intro i f hi
    simp only at hi
    rw [hget] at hi
    split_ifs at hi with h1
    · simp at hi
    · exact h.ends i f hi
  · intro i f hi
    simp only at hi
    rw [hget] at hi
    split_ifs at hi with h1
    · simp at hi
    · exact h.pos i f hi

/-- The abstract effect of `removeHighEdges` and `removeLowEdges`. -/
def dropIf (p : W → Bool) : Option (GEdge W) → Option (GEdge W)
  | none => none
  | some e => if p e.weight then none else some e

theorem Rep.removeIf {g : Graph W} {a : AGraph W} (h : Rep g a) (p : W → Bool) (k : Nat) :
    Rep (g.removeIf p k) { a with slots := a.slots.modify k (dropIf p) } := by
  unfold Graph.removeIf
  rcases Nat.lt_or_ge k a.slots.length with hk | hk
  swap
  · rw [List.getElem?_eq_none (by rw [h.len]; exact hk)]
    rw [show a.slots.modify k (dropIf p) = a.slots by
      apply List.ext_getElem?
      intro i
      rw [List.getElem?_modify]
      split_ifs with h1
      · subst h1; rw [List.getElem?_eq_none hk]; rfl
      · simp]
    exact h
  have hk' : k < g.edges.length := by rw [h.len]; exact hk
  obtain ⟨o, ho⟩ : ∃ o, a.slots[k]? = some o := ⟨_, List.getElem?_eq_getElem hk⟩
  obtain ⟨e, he⟩ : ∃ e, g.edges[k]? = some e := ⟨_, List.getElem?_eq_getElem hk'⟩
  rw [he]
  have key : ∀ o', dropIf p o = o' → a.slots.modify k (dropIf p) = a.slots.set k o' := by
    rintro o' rfl
    apply List.ext_getElem?
    intro i
    rw [List.getElem?_modify, List.getElem?_set]
    by_cases h1 : k = i
    · subst h1
      rw [ho]; simp [hk]
    · simp [h1]
  have hset : a.slots.set k o = a.slots := by
    apply List.ext_getElem?
    intro i
    rw [List.getElem?_set]
    by_cases h1 : k = i
    · subst h1; rw [if_pos rfl, if_pos hk, ho]
    · rw [if_neg h1]
  simp only
  cases o with
  | none =>
    rw [key none rfl]
    split_ifs
    · exact h.removeEdge k
    · rw [hset]; exact h
  | some f =>
    rw [h.live k f ho] at he; simp only [Option.some.injEq] at he; subst he
    split_ifs with hp
    · rw [key none (by simp [dropIf, hp])]
      exact h.removeEdge k
    · rw [key (some f) (by simp [dropIf, hp])]
      rw [hset]; exact h

theorem Rep.removeWhere {g : Graph W} {a : AGraph W} (h : Rep g a) (p : W → Bool) :
    Rep (g.removeWhere p) { a with slots := a.slots.map (dropIf p) } := by
  have key : ∀ n, Rep ((List.range n).foldl (Graph.removeIf p) g)
      { a with slots := a.slots.mapIdx fun i o => if i < n then dropIf p o else o } := by
    intro n
    induction n with
    | zero =>
      rw [show (a.slots.mapIdx fun i o => if i < 0 then dropIf p o else o) = a.slots by
        apply List.ext_getElem?; intro i; simp]
      exact h
    | succ n ih =>
      rw [List.range_succ, List.foldl_append]
      have := ih.removeIf p n
      simp only [List.foldl_cons, List.foldl_nil]
      convert this using 2
      apply List.ext_getElem?
      intro i
      rw [List.getElem?_modify]
      simp only [List.getElem?_mapIdx]
      cases a.slots[i]? with
      | none => rfl
      | some o =>
        simp only [Option.map_some, Option.map_eq_map, Option.some.injEq]
        by_cases h1 : n = i
        · subst h1; simp
        · rw [if_neg h1]
          by_cases h2 : i < n
          · rw [if_pos h2, if_pos (by omega)]
          · rw [if_neg h2, if_neg (by omega)]
  have := key a.slots.length
  unfold Graph.removeWhere
  rw [h.len]
  convert this using 2
  apply List.ext_getElem?
  intro i
  rw [List.getElem?_map, List.getElem?_mapIdx]
  cases hh : a.slots[i]? with
  | none => rfl
  | some o =>
    have := (List.getElem?_eq_some_iff.mp hh).1
    simp [this]

/-- The abstract effect of `removeNodeEdges`: the edges that touch `n` go. -/
def dropNode (n : Int) : Option (GEdge W) → Option (GEdge W)
  | none => none
  | some e => if e.src = n ∨ e.tgt = n then none else some e

/-- The state inside the loop of `removeNodeEdges`, when the indices `l` remain. -/
structure RLoop (n : Int) (l : List Nat) (a : AGraph W) (g : Graph W) : Prop where
  len : g.edges.length = a.slots.length
  nbr : g.edgeNbr = a.slots.length
  nodes : g.nodes = a.nodes
  live : ∀ (i : Nat) e, a.slots[i]? = some (some e) → i ∈ l ∨ (e.src ≠ n ∧ e.tgt ≠ n) → g.edges[i]? = some e
  dead : ∀ (i : Nat), a.slots[i]? = some none → ∃ w, g.edges[i]? = some ⟨0, 0, w⟩
  gone : ∀ (i : Nat) e, a.slots[i]? = some (some e) → i ∉ l → (e.src = n ∨ e.tgt = n) →
    ∃ w, g.edges[i]? = some ⟨0, 0, w⟩
  adj : ∀ m i, m ≠ n → (g.adj m).count i =
    if i ∈ l then endCount m (a.slots[i]?).join else endCount m ((a.slots[i]?).join.bind fun e => dropNode n (some e))
  keys : ∀ m, m ∉ g.keys → g.adj m = []

theorem endCount_pos {n : Int} {o : Option (GEdge W)} (h : 0 < endCount n o) :
    ∃ e, o = some e ∧ (e.src = n ∨ e.tgt = n) := by
  cases o with
  | none => simp [endCount] at h
  | some e =>
    refine ⟨e, rfl, ?_⟩
    simp only [endCount] at h
    by_contra hn
    rw [not_or] at hn
    simp [hn.1, hn.2] at h

theorem RLoop.step {n : Int} {k : Nat} {l : List Nat} {a : AGraph W} {g : Graph W}
    (h : RLoop n (k :: l) a g) (hkl : k ∉ l) {e : GEdge W} (hs : a.slots[k]? = some (some e))
    (hin : e.src = n ∨ e.tgt = n) (hloop : ¬(e.src = n ∧ e.tgt = n)) :
    ∃ g', Graph.removeTurn n g k = some g' ∧ RLoop n l a g' := by
  have hg : g.edges[k]? = some e := h.live k e hs (Or.inl List.mem_cons_self)
  have hk' : k < g.edges.length := (List.getElem?_eq_some_iff.mp hg).1
  have hother : (if e.src = n then e.tgt else e.src) ≠ n := by
    split_ifs with h1
    · exact fun h2 => hloop ⟨h1, h2⟩
    · exact h1
  generalize hgen : (if e.src = n then e.tgt else e.src) = other at *
  have hoth : ∀ m, m ≠ n → endCount m (some e) = if other = m then 1 else 0 := by
    intro m hm
    simp only [endCount]
    rw [← hgen]
    by_cases h1 : e.src = n
    · have : e.src ≠ m := fun h => hm (h.symm.trans h1)
      simp [h1, this, Ne.symm hm]
    · have h2 : e.tgt = n := hin.resolve_left h1
      have : e.tgt ≠ m := fun h => hm (h.symm.trans h2)
      simp [h1, this]
  refine ⟨_, by
    unfold Graph.removeTurn
    rw [hg]
    simp only [hgen]
    rw [if_neg hother], ?_⟩
  obtain ⟨e1, n1, b1, k1, v1⟩ := removeNodeEdge_edges g other k
  have hgetc : ∀ i, (g.edges.set k e.off)[i]? = if k = i then some e.off else g.edges[i]? := by
    intro i
    rw [List.getElem?_set]
    split_ifs <;> simp_all
  refine ⟨by simp [e1, h.len], by simp [b1, h.nbr], by simp [n1, h.nodes], ?_, ?_, ?_, ?_, ?_⟩
  · intro i f hi hor
    simp only [e1]
    rw [hgetc]
    by_cases h1 : k = i
    · subst h1
      rw [hs] at hi; simp only [Option.some.injEq] at hi; subst hi
      rcases hor with h2 | h2
      · exact absurd h2 hkl
      · rcases hin with h3 | h3
        · exact absurd h3 h2.1
        · exact absurd h3 h2.2
    · rw [if_neg h1]
      exact h.live i f hi (hor.imp (List.mem_cons_of_mem _) id)
  · intro i hi
    simp only [e1]
    rw [hgetc]
    split_ifs with h1
    · exact ⟨e.weight, rfl⟩
    · exact h.dead i hi
  · intro i f hi hl hor
    simp only [e1]
    rw [hgetc]
    split_ifs with h1
    · exact ⟨e.weight, rfl⟩
    · exact h.gone i f hi (by simp only [List.mem_cons, not_or]; exact ⟨fun h => h1 h.symm, hl⟩) hor
  · intro m i hm
    simp only
    rw [removeNodeEdge_count _ h.keys, h.adj m i hm]
    by_cases h1 : k = i
    · subst h1
      rw [if_pos List.mem_cons_self, if_neg hkl, hs]
      simp only [Option.join_some, and_true, Option.bind_some]
      rw [hoth m hm]
      simp only [dropNode]
      rw [if_pos hin]
      simp [endCount]
    · have h2 : (i ∈ k :: l) ↔ i ∈ l := by
        rw [List.mem_cons]
        exact ⟨fun h => h.resolve_left (fun h => h1 h.symm), Or.inr⟩
      simp [h1, h2]
  · exact removeNodeEdge_keys g h.keys _ _

theorem RLoop.run {n : Int} {a : AGraph W} : ∀ (l : List Nat) (g : Graph W), RLoop n l a g → l.Nodup →
    (∀ k ∈ l, ∃ e, a.slots[k]? = some (some e) ∧ (e.src = n ∨ e.tgt = n) ∧ ¬(e.src = n ∧ e.tgt = n)) →
    ∃ g', l.foldlM (Graph.removeTurn n) g = some g' ∧ RLoop n [] a g' := by
  intro l
  induction l with
  | nil => intro g h _ _; exact ⟨g, rfl, h⟩
  | cons k l ih =>
    intro g h hnd hall
    rw [List.nodup_cons] at hnd
    obtain ⟨e, he, hin, hloop⟩ := hall k List.mem_cons_self
    obtain ⟨g1, h1, h1'⟩ := h.step hnd.1 he hin hloop
    obtain ⟨g2, h2, h2'⟩ := ih g1 h1' hnd.2 (fun k hk => hall k (List.mem_cons_of_mem _ hk))
    exact ⟨g2, by rw [List.foldlM_cons, h1]; exact h2, h2'⟩

theorem Rep.removeNodeEdges {g : Graph W} {a : AGraph W} (h : Rep g a) (n : Int)
    (hloop : ∀ (i : Nat) e, a.slots[i]? = some (some e) → ¬(e.src = n ∧ e.tgt = n)) :
    ∃ g', g.removeNodeEdges n = some g' ∧ Rep g' { a with slots := a.slots.map (dropNode n) } := by
  have hmem : ∀ k, k ∈ g.adj n ↔ ∃ e, a.slots[k]? = some (some e) ∧ (e.src = n ∨ e.tgt = n) := by
    intro k
    rw [← List.count_pos_iff, h.adj]
    constructor
    · intro hp
      obtain ⟨e, he, hin⟩ := endCount_pos hp
      exact ⟨e, by
        cases hh : a.slots[k]? with
        | none => rw [hh] at he; simp at he
        | some o => rw [hh] at he; simp at he; rw [he], hin⟩
    · rintro ⟨e, he, hin⟩
      rw [he]
      unfold endCount
      simp only [Option.join_some]
      rcases hin with h1 | h1
      · rw [if_pos h1]; omega
      · rw [if_pos h1]; omega
  have hnd : (g.adj n).Nodup := by
    rw [List.nodup_iff_count_le_one]
    intro i
    rw [h.adj]
    cases hh : a.slots[i]? with
    | none => simp [endCount]
    | some o =>
      cases o with
      | none => simp [endCount]
      | some e =>
        have := hloop i e hh
        unfold endCount
        simp only [Option.join_some]
        split_ifs <;> simp_all
  unfold Graph.removeNodeEdges
  split_ifs with hkey
  · obtain ⟨g1, h1, hl⟩ := RLoop.run (n := n) (a := a) (g.adj n) g
      ⟨h.len, h.nbr, h.nodes, fun i e hi _ => h.live i e hi, h.dead,
        fun i e hi hni hor => absurd ((hmem i).mpr ⟨e, hi, hor⟩) hni, by
          intro m i hm
          rw [h.adj]
          split_ifs with h1
          · rfl
          · congr 1
            cases hh : a.slots[i]? with
            | none => rfl
            | some o =>
              cases o with
              | none => rfl
              | some e =>
                have : ¬(e.src = n ∨ e.tgt = n) := fun hor => h1 ((hmem i).mpr ⟨e, hh, hor⟩)
                simp [dropNode, this], h.keys⟩ hnd
      (fun k hk => by
        obtain ⟨e, he, hin⟩ := (hmem k).mp hk
        exact ⟨e, he, hin, hloop k e he⟩)
    rw [h1]
    refine ⟨_, rfl, ?_⟩
    refine ⟨by simp [hl.len], by simp [hl.nbr], by simp [hl.nodes], ?_, ?_, ?_, ?_, ?_, ?_⟩
    · intro i e hi
      simp only [List.getElem?_map, Option.map_eq_some_iff] at hi
      obtain ⟨o, ho, hd⟩ := hi
      cases o with
      | none => simp [dropNode] at hd
      | some f =>
        simp only [dropNode] at hd
        split_ifs at hd with h2
        simp only [Option.some.injEq] at hd; subst hd
        exact hl.live i f ho (Or.inr (not_or.mp h2))
    · intro i hi
      simp only [List.getElem?_map, Option.map_eq_some_iff] at hi
      obtain ⟨o, ho, hd⟩ := hi
      cases o with
      | none => exact hl.dead i ho
      | some f =>
        simp only [dropNode] at hd
        split_ifs at hd with h2
        exact hl.gone i f ho (by simp) h2
    · intro m i
      simp only
      by_cases hm : m = n
      · subst hm
        simp only [Function.update_self, List.count_nil, List.getElem?_map]
        cases hh : a.slots[i]? with
        | none => simp [endCount]
        | some o =>
          cases o with
          | none => simp [endCount, dropNode]
          | some e =>
            simp only [Option.map_some, Option.join_some, dropNode]
            split_ifs with h2
            · simp [endCount]
            · rw [not_or] at h2; simp [endCount, h2.1, h2.2]
      · rw [Function.update_of_ne hm, hl.adj m i hm]
        simp only [List.not_mem_nil, if_false, List.getElem?_map]
        congr 1
        cases hh : a.slots[i]? with
        | none => rfl
        | some o => cases o <;> simp [dropNode]
    · intro m hm
      simp only at hm ⊢
      by_cases hmn : m = n
      · subst hmn; simp
      · rw [Function.update_of_ne hmn]; exact hl.keys m hm
    · intro i e hi
      simp only [List.getElem?_map, Option.map_eq_some_iff] at hi
      obtain ⟨o, ho, hd⟩ := hi
      cases o with
      | none => simp [dropNode] at hd
      | some f =>
        simp only [dropNode] at hd
        split_ifs at hd with h2
        simp only [Option.some.injEq] at hd; subst hd
        exact h.ends i f ho
    · intro i e hi
      simp only [List.getElem?_map, Option.map_eq_some_iff] at hi
      obtain ⟨o, ho, hd⟩ := hi
      cases o with
      | none => simp [dropNode] at hd
      | some f =>
        simp only [dropNode] at hd
        split_ifs at hd with h2
        simp only [Option.some.injEq] at hd; subst hd
        exact h.pos i f ho
  · refine ⟨g, rfl, ?_⟩
    have hnil := h.keys n hkey
    have : a.slots.map (dropNode n) = a.slots := by
      rw [List.map_congr_left (g := id)]
      · simp
      · intro o ho
        cases o with
        | none => rfl
        | some e =>
          obtain ⟨i, hi⟩ := List.mem_iff_getElem?.mp ho
          have : ¬(e.src = n ∨ e.tgt = n) := fun hor => by
            have := (hmem i).mpr ⟨e, hi, hor⟩
            rw [hnil] at this; simp at this
          simp [dropNode, this]
    rw [this]
    exact h

end Smil
