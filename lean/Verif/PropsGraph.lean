import Verif.MosaicLemmas
import Verif.PropsMorphoAlgebra

/-!
# Properties of the graphs (C44 to C47)
-/

namespace Smil
variable {W : Type}

/-! ## C44: edits -/

/-- The edits of a graph. -/
inductive GOp (W : Type) where
  | addNode (n : Int)
  | addNodeVal (n : Int) (v : W)
  | addEdge (e : GEdge W) (check : Bool)
  | removeNode (n : Int)
  | removeNodeEdges (n : Int)
  | removeEdge (i : Nat)
  | removeEdgeLike (e : GEdge W)
  | removeWhere (p : W → Bool)
  | clear

/-- The edits on the concrete graph; `none`: undefined behaviour. -/
def GOp.run (g : Graph W) : GOp W → Option (Graph W)
  | .addNode n => some (g.addNode n)
  | .addNodeVal n v => some (g.addNodeVal n v)
  | .addEdge e c => some (g.addEdge e c)
  | .removeNode n => g.removeNode n
  | .removeNodeEdges n => g.removeNodeEdges n
  | .removeEdge i => some (g.removeEdge i)
  | .removeEdgeLike e => some (g.removeEdgeLike e)
  | .removeWhere p => some (g.removeWhere p)
  | .clear => some Graph.empty

/-- `e` is in a live slot at index `i` and no live slot before has the same ends. -/
def FirstLike (a : AGraph W) (e : GEdge W) (i : Nat) : Prop :=
  (∃ f, a.slots[i]? = some (some f) ∧ SameEnds f e) ∧
  ∀ j < i, ∀ f, a.slots[j]? = some (some f) → ¬ SameEnds f e

/-- What the edits mean: the relation between the graph before and after. Independent of the concrete
representation: nodes are a set, every edge ever added has a slot, a removed edge leaves an empty
slot, the slots that an edit does not name do not change. -/
inductive GOp.Means (a : AGraph W) : GOp W → AGraph W → Prop
  | addNode (n) : Means a (.addNode n) ⟨insert n a.nodes, a.slots⟩
  | addNodeVal (n v) : Means a (.addNodeVal n v) ⟨insert n a.nodes, a.slots⟩
  | addEdge (e) : Means a (.addEdge e false) ⟨insert e.tgt (insert e.src a.nodes), a.slots ++ [some e]⟩
  | addNew (e) (h : ∀ f, some f ∈ a.slots → ¬ SameEnds f e) :
      Means a (.addEdge e true) ⟨insert e.tgt (insert e.src a.nodes), a.slots ++ [some e]⟩
  | addOld (e f) (h : some f ∈ a.slots) (h' : SameEnds f e) : Means a (.addEdge e true) a
  | removeNode (n) : Means a (.removeNode n) ⟨a.nodes.erase n, a.slots.map (dropNode n)⟩
  | removeNodeEdges (n) : Means a (.removeNodeEdges n) ⟨a.nodes, a.slots.map (dropNode n)⟩
  | removeEdge (i) : Means a (.removeEdge i) ⟨a.nodes, a.slots.set i none⟩
  | removeLike (e i) (h : FirstLike a e i) : Means a (.removeEdgeLike e) ⟨a.nodes, a.slots.set i none⟩
  | removeNone (e) (h : ∀ f, some f ∈ a.slots → ¬ SameEnds f e) : Means a (.removeEdgeLike e) a
  | removeWhere (p) : Means a (.removeWhere p) ⟨a.nodes, a.slots.map (dropIf p)⟩
  | clear : Means a .clear ⟨∅, []⟩

/-- The guard of an edit: no edge from node 0 to itself is added (it is the code of a removed edge), and the
edges of a node with a loop are not removed through the node (undefined behaviour, see
`C44_loop_bug`). -/
def GOp.Ok (a : AGraph W) : GOp W → Prop
  | .addEdge e _ => ¬(e.src = 0 ∧ e.tgt = 0)
  | .removeNode n => ∀ f, some f ∈ a.slots → ¬(f.src = n ∧ f.tgt = n)
  | .removeNodeEdges n => ∀ f, some f ∈ a.slots → ¬(f.src = n ∧ f.tgt = n)
  | _ => True

theorem find_none {a : AGraph W} {e : GEdge W} (h : a.find e = none) :
    ∀ f, some f ∈ a.slots → ¬ SameEnds f e := by
  unfold AGraph.find at h
  rw [List.findIdx?_eq_none_iff] at h
  intro f hf hs
  have := h _ hf
  simp [hs] at this

theorem find_some {a : AGraph W} {e : GEdge W} {i : Nat} (h : a.find e = some i) : FirstLike a e i := by
  unfold AGraph.find at h
  rw [List.findIdx?_eq_some_iff_getElem] at h
  obtain ⟨hi, h1, h2⟩ := h
  refine ⟨?_, ?_⟩
  · cases ho : a.slots[i] with
    | none => rw [ho] at h1; simp at h1
    | some f =>
      rw [ho] at h1
      exact ⟨f, by rw [List.getElem?_eq_getElem hi, ho], by simpa using h1⟩
  · intro j hj f hf hs
    obtain ⟨hjl, hjf⟩ := List.getElem?_eq_some_iff.mp hf
    have := h2 j hj
    rw [hjf] at this
    simp [hs] at this

theorem edit_step {g : Graph W} {a : AGraph W} (h : Rep g a) (op : GOp W) (hok : op.Ok a) :
    ∃ g' a', op.run g = some g' ∧ op.Means a a' ∧ Rep g' a' := by
  cases op with
  | addNode n => exact ⟨_, _, rfl, .addNode n, h.addNode n⟩
  | addNodeVal n v => exact ⟨_, _, rfl, .addNodeVal n v, h.addNodeVal n v⟩
  | addEdge e c =>
    have hp := h.pushEdge e hok
    cases c with
    | false => exact ⟨_, _, rfl, .addEdge e, by simpa [Graph.addEdge] using hp⟩
    | true =>
      cases hf : a.find e with
      | none =>
        refine ⟨_, _, rfl, .addNew e (find_none hf), ?_⟩
        have : g.findEdge e = none := by rw [h.find e hok, hf]
        simpa [Graph.addEdge, this] using hp
      | some i =>
        obtain ⟨⟨f, hi, hs⟩, _⟩ := find_some hf
        refine ⟨_, _, rfl, .addOld e f (List.mem_of_getElem? hi) hs, ?_⟩
        have : g.findEdge e = some i := by rw [h.find e hok, hf]
        simpa [Graph.addEdge, this] using h
  | removeNode n =>
    have hl : ∀ (i : Nat) e, a.slots[i]? = some (some e) → ¬(e.src = n ∧ e.tgt = n) :=
      fun i e hi => hok e (List.mem_of_getElem? hi)
    -- the edges go as in `removeNodeEdges`, the set of nodes is not read
    obtain ⟨g1, h1, hr⟩ := h.removeNodeEdges n hl
    have key : ∀ (l : List Nat) (g : Graph W) (N : Finset Int),
        l.foldlM (Graph.removeTurn n) { g with nodes := N } =
          (l.foldlM (Graph.removeTurn n) g).map fun g' => { g' with nodes := N } := by
      intro l
      induction l with
      | nil => intro g N; rfl
      | cons i l ih =>
        intro g N
        rw [List.foldlM_cons, List.foldlM_cons]
        have ht : Graph.removeTurn n { g with nodes := N } i =
            (Graph.removeTurn n g i).map fun g' => { g' with nodes := N } := by
          unfold Graph.removeTurn
          cases g.edges[i]? with
          | none => rfl
          | some e =>
            simp only
            generalize (if e.src = n then e.tgt else e.src) = o
            unfold Graph.removeNodeEdge
            by_cases h1 : o = n
            · simp [h1]
            · by_cases h2 : o ∈ g.keys <;> simp [h1, h2]
        rw [ht]
        cases Graph.removeTurn n g i with
        | none => rfl
        | some g' => exact ih g' N
    have hrun : Graph.removeNodeEdges { g with nodes := g.nodes.erase n } n =
        some { g1 with nodes := g.nodes.erase n } := by
      unfold Graph.removeNodeEdges at h1 ⊢
      simp only
      rw [key]
      split_ifs at h1 ⊢ with hk
      · cases hf : (g.adj n).foldlM (Graph.removeTurn n) g with
        | none => rw [hf] at h1; simp at h1
        | some g' =>
          rw [hf] at h1
          simp only [Option.some.injEq] at h1
          rw [← h1]; rfl
      · simp only [Option.some.injEq] at h1
        rw [← h1]
    refine ⟨_, _, hrun, .removeNode n, ?_⟩
    refine ⟨hr.len, hr.nbr, ?_, hr.live, hr.dead, hr.adj, hr.keys, ?_, hr.pos⟩
    · simp [h.nodes]
    · intro i e hi
      have hi' := hi
      simp only [List.getElem?_map, Option.map_eq_some_iff] at hi'
      obtain ⟨o, ho, hd⟩ := hi'
      have := hr.ends i e hi
      cases o with
      | none => simp [dropNode] at hd
      | some f =>
        simp only [dropNode] at hd
        split_ifs at hd with h2
        simp only [Option.some.injEq] at hd; subst hd
        rw [not_or] at h2
        exact ⟨Finset.mem_erase.mpr ⟨h2.1, this.1⟩, Finset.mem_erase.mpr ⟨h2.2, this.2⟩⟩
  | removeNodeEdges n =>
    obtain ⟨g1, h1, hr⟩ := h.removeNodeEdges n (fun i e hi => hok e (List.mem_of_getElem? hi))
    exact ⟨g1, _, h1, .removeNodeEdges n, hr⟩
  | removeEdge i => exact ⟨_, _, rfl, .removeEdge i, h.removeEdge i⟩
  | removeEdgeLike e =>
    by_cases h0 : e.src = 0 ∧ e.tgt = 0
    · -- only removed edges look like this one
      have hno : ∀ f, some f ∈ a.slots → ¬ SameEnds f e := by
        intro f hf hs
        obtain ⟨i, hi⟩ := List.mem_iff_getElem?.mp hf
        apply h.pos i f hi
        unfold SameEnds at hs
        omega
      refine ⟨_, a, rfl, .removeNone e hno, ?_⟩
      unfold Graph.removeEdgeLike
      cases hf : g.findEdge e with
      | none => exact h
      | some i =>
        simp only
        have hr := h.removeEdge i
        unfold Graph.findEdge at hf
        rw [List.findIdx?_eq_some_iff_getElem] at hf
        obtain ⟨hi, h1, _⟩ := hf
        have hil : i < a.slots.length := by rw [← h.len]; exact hi
        have hnone : a.slots[i]? = some none := by
          cases ho : a.slots[i]? with
          | none => rw [List.getElem?_eq_none_iff] at ho; omega
          | some o =>
            cases o with
            | none => rfl
            | some f =>
              have h2 := h.live i f ho
              rw [List.getElem?_eq_getElem hi] at h2
              simp only [Option.some.injEq] at h2
              rw [h2] at h1
              exact absurd ((same_iff _ _).mp h1) (hno f (List.mem_of_getElem? ho))
        have : a.slots.set i none = a.slots := by
          apply List.ext_getElem?
          intro j
          rw [List.getElem?_set]
          by_cases hij : i = j
          · subst hij; rw [if_pos rfl, if_pos hil, hnone]
          · rw [if_neg hij]
        rw [this] at hr
        exact hr
    · simp only [GOp.run, Graph.removeEdgeLike]
      rw [h.find e h0]
      cases hf : a.find e with
      | none => exact ⟨_, _, rfl, .removeNone e (find_none hf), h⟩
      | some i => exact ⟨_, _, rfl, .removeLike e i (find_some hf), h.removeEdge i⟩
  | removeWhere p => exact ⟨_, _, rfl, .removeWhere p, h.removeWhere p⟩
  | clear => exact ⟨_, _, rfl, .clear, Rep.empty⟩

/-- A history of edits and what it means; every edit respects its guard in the state where it is
applied. -/
inductive History : List (GOp W) → AGraph W → Prop
  | nil : History [] ⟨∅, []⟩
  | snoc {ops a op a'} : History ops a → op.Ok a → op.Means a a' → History (ops ++ [op]) a'

/-- The concrete graph after a history. -/
def runOps (ops : List (GOp W)) : Option (Graph W) := ops.foldlM (fun g op => op.run g) Graph.empty

/-- What a user can observe of the graph agrees with the abstract one: the same nodes; the number of edges is
the number of slots; a live slot is the edge with its weight and an empty one a deactivated edge; the
list of each node has the index of each live edge as often as the edge has this node as an end, and
nothing else. -/
structure Observed (g : Graph W) (a : AGraph W) : Prop where
  nodes : g.nodes = a.nodes
  number : g.edges.length = a.slots.length
  live : ∀ (i : Nat) e, a.slots[i]? = some (some e) ↔ (g.edges[i]? = some e ∧ e.isActive = true)
  adj : ∀ n (i : Nat), i ∈ g.adj n ↔ ∃ e, g.edges[i]? = some e ∧ e.isActive = true ∧ (e.src = n ∨ e.tgt = n)
  once : ∀ n (i : Nat) e, g.edges[i]? = some e → e.isActive = true → (g.adj n).count i =
    (if e.src = n then 1 else 0) + (if e.tgt = n then 1 else 0)
  ends : ∀ e ∈ g.edges, e.isActive = true → e.src ∈ g.nodes ∧ e.tgt ∈ g.nodes

theorem Rep.observed {g : Graph W} {a : AGraph W} (h : Rep g a) : Observed g a := by
  have hact : ∀ e : GEdge W, e.isActive = true ↔ ¬(e.src = 0 ∧ e.tgt = 0) := by
    intro e; unfold GEdge.isActive; rw [decide_eq_true_eq]; omega
  have hlive : ∀ (i : Nat) e, a.slots[i]? = some (some e) ↔ (g.edges[i]? = some e ∧ e.isActive = true) := by
    intro i e
    constructor
    · intro hi; exact ⟨h.live i e hi, (hact e).mpr (h.pos i e hi)⟩
    · rintro ⟨hi, ha⟩
      have hil : i < a.slots.length := by
        rw [← h.len]; exact (List.getElem?_eq_some_iff.mp hi).1
      cases ho : a.slots[i]? with
      | none => rw [List.getElem?_eq_none_iff] at ho; omega
      | some o =>
        cases o with
        | none =>
          obtain ⟨w, hw⟩ := h.dead i ho
          rw [hw] at hi; simp only [Option.some.injEq] at hi
          rw [← hi] at ha; simp [GEdge.isActive] at ha
        | some f => rw [h.live i f ho] at hi; simp only [Option.some.injEq] at hi; rw [hi]
  refine ⟨h.nodes, h.len, hlive, ?_, ?_, ?_⟩
  · intro n i
    rw [h.mem_adj]
    constructor
    · rintro ⟨e, he, hor⟩; exact ⟨e, ((hlive i e).mp he).1, ((hlive i e).mp he).2, hor⟩
    · rintro ⟨e, he, ha, hor⟩; exact ⟨e, (hlive i e).mpr ⟨he, ha⟩, hor⟩
  · intro n i e he ha
    rw [h.adj, (hlive i e).mpr ⟨he, ha⟩]; rfl
  · intro e he ha
    obtain ⟨i, hi⟩ := List.mem_iff_getElem?.mp he
    rw [h.nodes]
    exact h.ends i e ((hlive i e).mpr ⟨hi, ha⟩)

theorem history_rep {ops : List (GOp W)} {a : AGraph W} (h : History ops a) :
    ∃ g, runOps ops = some g ∧ Rep g a := by
  induction h with
  | nil => exact ⟨Graph.empty, rfl, Rep.empty⟩
  | @snoc ops a op a' _ hok hm ih =>
    obtain ⟨g, hg, hr⟩ := ih
    obtain ⟨g', a2, h1, h2, h3⟩ := edit_step hr op hok
    have : a2 = a' := by
      clear h1 h3 hr
      cases h2 <;> cases hm <;> first
        | rfl
        | (rename_i h h' f h1 h2; exact absurd h2 (h f h1))
        | (rename_i f h1 h2 h; exact absurd h2 (h f h1))
        | skip
      all_goals (try (rename_i h1 f h2 h3; exact absurd h3 (h1 f h2)))
      all_goals (try (rename_i f h2 h3 h1; exact absurd h3 (h1 f h2)))
      · rename_i e i hi j hj
        have : i = j := by
          obtain ⟨⟨f, hf, hs⟩, hmin⟩ := hi
          obtain ⟨⟨f', hf', hs'⟩, hmin'⟩ := hj
          rcases Nat.lt_trichotomy i j with hlt | heq | hgt
          · exact absurd hs (hmin' i hlt f hf)
          · exact heq
          · exact absurd hs' (hmin j hgt f' hf')
        rw [this]
      · rename_i e i hi hj
        obtain ⟨⟨f, hf, hs⟩, _⟩ := hi
        exact absurd hs (hj f (List.mem_of_getElem? hf))
      · rename_i e hj i hi
        obtain ⟨⟨f, hf, hs⟩, _⟩ := hi
        exact absurd hs (hj f (List.mem_of_getElem? hf))
    subst this
    refine ⟨g', ?_, h3⟩
    unfold runOps at hg ⊢
    rw [List.foldlM_append, hg]
    simp only [Option.bind_eq_bind, Option.bind_some, List.foldlM_cons, List.foldlM_nil]
    rw [h1]; rfl

/-- **C44** (partial: histories that respect the guards of `GOp.Ok`): after any history of edits the graph is
defined and is what the edits mean: each edit changes exactly the items that it names, and the
adjacency lists index exactly the active edges that touch each node. -/
theorem C44_edits_partial (ops : List (GOp W)) (a : AGraph W) (h : History ops a) :
    ∃ g, runOps ops = some g ∧ Observed g a := by
  obtain ⟨g, h1, h2⟩ := history_rep h
  exact ⟨g, h1, h2.observed⟩

/-- Every edit that respects its guard has a meaning: histories can always be continued. -/
theorem C44_progress_partial (ops : List (GOp W)) (a : AGraph W) (h : History ops a) (op : GOp W)
    (hok : op.Ok a) : ∃ a', History (ops ++ [op]) a' := by
  obtain ⟨g, _, hr⟩ := history_rep h
  obtain ⟨g', a', _, h2, _⟩ := edit_step hr op hok
  exact ⟨a', .snoc h hok h2⟩

/-- **C44** (partial: same guards): when the existence of edges is always checked, two active edges never have
the same ends. -/
theorem C44_no_parallel_partial (ops : List (GOp W)) (a : AGraph W) (h : History ops a)
    (hc : ∀ e, GOp.addEdge e false ∉ ops) :
    ∃ g, runOps ops = some g ∧ ∀ (i j : Nat) e f, i ≠ j → g.edges[i]? = some e → g.edges[j]? = some f →
      e.isActive = true → f.isActive = true → ¬ SameEnds e f := by
  have key : ∀ (i j : Nat) e f, i ≠ j → a.slots[i]? = some (some e) → a.slots[j]? = some (some f) →
      ¬ SameEnds e f := by
    induction h with
    | nil => intro i j e f _ hi; simp at hi
    | @snoc ops a op a' _ hok hm ih =>
      have ih := ih (fun e he => hc e (by simp [he]))
      have hop : ∀ e, op ≠ .addEdge e false := by
        rintro e rfl; exact hc e (by simp)
      have hsub : ∀ F : Option (GEdge W) → Option (GEdge W), (∀ o e, F o = some e → o = some e) →
          ∀ (i j : Nat) e f, i ≠ j → (a.slots.map F)[i]? = some (some e) →
            (a.slots.map F)[j]? = some (some f) → ¬ SameEnds e f := by
        intro F hF i j e f hij hi hj
        simp only [List.getElem?_map, Option.map_eq_some_iff] at hi hj
        obtain ⟨o, ho, he⟩ := hi
        obtain ⟨o', ho', hf⟩ := hj
        rw [hF _ _ he] at ho; rw [hF _ _ hf] at ho'
        exact ih i j e f hij ho ho'
      have hset : ∀ k (i j : Nat) e f, i ≠ j → (a.slots.set k none)[i]? = some (some e) →
            (a.slots.set k none)[j]? = some (some f) → ¬ SameEnds e f := by
        intro k i j e f hij hi hj
        rw [List.getElem?_set] at hi hj
        split_ifs at hi hj <;> simp_all
        exact ih i j e f hij hi hj
      have hnode : ∀ n (o : Option (GEdge W)) e, dropNode n o = some e → o = some e := by
        intro n o e ho
        cases o with
        | none => simp [dropNode] at ho
        | some f => simp only [dropNode] at ho; split_ifs at ho; exact ho
      have hif : ∀ p (o : Option (GEdge W)) e, dropIf p o = some e → o = some e := by
        intro n o e ho
        cases o with
        | none => simp [dropIf] at ho
        | some f => simp only [dropIf] at ho; split_ifs at ho; exact ho
      cases hm with
      | addNode => exact ih
      | addNodeVal => exact ih
      | addEdge e => exact absurd rfl (hop e)
      | addNew e hn =>
        intro i j x y hij hi hj hs
        have hget : ∀ i, (a.slots ++ [some e])[i]? =
            if i = a.slots.length then some (some e) else a.slots[i]? := by
          intro i
          rw [List.getElem?_append]
          split_ifs with h1 h2 h2
          · omega
          · rfl
          · subst h2; simp
          · rw [List.getElem?_eq_none (by simp; omega), List.getElem?_eq_none (by omega)]
        rw [hget] at hi hj
        split_ifs at hi hj with h1 h2 h2
        · omega
        · simp only [Option.some.injEq] at hi; subst hi
          exact hn y (List.mem_of_getElem? hj) (by unfold SameEnds at hs ⊢; omega)
        · simp only [Option.some.injEq] at hj; subst hj
          exact hn x (List.mem_of_getElem? hi) hs
        · exact ih i j x y hij hi hj hs
      | addOld => exact ih
      | removeNode n => exact hsub _ (hnode n)
      | removeNodeEdges n => exact hsub _ (hnode n)
      | removeEdge k => exact hset k
      | removeLike e k => exact hset k
      | removeNone => exact ih
      | removeWhere p => exact hsub _ (hif p)
      | clear => intro i j e f _ hi; simp at hi
  obtain ⟨g, h1, h2⟩ := C44_edits_partial ops a h
  refine ⟨g, h1, ?_⟩
  intro i j e f hij hi hj ha hb
  exact key i j e f hij ((h2.live i e).mpr ⟨hi, ha⟩) ((h2.live j f).mpr ⟨hj, hb⟩)

/-- Why the first guard: once an edge has been removed, `addEdge(0, 0)` finds the removed one and adds
nothing. -/
theorem C44_zero_bug : ∃ g : Graph Int, runOps [.addEdge ⟨1, 2, 5⟩ true, .removeEdge 0, .addEdge ⟨0, 0, 7⟩ true]
    = some g ∧ g.edges.length = 1 ∧ (0 : Int) ∉ g.nodes := by
  refine ⟨_, rfl, ?_, ?_⟩ <;> decide

/-- Why the second guard: removing the edges of a node with a loop erases from the vector that is being
iterated over. -/
theorem C44_loop_bug {g : Graph W} {a : AGraph W} (h : Rep g a) (n : Int) (e : GEdge W) (rest : List Nat)
    (i : Nat) (hi : a.slots[i]? = some (some e)) (hl : e.src = n ∧ e.tgt = n) (hadj : g.adj n = i :: rest) :
    g.removeNodeEdges n = none := by
  have hk : n ∈ g.keys := by
    by_contra hc
    rw [h.keys n hc] at hadj; simp at hadj
  unfold Graph.removeNodeEdges
  rw [if_pos hk, hadj, List.foldlM_cons]
  have : Graph.removeTurn n g i = none := by
    unfold Graph.removeTurn
    rw [h.live i e hi]
    simp [hl.1, hl.2]
  rw [this]; rfl

/-- The documentation of `addEdge` announces the smaller of the two weights for an edge that exists; the
weight does not change. -/
theorem C44_min_weight_bug : ∃ g : Graph Int,
    runOps [.addEdge ⟨1, 2, 5⟩ true, .addEdge ⟨1, 2, 3⟩ true] = some g ∧ g.edges = [⟨1, 2, 5⟩] := by
  exact ⟨_, rfl, by decide⟩

/-- **C44**, sorting (partial: no removed edge): re-adding a permutation of the edges gives a graph with these
edges, whose adjacency lists are right, with the nodes that have an edge. -/
theorem C44_sort_partial {g : Graph W} {a : AGraph W} (h : Rep g a) (hlive : ∀ o ∈ a.slots, o ≠ none)
    (s : List (GEdge W)) (hs : s.Perm g.edges) :
    (g.readd s).edges = s ∧ (∃ N, Observed (g.readd s) ⟨N, s.map some⟩) ∧
      ∀ n, n ∈ (g.readd s).nodes ↔ ∃ e ∈ g.edges, e.src = n ∨ e.tgt = n := by
  have hpos : ∀ e ∈ s, ¬(e.src = 0 ∧ e.tgt = 0) := by
    intro e he
    obtain ⟨i, hi⟩ := List.mem_iff_getElem?.mp (hs.mem_iff.mp he)
    have hil : i < a.slots.length := by rw [← h.len]; exact (List.getElem?_eq_some_iff.mp hi).1
    obtain ⟨f, hf⟩ := Option.ne_none_iff_exists'.mp (hlive _ (List.getElem_mem hil))
    have hif : a.slots[i]? = some (some f) := by rw [List.getElem?_eq_getElem hil, hf]
    have := h.live i f hif
    rw [hi] at this; simp only [Option.some.injEq] at this; subst this
    exact h.pos i e hif
  have key : ∀ (s pre : List (GEdge W)) (G : Graph W), (∀ e ∈ s, ¬(e.src = 0 ∧ e.tgt = 0)) →
      Rep G ⟨G.nodes, pre.map some⟩ → G.edges = pre →
      (∀ n, n ∈ G.nodes ↔ ∃ e ∈ pre, e.src = n ∨ e.tgt = n) →
      (s.foldl Graph.pushEdge G).edges = pre ++ s ∧
      Rep (s.foldl Graph.pushEdge G) ⟨(s.foldl Graph.pushEdge G).nodes, (pre ++ s).map some⟩ ∧
      ∀ n, n ∈ (s.foldl Graph.pushEdge G).nodes ↔ ∃ e ∈ pre ++ s, e.src = n ∨ e.tgt = n := by
    intro s
    induction s with
    | nil => intro pre G _ hr he hn; simpa using ⟨he, hr, hn⟩
    | cons e s ih =>
      intro pre G hp hr he hn
      have hN : (G.pushEdge e).nodes = insert e.tgt (insert e.src G.nodes) := by
        simp [Graph.pushEdge, Graph.pushAdj]
      have := ih (pre ++ [e]) (G.pushEdge e) (fun f hf => hp f (List.mem_cons_of_mem _ hf))
        (by
          have := hr.pushEdge e (hp e List.mem_cons_self)
          rw [hN]; simpa using this)
        (by simp [Graph.pushEdge, Graph.pushAdj, he])
        (by
          intro n
          rw [hN]
          simp only [Finset.mem_insert, hn, List.mem_append, List.mem_singleton]
          constructor
          · rintro (rfl | rfl | ⟨f, hf, h1⟩)
            · exact ⟨e, Or.inr rfl, Or.inr rfl⟩
            · exact ⟨e, Or.inr rfl, Or.inl rfl⟩
            · exact ⟨f, Or.inl hf, h1⟩
          · rintro ⟨f, hf | rfl, h1⟩
            · exact Or.inr (Or.inr ⟨f, hf, h1⟩)
            · rcases h1 with h1 | h1
              · exact Or.inr (Or.inl h1.symm)
              · exact Or.inl h1.symm)
      simpa using this
  have hinit : Rep ({ Graph.empty with vals := g.vals } : Graph W) ⟨∅, ([] : List (GEdge W)).map some⟩ := by
    have := (Rep.empty : Rep (Graph.empty : Graph W) ⟨∅, []⟩)
    exact ⟨this.len, this.nbr, this.nodes, this.live, this.dead, this.adj, this.keys, this.ends, this.pos⟩
  obtain ⟨h1, h2, h3⟩ := key s [] { Graph.empty with vals := g.vals } hpos hinit rfl (by simp [Graph.empty])
  refine ⟨h1, ⟨_, h2.observed⟩, ?_⟩
  intro n
  refine (h3 n).trans ?_
  simp only [List.nil_append]
  constructor
  · rintro ⟨e, he, hn⟩; exact ⟨e, hs.mem_iff.mp he, hn⟩
  · rintro ⟨e, he, hn⟩; exact ⟨e, hs.mem_iff.mpr he, hn⟩

/-- After a removal `sortEdges` turns the removed edge into a loop at node 0, which becomes a node, and the
nodes without edges are lost. -/
theorem C44_sort_bug : ∃ g : Graph Int,
    runOps [.addEdge ⟨1, 2, 5⟩ true, .addNode 7, .addEdge ⟨2, 3, 1⟩ true, .removeEdge 0] = some g ∧
    g.nodes = {1, 2, 3, 7} ∧ (g.readd [⟨0, 0, 5⟩, ⟨2, 3, 1⟩]).nodes = {0, 2, 3} ∧
    (g.readd [⟨0, 0, 5⟩, ⟨2, 3, 1⟩]).adj 0 = [0, 0] := by
  refine ⟨_, rfl, ?_, ?_, ?_⟩ <;> decide

/-- A history that meets the hypotheses. -/
theorem exHistory : History (W := Int)
    [.addEdge ⟨1, 2, 5⟩ true, .addEdge ⟨2, 3, 7⟩ true, .addEdge ⟨3, 2, 9⟩ true, .removeNodeEdges 1]
    ⟨{1, 2, 3}, [none, some ⟨2, 3, 7⟩]⟩ := by
  have h1 : History (W := Int) [.addEdge ⟨1, 2, 5⟩ true] ⟨insert 2 (insert 1 ∅), [some ⟨1, 2, 5⟩]⟩ :=
    .snoc .nil (by simp [GOp.Ok]) (.addNew ⟨1, 2, 5⟩ (by simp))
  have h2 := History.snoc h1 (op := .addEdge ⟨2, 3, 7⟩ true) (by simp [GOp.Ok])
    (.addNew ⟨2, 3, 7⟩ (by simp [SameEnds]))
  have h3 := History.snoc h2 (op := .addEdge ⟨3, 2, 9⟩ true) (by simp [GOp.Ok])
    (.addOld ⟨3, 2, 9⟩ ⟨2, 3, 7⟩ (by simp) (by simp [SameEnds]))
  have h4 := History.snoc h3 (op := .removeNodeEdges 1) (by simp [GOp.Ok]) (.removeNodeEdges 1)
  have hn : ({3, 2, 1} : Finset Int) = {1, 2, 3} := by decide
  simpa [dropNode, hn] using h4

/-- Its result, computed. -/
example : ∃ g : Graph Int, runOps [.addEdge ⟨1, 2, 5⟩ true, .addEdge ⟨2, 3, 7⟩ true, .addEdge ⟨3, 2, 9⟩ true,
      GOp.removeNodeEdges 1] = some g ∧ g.edges = [⟨0, 0, 5⟩, ⟨2, 3, 7⟩] ∧ g.adj 2 = [1] ∧ g.adj 1 = [] ∧
      g.nodes = {1, 2, 3} :=
  ⟨_, rfl, by decide, by decide, by decide, by decide⟩

/-! ## C45: minimum spanning tree -/

/-- The keys of the adjacency map are nodes, as long as no node is removed (`removeNode` is protected, a user
cannot call it). -/
theorem run_keys {g g' : Graph W} (op : GOp W) (hop : ∀ n, op ≠ .removeNode n) (h : op.run g = some g')
    (hk : g.keys ⊆ g.nodes) : g'.keys ⊆ g'.nodes := by
  have hrne : ∀ (g : Graph W) n i, (g.removeNodeEdge n i).keys = g.keys ∧
      (g.removeNodeEdge n i).nodes = g.nodes := by
    intro g n i; unfold Graph.removeNodeEdge; split_ifs <;> exact ⟨rfl, rfl⟩
  have hre : ∀ (g : Graph W) i, (g.removeEdge i).keys = g.keys ∧ (g.removeEdge i).nodes = g.nodes := by
    intro g i
    unfold Graph.removeEdge
    cases g.edges[i]? with
    | none => exact ⟨rfl, rfl⟩
    | some e =>
      exact ⟨(hrne _ _ _).1.trans (hrne _ _ _).1, (hrne _ _ _).2.trans (hrne _ _ _).2⟩
  cases op with
  | addNode n =>
    simp only [GOp.run, Option.some.injEq] at h; subst h
    exact hk.trans (Finset.subset_insert _ _)
  | addNodeVal n v =>
    simp only [GOp.run, Option.some.injEq] at h; subst h
    exact hk.trans (Finset.subset_insert _ _)
  | addEdge e c =>
    simp only [GOp.run, Option.some.injEq] at h; subst h
    unfold Graph.addEdge
    split_ifs
    · exact hk
    · intro v hv
      simp only [Graph.pushEdge, Graph.pushAdj, Finset.mem_insert] at hv ⊢
      rcases hv with h1 | h1 | h1
      · exact Or.inl h1
      · exact Or.inr (Or.inl h1)
      · exact Or.inr (Or.inr (hk h1))
  | removeNode n => exact absurd rfl (hop n)
  | removeNodeEdges n =>
    simp only [GOp.run, Graph.removeNodeEdges] at h
    have key : ∀ (l : List Nat) (g g1 : Graph W), l.foldlM (Graph.removeTurn n) g = some g1 →
        g1.keys = g.keys ∧ g1.nodes = g.nodes := by
      intro l
      induction l with
      | nil => intro g g1 h; simp only [List.foldlM_nil] at h; cases h; exact ⟨rfl, rfl⟩
      | cons i l ih =>
        intro g g1 h
        rw [List.foldlM_cons] at h
        cases ht : Graph.removeTurn n g i with
        | none => rw [ht] at h; simp at h
        | some g2 =>
          rw [ht] at h
          have h2 := ih g2 g1 h
          have h3 : g2.keys = g.keys ∧ g2.nodes = g.nodes := by
            unfold Graph.removeTurn at ht
            cases he : g.edges[i]? with
            | none => rw [he] at ht; simp at ht
            | some e =>
              rw [he] at ht
              simp only at ht
              split_ifs at ht <;>
              · simp only [Option.some.injEq] at ht
                rw [← ht]
                exact hrne _ _ _
          exact ⟨h2.1.trans h3.1, h2.2.trans h3.2⟩
    split_ifs at h
    · cases hf : (g.adj n).foldlM (Graph.removeTurn n) g with
      | none => rw [hf] at h; simp at h
      | some g1 =>
        rw [hf] at h
        simp only [Option.some.injEq] at h
        have := key _ _ _ hf
        rw [← h]
        simp only [this.1, this.2]
        exact hk
    · simp only [Option.some.injEq] at h; rw [← h]; exact hk
  | removeEdge i =>
    simp only [GOp.run, Option.some.injEq] at h; subst h
    rw [(hre _ _).1, (hre _ _).2]; exact hk
  | removeEdgeLike e =>
    simp only [GOp.run, Option.some.injEq] at h; subst h
    unfold Graph.removeEdgeLike
    cases g.findEdge e with
    | none => exact hk
    | some i => simp only; rw [(hre _ _).1, (hre _ _).2]; exact hk
  | removeWhere p =>
    simp only [GOp.run, Option.some.injEq] at h; subst h
    unfold Graph.removeWhere
    have key : ∀ (l : List Nat) (g : Graph W), (l.foldl (Graph.removeIf p) g).keys = g.keys ∧
        (l.foldl (Graph.removeIf p) g).nodes = g.nodes := by
      intro l
      induction l with
      | nil => intro g; exact ⟨rfl, rfl⟩
      | cons i l ih =>
        intro g
        have : (Graph.removeIf p g i).keys = g.keys ∧ (Graph.removeIf p g i).nodes = g.nodes := by
          unfold Graph.removeIf
          cases g.edges[i]? with
          | none => exact ⟨rfl, rfl⟩
          | some e => simp only; split_ifs <;> [exact hre _ _; exact ⟨rfl, rfl⟩]
        exact ⟨(ih _).1.trans this.1, (ih _).2.trans this.2⟩
    rw [(key _ _).1, (key _ _).2]; exact hk
  | clear =>
    simp only [GOp.run, Option.some.injEq] at h; subst h
    exact Finset.Subset.refl _

theorem history_keys {ops : List (GOp W)} (hop : ∀ n, GOp.removeNode n ∉ ops) {g : Graph W}
    (h : runOps ops = some g) : g.keys ⊆ g.nodes := by
  induction ops using List.reverseRecOn generalizing g with
  | nil => simp only [runOps, List.foldlM_nil] at h; cases h; exact Finset.Subset.refl _
  | append_singleton ops op ih =>
    unfold runOps at h ih
    rw [List.foldlM_append] at h
    cases h0 : List.foldlM (fun g op => GOp.run g op) Graph.empty ops with
    | none => rw [h0] at h; simp at h
    | some g0 =>
      rw [h0] at h
      simp only [Option.bind_eq_bind, Option.bind_some, List.foldlM_cons, List.foldlM_nil] at h
      cases h1 : op.run g0 with
      | none => rw [h1] at h; simp at h
      | some g1 =>
        rw [h1] at h
        simp only [Option.bind_some] at h
        cases h
        refine run_keys op ?_ h1 (ih (fun n hn => hop n (by simp [hn])) h0)
        rintro n rfl
        exact hop n (by simp)

/-- **C45** (partial: two nodes at least, edits that respect the guards of C44): on a connected graph,
whichever smallest edge the priority queue gives first among equal ones, `graphMST` succeeds; the
result has the same nodes, its edges are edges of the graph, it is a tree (connected, one edge less
than nodes), no spanning tree of the graph weighs less, and if the weights are not negative no
connected set of edges at all does. -/
theorem C45_mst_partial (ops : List (GOp Int)) (hop : ∀ n, GOp.removeNode n ∉ ops) (a : AGraph Int)
    (h : History ops a) (h2 : 2 ≤ a.nodes.card) (hc : ∀ u ∈ a.nodes, ∀ v ∈ a.nodes, a.Linked u v)
    (pick : List E → Option (E × List E)) (hp : Picks pick) :
    ∃ g m, runOps ops = some g ∧ g.mst pick = .ok m ∧ m.nodes = a.nodes ∧ m.vals = g.vals ∧
      Observed m ⟨m.nodes, m.edges.map some⟩ ∧
      (∀ e ∈ m.edges, e ∈ g.edges ∧ e.isActive = true) ∧ m.edges.length + 1 = a.nodes.card ∧
      (∀ u ∈ a.nodes, ∀ v ∈ a.nodes, Conn (m.edges : Multiset E) u v) ∧
      (∀ S, Spans a S → Multiset.card S + 1 = a.nodes.card → totalW m.edges ≤ totalW S) ∧
      ((∀ e ∈ g.edges, 0 ≤ e.weight) → ∀ S, Spans a S → totalW m.edges ≤ totalW S) := by
  obtain ⟨g, hg, hr⟩ := history_rep h
  have hk : g.keys ⊆ a.nodes := by rw [← hr.nodes]; exact history_keys hop hg
  have hne : g.keys.Nonempty := by
    obtain ⟨u, hu, v, hv, huv⟩ := Finset.one_lt_card.mp (show 1 < a.nodes.card by omega)
    have hl := hc u hu v hv
    rcases Relation.ReflTransGen.cases_head hl with h1 | ⟨w, ⟨e, he, hj⟩, _⟩
    · exact absurd h1 huv
    · obtain ⟨i, hi⟩ := List.mem_iff_getElem?.mp he
      have : i ∈ g.adj e.src := (hr.mem_adj).mpr ⟨e, hi, Or.inl rfl⟩
      refine ⟨e.src, ?_⟩
      by_contra hn
      rw [hr.keys _ hn] at this
      simp at this
  obtain ⟨m, h1, hv, hm, hnodes, hlive, hcard, hconn, hmin⟩ := mst_spec hr hp hne hk hc
  have hlv : ∀ e, a.live e → e ∈ g.edges ∧ e.isActive = true := by
    intro e he
    obtain ⟨i, hi⟩ := List.mem_iff_getElem?.mp he
    have := (hr.observed.live i e).mp hi
    exact ⟨List.mem_of_getElem? this.1, this.2⟩
  refine ⟨g, m, hg, h1, ?_, hv, hm.observed, fun e he => hlv e (hlive e he), hcard, hconn, ?_, ?_⟩
  · rcases hnodes with h3 | h3
    · exact h3
    · omega
  · intro S hS hSc
    obtain ⟨S', hle, _, hc', hw⟩ := hmin S hS
    have : (m.edges : Multiset E) = S' := by
      apply Multiset.eq_of_le_of_card_le hle
      simp only [Multiset.coe_card]; omega
    rw [this]; exact hw
  · intro hpos S hS
    obtain ⟨S', hle, hl', _, hw⟩ := hmin S hS
    refine le_trans ?_ hw
    obtain ⟨T, rfl⟩ := Multiset.le_iff_exists_add.mp hle
    have : 0 ≤ totalW T := by
      unfold totalW
      apply Multiset.sum_nonneg
      intro x hx
      obtain ⟨e, he, rfl⟩ := Multiset.mem_map.mp hx
      exact hpos e (hlv e (hl' e (Multiset.mem_add.mpr (Or.inr he)))).1
    unfold totalW at this ⊢
    rw [Multiset.map_add, Multiset.sum_add]
    omega

/-- A choice: the first of the smallest edges. -/
def pickFirst (q : List E) : Option (E × List E) :=
  (q.find? fun e => q.all fun f => decide (e.weight ≤ f.weight)).map fun e => (e, q.erase e)

theorem pickFirst_picks : Picks pickFirst := by
  refine ⟨rfl, ?_⟩
  intro q hq
  have hex : ∃ e ∈ q, ∀ f ∈ q, e.weight ≤ f.weight := by
    induction q with
    | nil => exact absurd rfl hq
    | cons e q ih =>
      by_cases hq0 : q = []
      · subst hq0; exact ⟨e, by simp, by simp⟩
      · obtain ⟨f, hf, hmin⟩ := ih hq0
        by_cases hle : e.weight ≤ f.weight
        · exact ⟨e, by simp, by
            intro x hx
            rcases List.mem_cons.mp hx with rfl | hx
            · exact le_refl _
            · exact hle.trans (hmin x hx)⟩
        · exact ⟨f, by simp [hf], by
            intro x hx
            rcases List.mem_cons.mp hx with rfl | hx
            · omega
            · exact hmin x hx⟩
  cases hf : q.find? fun e => q.all fun f => decide (e.weight ≤ f.weight) with
  | none =>
    obtain ⟨e, he, hmin⟩ := hex
    have := List.find?_eq_none.mp hf e he
    simp only [List.all_eq_true, decide_eq_true_eq] at this
    exact absurd hmin this
  | some e =>
    have h1 := List.find?_some hf
    simp only [List.all_eq_true, decide_eq_true_eq] at h1
    exact ⟨e, q.erase e, by simp [pickFirst, hf], List.perm_cons_erase (List.mem_of_find?_eq_some hf), h1⟩

/-- A triangle: the heaviest edge is left out. -/
example : (match runOps [.addEdge ⟨1, 2, 5⟩ true, .addEdge ⟨2, 3, 7⟩ true, .addEdge ⟨3, 1, -2⟩ true] with
    | none => none
    | some g => (match g.mst pickFirst with
      | .error _ => none
      | .ok m => some m.edges)) = some [⟨3, 1, -2⟩, ⟨1, 2, 5⟩] := by decide

/-- The same history meets the hypotheses of C45. -/
example : ∃ a : AGraph Int, History [.addEdge ⟨1, 2, 5⟩ true, .addEdge ⟨2, 3, 7⟩ true] a ∧
    2 ≤ a.nodes.card ∧ ∀ u ∈ a.nodes, ∀ v ∈ a.nodes, a.Linked u v := by
  have h1 : History (W := Int) [.addEdge ⟨1, 2, 5⟩ true] ⟨insert 2 (insert 1 ∅), [some ⟨1, 2, 5⟩]⟩ :=
    .snoc .nil (by simp [GOp.Ok]) (.addNew ⟨1, 2, 5⟩ (by simp))
  have h2 := History.snoc h1 (op := .addEdge ⟨2, 3, 7⟩ true) (by simp [GOp.Ok])
    (.addNew ⟨2, 3, 7⟩ (by simp [SameEnds]))
  refine ⟨_, h2, by decide, ?_⟩
  have l12 : AGraph.Adj (⟨insert 3 (insert 2 (insert 2 (insert 1 ∅))),
      [some ⟨1, 2, 5⟩] ++ [some ⟨2, 3, 7⟩]⟩ : AGraph Int) 1 2 := ⟨⟨1, 2, 5⟩, by simp, Or.inl ⟨rfl, rfl⟩⟩
  have l23 : AGraph.Adj (⟨insert 3 (insert 2 (insert 2 (insert 1 ∅))),
      [some ⟨1, 2, 5⟩] ++ [some ⟨2, 3, 7⟩]⟩ : AGraph Int) 2 3 := ⟨⟨2, 3, 7⟩, by simp, Or.inl ⟨rfl, rfl⟩⟩
  have key : ∀ u ∈ ({3, 2, 2, 1} : Finset Int), AGraph.Linked (⟨insert 3 (insert 2 (insert 2 (insert 1 ∅))),
      [some ⟨1, 2, 5⟩] ++ [some ⟨2, 3, 7⟩]⟩ : AGraph Int) u 2 ∧
      AGraph.Linked (⟨insert 3 (insert 2 (insert 2 (insert 1 ∅))),
      [some ⟨1, 2, 5⟩] ++ [some ⟨2, 3, 7⟩]⟩ : AGraph Int) 2 u := by
    intro u hu
    simp only [Finset.mem_insert, Finset.mem_singleton] at hu
    rcases hu with rfl | rfl | rfl | rfl
    · exact ⟨.single l23.symm, .single l23⟩
    · exact ⟨.refl, .refl⟩
    · exact ⟨.refl, .refl⟩
    · exact ⟨.single l12, .single l12.symm⟩
  intro u hu v hv
  exact (key u hu).1.trans (key v hv).2

/-- With one node: without an edge the map is empty and its first element is read; with a loop the tree has
no node at all. -/
theorem C45_single_bug :
    (∃ g : Graph Int, runOps [.addNode 4] = some g ∧ g.mst pickFirst = .error .emptyMap) ∧
    (∃ g m : Graph Int, runOps [.addEdge ⟨4, 4, 1⟩ true] = some g ∧ g.nodes = {4} ∧
      g.mst pickFirst = .ok m ∧ m.nodes = ∅) := by
  refine ⟨⟨_, rfl, rfl⟩, ⟨_, _, rfl, by decide, rfl, by decide⟩⟩

/-- A graph that is not connected: the tree covers the component of the node with the smallest index
only. -/
example : (match runOps [.addEdge ⟨1, 2, 5⟩ true, .addEdge ⟨3, 4, 7⟩ true] with
    | none => none
    | some g => (match g.mst pickFirst with
      | .error _ => none
      | .ok m => some (m.edges, m.nodes))) = some ([⟨1, 2, 5⟩], {1, 2}) := by decide

/-! ## C46: labels of the nodes -/

/-- **C46** (partial: every node has, or had, an edge): `labelizeNodes` gives a label to every node and to
nothing else, two nodes have the same label exactly when a path of active edges joins them, and the
label is a node of the component. -/
theorem C46_labelize_partial (ops : List (GOp W)) (a : AGraph W) (h : History ops a) :
    ∃ g, runOps ops = some g ∧ ((∀ v ∈ a.nodes, v ∈ g.keys) →
      ∃ lk, g.labelizeNodes = .ok lk ∧ (∀ v, (lk v).isSome ↔ v ∈ a.nodes) ∧
        (∀ u ∈ a.nodes, ∀ v ∈ a.nodes, lk u = lk v ↔ a.Linked u v) ∧
        ∀ v ∈ a.nodes, ∃ l ∈ a.nodes, lk v = some l ∧ a.Linked v l ∧ ∀ u, a.Linked v u → l ≤ u) := by
  obtain ⟨g, hg, hr⟩ := history_rep h
  refine ⟨g, hg, ?_⟩
  intro hk
  have hsymm : ∀ {u v}, a.Linked u v → a.Linked v u := by
    intro u v huv
    induction huv with
    | refl => exact .refl
    | tail _ hs ih => exact Relation.ReflTransGen.head hs.symm ih
  have hin : ∀ {u v}, u ∈ a.nodes → a.Linked u v → v ∈ a.nodes := by
    intro u v hu huv
    induction huv with
    | refl => exact hu
    | tail _ hs _ =>
      obtain ⟨e, he, hj⟩ := hs
      obtain ⟨i, hi⟩ := List.mem_iff_getElem?.mp he
      have := hr.ends i e hi
      rcases hj with hj | hj
      · rw [← hj.2]; exact this.2
      · rw [← hj.1]; exact this.1
  rcases labelize_spec hr with ⟨_, lk, h1, h2, h3⟩ | ⟨⟨v, hv, hn⟩, _⟩
  · refine ⟨lk, h1, ?_, ?_, ?_⟩
    · intro v
      constructor
      · intro hs; by_contra hn; rw [h3 v hn] at hs; simp at hs
      · intro hv; obtain ⟨l, hl, _⟩ := h2 v hv; rw [hl]; rfl
    · intro u hu v hv
      obtain ⟨l, hl, hul, hmin⟩ := h2 u hu
      obtain ⟨l', hl', hvl, hmin'⟩ := h2 v hv
      rw [hl, hl']
      constructor
      · intro heq
        simp only [Option.some.injEq] at heq; subst heq
        exact hul.trans (hsymm hvl)
      · intro huv
        have huv : Relation.ReflTransGen a.Adj u v := huv
        have e1 : l ≤ l' := hmin l' (huv.trans hvl)
        have e2 : l' ≤ l := by
          refine hmin' l ?_
          have : Relation.ReflTransGen a.Adj v u := hsymm huv
          exact this.trans hul
        rw [le_antisymm e1 e2]
    · intro v hv
      obtain ⟨l, hl, hvl, hmin⟩ := h2 v hv
      exact ⟨l, hin hv hvl, hl, hvl, hmin⟩
  · exact absurd (hk v hv) hn

/-- If a node never had an edge `labelizeNodes` throws. -/
theorem C46_isolated_throws (ops : List (GOp W)) (a : AGraph W) (h : History ops a) (v : Int)
    (hv : v ∈ a.nodes) : ∃ g, runOps ops = some g ∧
      (v ∉ g.keys → g.labelizeNodes = .error .outOfRange) := by
  obtain ⟨g, hg, hr⟩ := history_rep h
  refine ⟨g, hg, fun hn => ?_⟩
  rcases labelize_spec hr with ⟨h1, _⟩ | ⟨_, h2⟩
  · exact absurd (h1 v hv) hn
  · exact h2

/-- The shortest way to it: one node. -/
theorem C46_isolated_bug : ∃ g : Graph Int, runOps [.addNode 4] = some g ∧ g.nodes = {4} ∧
    (match g.labelizeNodes with | .error .outOfRange => true | _ => false) = true :=
  ⟨_, rfl, by decide, by decide⟩

/-- Two components. -/
example : (match runOps (W := Int) [.addEdge ⟨1, 2, 5⟩ true, .addEdge ⟨3, 4, 7⟩ true, .addEdge ⟨4, 2, 0⟩ true,
      .removeEdge 2] with
    | none => none
    | some g => (match g.labelizeNodes with
      | .error _ => none
      | .ok lk => some ([1, 2, 3, 4, 5].map lk))) = some [some 1, some 1, some 3, some 3, none] := by decide

end Smil
