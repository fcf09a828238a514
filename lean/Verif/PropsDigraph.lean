import Verif.Digraph
import Verif.PropsGraph

/-!
# C119: the directed graph of the addon has no directions
-/

namespace Smil
variable {W : Type}

/-- The edits on the concrete digraph; `none`: undefined behaviour. -/
def GOp.runD (d : Digraph W) : GOp W → Option (Digraph W)
  | .addNode n => some (d.addNode n)
  | .addNodeVal n v => some (d.addNodeVal n v)
  | .addEdge e c => some (d.addEdge e c)
  | .removeNode n => d.removeNode n
  | .removeNodeEdges n => d.removeNodeEdges n
  | .removeEdge i => some (d.removeEdge i)
  | .removeEdgeLike e => some (d.removeEdgeLike e)
  | .removeWhere p => some (d.removeWhere p)
  | .clear => some Digraph.empty

/-- The concrete digraph after a history. -/
def runOpsD (ops : List (GOp W)) : Option (Digraph W) := ops.foldlM (fun d op => op.runD d) Digraph.empty

theorem runD_eq (op : GOp W) (g : Graph W) : op.runD ⟨g, true⟩ = (op.run g).map fun g' => ⟨g', true⟩ := by
  cases op <;> rfl

theorem foldlM_runD (ops : List (GOp W)) : ∀ g : Graph W,
    ops.foldlM (fun d op => op.runD d) (⟨g, true⟩ : Digraph W) = (ops.foldlM (fun (g : Graph W) (op : GOp W) => op.run g) g).map fun g' => (⟨g', true⟩ : Digraph W) := by
  induction ops with
  | nil => intro g; rfl
  | cons op ops ih =>
    intro g
    rw [List.foldlM_cons, List.foldlM_cons, runD_eq]
    cases h : op.run g with
    | none => rfl
    | some g' => exact ih g'

theorem runOpsD_eq (ops : List (GOp W)) : runOpsD ops = (runOps ops).map fun g => ⟨g, true⟩ := foldlM_runD ops Graph.empty

/-- **C119, part** (histories that respect the guards of C44). After any history of edits the digraph is defined and is what the edits mean, in the sense of C44, where an edge has two ends and no
direction. It calls itself oriented all along. -/
theorem C119_edits_partial (ops : List (GOp W)) (a : AGraph W) (h : History ops a) :
    ∃ d, runOpsD ops = some d ∧ Observed d.graph a ∧ d.oriented = true := by
  obtain ⟨g, e, ho⟩ := C44_edits_partial ops a h
  exact ⟨⟨g, true⟩, by rw [runOpsD_eq, e]; rfl, ho, rfl⟩

/-- **C119 fails.** The edge from `v` to `u` cannot be added beside the one from `u` to `v`, whatever the history: the digraph does not change. -/
theorem C119_reverse_bug (ops : List (GOp W)) (a : AGraph W) (h : History ops a) (u v : Int) (w w' : W) (hf : some ⟨u, v, w⟩ ∈ a.slots) :
    ∃ d, runOpsD ops = some d ∧ runOpsD (ops ++ [.addEdge ⟨v, u, w'⟩ true]) = some d := by
  obtain ⟨g, e, hr⟩ := history_rep h
  refine ⟨⟨g, true⟩, by rw [runOpsD_eq, e]; rfl, ?_⟩
  have hg : g.addEdge ⟨v, u, w'⟩ true = g := by
    obtain ⟨i, hi⟩ := List.mem_iff_getElem?.mp hf
    have hm : (g.findEdge ⟨v, u, w'⟩).isSome := by
      unfold Graph.findEdge
      rw [List.findIdx?_isSome, List.any_eq_true]
      refine ⟨_, List.mem_of_getElem? (hr.live i _ hi), ?_⟩
      unfold GEdge.same
      simp
    unfold Graph.addEdge
    rw [hm]
    rfl
  have e' : runOps (ops ++ [.addEdge ⟨v, u, w'⟩ true]) = some g := by
    unfold runOps at e ⊢
    rw [List.foldlM_append, e]
    show some (g.addEdge ⟨v, u, w'⟩ true) = some g
    rw [hg]
  rw [runOpsD_eq, e']
  rfl

/-! ### Directions do not matter -/

/-- `F` keeps or reverses each edge. -/
def Redirects (F : GEdge W → GEdge W) : Prop := ∀ e, F e = e ∨ F e = ⟨e.tgt, e.src, e.weight⟩

/-- The same edit with other directions. -/
def GOp.redirect (F : GEdge W → GEdge W) : GOp W → GOp W
  | .addEdge e c => .addEdge (F e) c
  | .removeEdgeLike e => .removeEdgeLike (F e)
  | op => op

def AGraph.redirect (F : GEdge W → GEdge W) (a : AGraph W) : AGraph W := ⟨a.nodes, a.slots.map (Option.map F)⟩

variable {F : GEdge W → GEdge W}

theorem Redirects.ends (hF : Redirects F) (e : GEdge W) : ((F e).src = e.src ∧ (F e).tgt = e.tgt) ∨ ((F e).src = e.tgt ∧ (F e).tgt = e.src) := by
  rcases hF e with h | h <;> rw [h] <;> simp

theorem Redirects.weight (hF : Redirects F) (e : GEdge W) : (F e).weight = e.weight := by
  rcases hF e with h | h <;> rw [h]

theorem Redirects.same (hF : Redirects F) (e f : GEdge W) : SameEnds (F e) (F f) ↔ SameEnds e f := by
  unfold SameEnds
  have h1 := hF.ends e
  have h2 := hF.ends f
  omega

theorem Redirects.insert (hF : Redirects F) (e : GEdge W) (N : Finset Int) : insert (F e).tgt (insert (F e).src N) = insert e.tgt (insert e.src N) := by
  rcases hF e with h | h <;> rw [h]
  exact Finset.insert_comm _ _ _

theorem mem_redirect {a : AGraph W} {f : GEdge W} : some f ∈ (a.redirect F).slots ↔ ∃ e, some e ∈ a.slots ∧ F e = f := by
  unfold AGraph.redirect
  rw [List.mem_map]
  constructor
  · rintro ⟨o, ho, h⟩
    obtain ⟨e, rfl, he⟩ := Option.map_eq_some_iff.mp h
    exact ⟨e, ho, he⟩
  · rintro ⟨e, he, rfl⟩
    exact ⟨_, he, rfl⟩

theorem redirect_get {a : AGraph W} {i : Nat} {f : GEdge W} : (a.redirect F).slots[i]? = some (some f) ↔ ∃ e, a.slots[i]? = some (some e) ∧ F e = f := by
  unfold AGraph.redirect
  rw [List.getElem?_map]
  constructor
  · intro h
    obtain ⟨o, ho, h⟩ := Option.map_eq_some_iff.mp h
    obtain ⟨e, rfl, he⟩ := Option.map_eq_some_iff.mp h
    exact ⟨e, ho, he⟩
  · rintro ⟨e, he, rfl⟩
    rw [he]
    rfl

theorem Redirects.drop_node (hF : Redirects F) (n : Int) (o : Option (GEdge W)) : dropNode n (o.map F) = (dropNode n o).map F := by
  cases o with
  | none => rfl
  | some e =>
    have h := hF.ends e
    show (if (F e).src = n ∨ (F e).tgt = n then none else some (F e)) = (if e.src = n ∨ e.tgt = n then none else some e).map F
    by_cases hc : e.src = n ∨ e.tgt = n
    · rw [if_pos hc, if_pos (by omega)]; rfl
    · rw [if_neg hc, if_neg (by omega)]; rfl

theorem Redirects.drop_if (hF : Redirects F) (p : W → Bool) (o : Option (GEdge W)) : dropIf p (o.map F) = (dropIf p o).map F := by
  cases o with
  | none => rfl
  | some e =>
    show (if p (F e).weight then none else some (F e)) = (if p e.weight then none else some e).map F
    rw [hF.weight]
    split <;> rfl

theorem Redirects.means (hF : Redirects F) {a a' : AGraph W} {op : GOp W} (h : op.Means a a') : (op.redirect F).Means (a.redirect F) (a'.redirect F) := by
  cases h with
  | addNode n => exact .addNode n
  | addNodeVal n v => exact .addNodeVal n v
  | addEdge e =>
    have := GOp.Means.addEdge (a := a.redirect F) (F e)
    rw [hF.insert] at this
    unfold AGraph.redirect
    rw [List.map_append]
    exact this
  | addNew e hn =>
    have := GOp.Means.addNew (a := a.redirect F) (F e) (by
      intro f hf
      obtain ⟨e', he', rfl⟩ := mem_redirect.mp hf
      rw [hF.same]
      exact hn e' he')
    rw [hF.insert] at this
    unfold AGraph.redirect
    rw [List.map_append]
    exact this
  | addOld e f hf hs => exact .addOld (F e) (F f) (mem_redirect.mpr ⟨f, hf, rfl⟩) ((hF.same _ _).mpr hs)
  | removeNode n =>
    have := GOp.Means.removeNode (a := a.redirect F) n
    have e : (a.slots.map (dropNode n)).map (Option.map F) = (a.slots.map (Option.map F)).map (dropNode n) := by
      rw [List.map_map, List.map_map]
      exact List.map_congr_left fun o _ => (hF.drop_node n o).symm
    unfold AGraph.redirect
    rw [e]
    exact this
  | removeNodeEdges n =>
    have := GOp.Means.removeNodeEdges (a := a.redirect F) n
    have e : (a.slots.map (dropNode n)).map (Option.map F) = (a.slots.map (Option.map F)).map (dropNode n) := by
      rw [List.map_map, List.map_map]
      exact List.map_congr_left fun o _ => (hF.drop_node n o).symm
    unfold AGraph.redirect
    rw [e]
    exact this
  | removeEdge i =>
    have := GOp.Means.removeEdge (a := a.redirect F) i
    unfold AGraph.redirect
    rw [List.map_set]
    exact this
  | removeLike e i hfl =>
    have := GOp.Means.removeLike (a := a.redirect F) (F e) i (by
      obtain ⟨⟨f, h1, h2⟩, h3⟩ := hfl
      refine ⟨⟨F f, redirect_get.mpr ⟨f, h1, rfl⟩, (hF.same _ _).mpr h2⟩, fun j hj f' hf' => ?_⟩
      obtain ⟨e', he', rfl⟩ := redirect_get.mp hf'
      rw [hF.same]
      exact h3 j hj e' he')
    unfold AGraph.redirect
    rw [List.map_set]
    exact this
  | removeNone e hn =>
    exact .removeNone (F e) fun f hf => by
      obtain ⟨e', he', rfl⟩ := mem_redirect.mp hf
      rw [hF.same]
      exact hn e' he'
  | removeWhere p =>
    have := GOp.Means.removeWhere (a := a.redirect F) p
    have e : (a.slots.map (dropIf p)).map (Option.map F) = (a.slots.map (Option.map F)).map (dropIf p) := by
      rw [List.map_map, List.map_map]
      exact List.map_congr_left fun o _ => (hF.drop_if p o).symm
    unfold AGraph.redirect
    rw [e]
    exact this
  | clear => exact .clear

theorem Redirects.ok (hF : Redirects F) {a : AGraph W} {op : GOp W} (h : op.Ok a) : (op.redirect F).Ok (a.redirect F) := by
  have hl : ∀ n, (∀ f, some f ∈ a.slots → ¬(f.src = n ∧ f.tgt = n)) → ∀ f, some f ∈ (a.redirect F).slots → ¬(f.src = n ∧ f.tgt = n) := by
    intro n hn f hf
    obtain ⟨e', he', rfl⟩ := mem_redirect.mp hf
    have := hF.ends e'
    have := hn e' he'
    omega
  cases op with
  | addEdge e c =>
    have h' : ¬(e.src = 0 ∧ e.tgt = 0) := h
    have := hF.ends e
    show ¬((F e).src = 0 ∧ (F e).tgt = 0)
    omega
  | removeNode n => exact hl n h
  | removeNodeEdges n => exact hl n h
  | _ => trivial

theorem Redirects.history (hF : Redirects F) {ops : List (GOp W)} {a : AGraph W} (h : History ops a) : History (ops.map (GOp.redirect F)) (a.redirect F) := by
  induction h with
  | nil => exact .nil
  | snoc _ hok hm ih =>
    rw [List.map_append]
    exact .snoc ih (hF.ok hok) (hF.means hm)

theorem Redirects.linked (hF : Redirects F) (a : AGraph W) (u v : Int) : (a.redirect F).Linked u v ↔ a.Linked u v := by
  have hadj : (a.redirect F).Adj = a.Adj := by
    funext u v
    apply propext
    constructor
    · rintro ⟨f, hf, h⟩
      obtain ⟨e', he', rfl⟩ := mem_redirect.mp hf
      have := hF.ends e'
      exact ⟨e', he', by omega⟩
    · rintro ⟨e', he', h⟩
      have := hF.ends e'
      exact ⟨F e', mem_redirect.mpr ⟨e', he', rfl⟩, by omega⟩
  unfold AGraph.Linked
  rw [hadj]

theorem keys_of_edges {g : Graph W} {a : AGraph W} (hr : Rep g a) (hl : ∀ v ∈ a.nodes, ∃ e, some e ∈ a.slots ∧ (e.src = v ∨ e.tgt = v)) : ∀ v ∈ a.nodes, v ∈ g.keys := by
  intro v hv
  obtain ⟨e, he, h⟩ := hl v hv
  obtain ⟨i, hi⟩ := List.mem_iff_getElem?.mp he
  by_contra hn
  have : i ∈ g.adj v := hr.mem_adj.mpr ⟨e, hi, h⟩
  rw [hr.keys _ hn] at this
  simp at this

/-- **C119: directions do not matter.** Reverse any edges in a history of edits, those added and those removed: the digraph has the same nodes, each node has the same edges by index, and, when each node
has an edge, `labelizeNodes` gives the same labels, those of the components of the graph without directions. -/
theorem C119_direction (hF : Redirects F) (ops : List (GOp W)) (a : AGraph W) (h : History ops a) :
    ∃ d d', runOpsD ops = some d ∧ runOpsD (ops.map (GOp.redirect F)) = some d' ∧ d'.graph.nodes = d.graph.nodes ∧ d'.graph.edges.length = d.graph.edges.length ∧
      (∀ n (i : Nat), i ∈ d'.graph.adj n ↔ i ∈ d.graph.adj n) ∧
      ((∀ v ∈ a.nodes, ∃ e, some e ∈ a.slots ∧ (e.src = v ∨ e.tgt = v)) →
        ∃ lk, d.labelizeNodes = .ok lk ∧ d'.labelizeNodes = .ok lk ∧ ∀ u ∈ a.nodes, ∀ v ∈ a.nodes, lk u = lk v ↔ a.Linked u v) := by
  obtain ⟨g, e, hr⟩ := history_rep h
  have hh := hF.history h
  obtain ⟨g', e', hr'⟩ := history_rep hh
  refine ⟨⟨g, true⟩, ⟨g', true⟩, by rw [runOpsD_eq, e]; rfl, by rw [runOpsD_eq, e']; rfl, ?_, ?_, ?_, ?_⟩
  · show g'.nodes = g.nodes
    rw [hr'.observed.nodes, hr.observed.nodes]
    rfl
  · show g'.edges.length = g.edges.length
    rw [hr'.observed.number, hr.observed.number]
    exact List.length_map _
  · intro n i
    show i ∈ g'.adj n ↔ i ∈ g.adj n
    rw [hr'.mem_adj, hr.mem_adj]
    constructor
    · rintro ⟨f, hf, k⟩
      obtain ⟨e0, he0, rfl⟩ := redirect_get.mp hf
      have := hF.ends e0
      exact ⟨e0, he0, by omega⟩
    · rintro ⟨e0, he0, k⟩
      have := hF.ends e0
      exact ⟨F e0, redirect_get.mpr ⟨e0, he0, rfl⟩, by omega⟩
  · intro hl
    have hl' : ∀ v ∈ (a.redirect F).nodes, ∃ f, some f ∈ (a.redirect F).slots ∧ (f.src = v ∨ f.tgt = v) := by
      intro v hv
      obtain ⟨e0, he0, k⟩ := hl v hv
      have := hF.ends e0
      exact ⟨F e0, mem_redirect.mpr ⟨e0, he0, rfl⟩, by omega⟩
    obtain ⟨g1, e1, k1⟩ := C46_labelize_partial ops a h
    obtain rfl : g = g1 := Option.some.inj (e.symm.trans e1)
    obtain ⟨g2, e2, k2⟩ := C46_labelize_partial _ _ hh
    obtain rfl : g' = g2 := Option.some.inj (e'.symm.trans e2)
    obtain ⟨lk, m1, m2, m3, m4⟩ := k1 (keys_of_edges hr hl)
    obtain ⟨lk', n1, n2, -, n4⟩ := k2 (keys_of_edges hr' hl')
    have : lk' = lk := by
      funext v
      by_cases hv : v ∈ a.nodes
      · obtain ⟨l, -, p1, p2, p3⟩ := m4 v hv
        obtain ⟨l', -, q1, q2, q3⟩ := n4 v hv
        rw [p1, q1]
        have r1 := p3 l' ((hF.linked a v l').mp q2)
        have r2 := q3 l ((hF.linked a v l).mpr p2)
        rw [le_antisymm r2 r1]
      · have a1 : lk v = none := by
          rw [← Option.not_isSome_iff_eq_none, m2]; exact hv
        have a2 : lk' v = none := by
          rw [← Option.not_isSome_iff_eq_none, n2]; exact hv
        rw [a1, a2]
    exact ⟨lk, m1, by rw [← this]; exact n1, m3⟩

/-- A history that meets the hypotheses of the theorems, with its digraph: three edges along a path and a removal in the reverse direction. -/
example : (match runOpsD (W := Int) [.addEdge ⟨1, 2, 5⟩ true, .addEdge ⟨3, 2, 7⟩ true, .addEdge ⟨3, 4, 1⟩ true, .addEdge ⟨2, 1, 9⟩ true, .removeEdgeLike ⟨2, 3, 0⟩] with
    | none => none
    | some d => (match d.labelizeNodes with
      | .error _ => none
      | .ok lk => some ([1, 2, 3, 4].map lk, d.graph.edges, d.oriented))) =
    some ([some 1, some 1, some 3, some 3], [⟨1, 2, 5⟩, ⟨0, 0, 7⟩, ⟨3, 4, 1⟩], true) := by decide

/-- The history of the example is one. -/
example : ∃ a, History (W := Int) [.addEdge ⟨1, 2, 5⟩ true, .addEdge ⟨3, 2, 7⟩ true] a ∧ some ⟨1, 2, 5⟩ ∈ a.slots ∧ ∀ v ∈ a.nodes, ∃ e, some e ∈ a.slots ∧ (e.src = v ∨ e.tgt = v) := by
  refine ⟨⟨{2, 3, 2, 1}, [some ⟨1, 2, 5⟩, some ⟨3, 2, 7⟩]⟩, ?_, by simp, by simp⟩
  have h1 : History (W := Int) ([] ++ [.addEdge ⟨1, 2, 5⟩ true]) ⟨{2, 1}, [some ⟨1, 2, 5⟩]⟩ :=
    .snoc .nil (by simp [GOp.Ok]) (.addNew _ (by simp))
  exact .snoc h1 (by simp [GOp.Ok]) (.addNew _ (by simp [SameEnds]))

end Smil
