import Verif.GraphLabel
import Mathlib.Algebra.BigOperators.Group.Multiset.Basic
import Mathlib.Algebra.Order.BigOperators.Group.Multiset
import Mathlib.Tactic.Linarith

/-!
# Correctness of `graphMST`
-/

namespace Smil

abbrev E := GEdge Int

/-- The edge joins `u` and `v`. -/
def Joins (e : E) (u v : Int) : Prop := (e.src = u ∧ e.tgt = v) ∨ (e.src = v ∧ e.tgt = u)

/-- `u` and `v` are joined by a path of edges of `S`. -/
def Conn (S : Multiset E) : Int → Int → Prop := Relation.ReflTransGen fun u v => ∃ e ∈ S, Joins e u v

theorem Joins.symm {e : E} {u v : Int} (h : Joins e u v) : Joins e v u := Or.symm h

theorem Conn.symm {S : Multiset E} {u v : Int} (h : Conn S u v) : Conn S v u := by
  induction h with
  | refl => exact Relation.ReflTransGen.refl
  | tail _ h ih => exact Relation.ReflTransGen.head (h.imp fun _ h => ⟨h.1, h.2.symm⟩) ih

theorem Conn.mono {S T : Multiset E} (h : ∀ e ∈ S, e ∈ T) {u v : Int} (hc : Conn S u v) : Conn T u v := by
  induction hc with
  | refl => exact Relation.ReflTransGen.refl
  | tail _ h' ih => exact ih.tail (h'.imp fun e h'' => ⟨h e h''.1, h''.2⟩)

theorem Conn.edge {S : Multiset E} {e : E} (h : e ∈ S) : Conn S e.src e.tgt :=
  Relation.ReflTransGen.single ⟨e, h, Or.inl ⟨rfl, rfl⟩⟩

/-- One end in `V`, the other outside. -/
def Crosses (V : Set Int) (e : E) : Prop := (e.src ∈ V ∧ e.tgt ∉ V) ∨ (e.src ∉ V ∧ e.tgt ∈ V)

theorem Conn.exit {S : Multiset E} {V : Set Int} {u v : Int} (h : Conn S u v) (hu : u ∈ V) (hv : v ∉ V) :
    ∃ f ∈ S, Crosses V f := by
  induction h with
  | refl => exact absurd hu hv
  | @tail b c _ hbc ih =>
    by_cases hb : b ∈ V
    · obtain ⟨e, he, h1 | h1⟩ := hbc
      · exact ⟨e, he, Or.inl ⟨h1.1 ▸ hb, h1.2 ▸ hv⟩⟩
      · exact ⟨e, he, Or.inr ⟨h1.1 ▸ hv, h1.2 ▸ hb⟩⟩
    · exact ih hb

theorem Conn.cons_split {S : Multiset E} {f : E} {u v : Int} (h : Conn (f ::ₘ S) u v) :
    Conn S u v ∨ (Conn S u f.src ∧ Conn S f.tgt v) ∨ (Conn S u f.tgt ∧ Conn S f.src v) := by
  induction h with
  | refl => exact Or.inl Relation.ReflTransGen.refl
  | @tail b c _ hbc ih =>
    obtain ⟨e, he, hj⟩ := hbc
    rcases Multiset.mem_cons.mp he with rfl | he
    · rcases hj with ⟨rfl, rfl⟩ | ⟨rfl, rfl⟩
      · rcases ih with h1 | h1 | h1
        · exact Or.inr (Or.inl ⟨h1, Relation.ReflTransGen.refl⟩)
        · exact Or.inr (Or.inl ⟨h1.1, Relation.ReflTransGen.refl⟩)
        · exact Or.inl h1.1
      · rcases ih with h1 | h1 | h1
        · exact Or.inr (Or.inr ⟨h1, Relation.ReflTransGen.refl⟩)
        · exact Or.inl h1.1
        · exact Or.inr (Or.inr ⟨h1.1, Relation.ReflTransGen.refl⟩)
    · have hs : Conn S b c := Relation.ReflTransGen.single ⟨e, he, hj⟩
      rcases ih with h1 | h1 | h1
      · exact Or.inl (h1.trans hs)
      · exact Or.inr (Or.inl ⟨h1.1, h1.2.trans hs⟩)
      · exact Or.inr (Or.inr ⟨h1.1, h1.2.trans hs⟩)

/-- A path that leaves `V` has a crossing edge on a part without detour. -/
theorem Conn.exchange (V : Set Int) : ∀ (n : Nat) (S : Multiset E), Multiset.card S = n → ∀ u v,
    Conn S u v → u ∈ V → v ∉ V →
    ∃ f ∈ S, Crosses V f ∧ ((Conn (S.erase f) u f.src ∧ Conn (S.erase f) f.tgt v) ∨
      (Conn (S.erase f) u f.tgt ∧ Conn (S.erase f) f.src v)) := by
  intro n
  induction n with
  | zero =>
    intro S hS u v h hu hv
    obtain ⟨f, hf, _⟩ := h.exit hu hv
    rw [Multiset.card_eq_zero] at hS
    rw [hS] at hf; simp at hf
  | succ n ih =>
    intro S hS u v h hu hv
    obtain ⟨f, hf, hcr⟩ := h.exit hu hv
    by_cases hc : Conn (S.erase f) u v
    · obtain ⟨f', hf', hcr', hor⟩ := ih (S.erase f) (by rw [Multiset.card_erase_of_mem hf, hS]; rfl) u v hc hu hv
      have hm : ∀ e ∈ (S.erase f).erase f', e ∈ S.erase f' := by
        intro e he
        rw [Multiset.erase_comm] at he
        exact Multiset.mem_of_mem_erase he
      refine ⟨f', Multiset.mem_of_mem_erase hf', hcr', ?_⟩
      rcases hor with h1 | h1
      · exact Or.inl ⟨h1.1.mono hm, h1.2.mono hm⟩
      · exact Or.inr ⟨h1.1.mono hm, h1.2.mono hm⟩
    · refine ⟨f, hf, hcr, ?_⟩
      rw [← Multiset.cons_erase hf] at h
      rcases h.cons_split with h1 | h1
      · exact absurd h1 hc
      · exact h1

/-- Total weight. -/
def totalW (S : Multiset E) : Int := (S.map GEdge.weight).sum

/-- Replacing a crossing edge by another one keeps everything connected. -/
theorem exchange_conn {S : Multiset E} {V : Set Int} {e : E} (he : Crosses V e)
    (hc : Conn S e.src e.tgt) :
    ∃ f ∈ S, Crosses V f ∧ ∀ x y, Conn S x y → Conn (e ::ₘ S.erase f) x y := by
  have key : ∀ u v, (u = e.src ∧ v = e.tgt ∨ u = e.tgt ∧ v = e.src) → Conn S u v → u ∈ V → v ∉ V →
      ∃ f ∈ S, Crosses V f ∧ ∀ x y, Conn S x y → Conn (e ::ₘ S.erase f) x y := by
    intro u v huv h hu hv
    obtain ⟨f, hf, hcr, hor⟩ := Conn.exchange V _ S rfl u v h hu hv
    refine ⟨f, hf, hcr, ?_⟩
    have hm : ∀ g ∈ S.erase f, g ∈ e ::ₘ S.erase f := fun g hg => Multiset.mem_cons_of_mem hg
    have huv' : Conn (e ::ₘ S.erase f) u v := by
      rcases huv with ⟨rfl, rfl⟩ | ⟨rfl, rfl⟩
      · exact Conn.edge (Multiset.mem_cons_self _ _)
      · exact (Conn.edge (Multiset.mem_cons_self _ _)).symm
    have hff : Conn (e ::ₘ S.erase f) f.src f.tgt := by
      rcases hor with h1 | h1
      · exact ((h1.1.mono hm).symm.trans huv').trans (h1.2.mono hm).symm
      · have : Conn (e ::ₘ S.erase f) f.tgt f.src :=
          ((h1.1.mono hm).symm.trans huv').trans (h1.2.mono hm).symm
        exact this.symm
    intro x y hxy
    induction hxy with
    | refl => exact Relation.ReflTransGen.refl
    | tail _ hbc ih =>
      obtain ⟨g, hg, hj⟩ := hbc
      refine ih.trans ?_
      by_cases hgf : g = f
      · subst hgf
        rcases hj with ⟨rfl, rfl⟩ | ⟨rfl, rfl⟩
        · exact hff
        · exact hff.symm
      · exact Relation.ReflTransGen.single
          ⟨g, Multiset.mem_cons_of_mem ((Multiset.mem_erase_of_ne hgf).mpr hg), hj⟩
  rcases he with h1 | h1
  · exact key e.src e.tgt (Or.inl ⟨rfl, rfl⟩) hc h1.1 h1.2
  · exact key e.tgt e.src (Or.inr ⟨rfl, rfl⟩) hc.symm h1.2 h1.1

/-- The live edges. -/
def AGraph.live (a : AGraph Int) (e : E) : Prop := some e ∈ a.slots

/-- `S` is made of live edges and joins all the nodes. -/
structure Spans (a : AGraph Int) (S : Multiset E) : Prop where
  live : ∀ e ∈ S, a.live e
  conn : ∀ u ∈ a.nodes, ∀ v ∈ a.nodes, Conn S u v

/-- What `top` and `pop` of the priority queue do: an edge that no edge of the queue precedes. -/
structure Picks (pick : List E → Option (E × List E)) : Prop where
  nil : pick [] = none
  min : ∀ q, q ≠ [] → ∃ e q', pick q = some (e, q') ∧ q.Perm (e :: q') ∧ ∀ f ∈ q, e.weight ≤ f.weight

/-- The state of the loop of `graphMST`. -/
structure MInv (g : Graph Int) (a : AGraph Int) (n0 : Int) (V : Finset Int) (q : List E) (m : Graph Int) :
    Prop where
  start : n0 ∈ V
  sub : V ⊆ a.nodes
  qlive : ∀ e ∈ q, a.live e ∧ (e.src ∈ V ∨ e.tgt ∈ V)
  cross : ∀ e, a.live e → Crosses (V : Set Int) e → e ∈ q
  rep : Rep m ⟨m.nodes, m.edges.map some⟩
  tlive : ∀ e ∈ m.edges, a.live e ∧ e.src ∈ V ∧ e.tgt ∈ V
  conn : ∀ u ∈ V, Conn (m.edges : Multiset E) n0 u
  card : m.edges.length + 1 = V.card
  nodes : (V = {n0} ∧ m.nodes = ∅) ∨ m.nodes = V
  opt : ∀ S, Spans a S → ∃ S', Spans a S' ∧ (m.edges : Multiset E) ≤ S' ∧
    Multiset.card S' = Multiset.card S ∧ totalW S' ≤ totalW S

theorem pushAll_spec {g : Graph Int} {a : AGraph Int} (h : Rep g a) {n : Int} (hn : n ∈ g.keys)
    (q : List E) : ∃ l, g.pushAll n q = .ok (q ++ l) ∧ l.length = (g.adj n).length ∧
      ∀ e, e ∈ l ↔ a.live e ∧ (e.src = n ∨ e.tgt = n) := by
  have : ∀ l : List Nat, (∀ i ∈ l, i ∈ g.adj n) → ∃ m, l.mapM (fun i => g.edges[i]?) = some m ∧
      m.length = l.length ∧ ∀ e, e ∈ m ↔ ∃ i ∈ l, a.slots[i]? = some (some e) := by
    intro l
    induction l with
    | nil => intro _; exact ⟨[], rfl, rfl, by simp⟩
    | cons i l ih =>
      intro hl
      obtain ⟨e, he, _⟩ := h.mem_adj.mp (hl i List.mem_cons_self)
      obtain ⟨m, hm, hlen, hmem⟩ := ih (fun i hi => hl i (List.mem_cons_of_mem _ hi))
      refine ⟨e :: m, ?_, by simp [hlen], ?_⟩
      · rw [List.mapM_cons, h.live i e he, hm]; rfl
      · intro f
        rw [List.mem_cons, hmem]
        constructor
        · rintro (rfl | ⟨j, hj, hf⟩)
          · exact ⟨i, List.mem_cons_self, he⟩
          · exact ⟨j, List.mem_cons_of_mem _ hj, hf⟩
        · rintro ⟨j, hj, hf⟩
          rcases List.mem_cons.mp hj with rfl | hj
          · rw [he] at hf; simp at hf; exact Or.inl hf.symm
          · exact Or.inr ⟨j, hj, hf⟩
  obtain ⟨m, hm, hlen, hmem⟩ := this (g.adj n) (fun _ h => h)
  refine ⟨m, by unfold Graph.pushAll; rw [if_pos hn, hm], hlen, ?_⟩
  intro e
  rw [hmem]
  constructor
  · rintro ⟨i, hi, he⟩
    obtain ⟨f, hf, hor⟩ := h.mem_adj.mp hi
    rw [he] at hf; simp only [Option.some.injEq] at hf; subst hf
    exact ⟨List.mem_of_getElem? he, hor⟩
  · rintro ⟨he, hor⟩
    obtain ⟨i, hi⟩ := List.mem_iff_getElem?.mp he
    exact ⟨i, h.mem_adj.mpr ⟨e, hi, hor⟩, hi⟩

theorem Rep.key {g : Graph Int} {a : AGraph Int} (h : Rep g a) {e : E} (he : a.live e) :
    e.src ∈ g.keys ∧ e.tgt ∈ g.keys := by
  obtain ⟨i, hi⟩ := List.mem_iff_getElem?.mp he
  constructor
  · by_contra hc
    have := h.mem_adj.mpr ⟨e, hi, Or.inl rfl⟩
    rw [h.keys _ hc] at this; simp at this
  · by_contra hc
    have := h.mem_adj.mpr ⟨e, hi, Or.inr rfl⟩
    rw [h.keys _ hc] at this; simp at this

theorem Rep.live_nodes {g : Graph Int} {a : AGraph Int} (h : Rep g a) {e : E} (he : a.live e) :
    e.src ∈ a.nodes ∧ e.tgt ∈ a.nodes := by
  obtain ⟨i, hi⟩ := List.mem_iff_getElem?.mp he
  exact h.ends i e hi

theorem Rep.live_pos {g : Graph Int} {a : AGraph Int} (h : Rep g a) {e : E} (he : a.live e) :
    ¬(e.src = 0 ∧ e.tgt = 0) := by
  obtain ⟨i, hi⟩ := List.mem_iff_getElem?.mp he
  exact h.pos i e hi

/-- A turn that adds an edge. -/
theorem MInv.step {g : Graph Int} {a : AGraph Int} (h : Rep g a) {n0 : Int} {V : Finset Int}
    {q q' l : List E} {m : Graph Int} {e : E} (hi : MInv g a n0 V q m) (hperm : q.Perm (e :: q'))
    (hmin : ∀ f ∈ q, e.weight ≤ f.weight) {new old : Int} (hj : Joins e old new) (hold : old ∈ V)
    (hnew : new ∉ V) (hl : ∀ f, f ∈ l ↔ a.live f ∧ (f.src = new ∨ f.tgt = new)) :
    MInv g a n0 (insert new V) (q' ++ l) (m.addEdge e false) := by
  have hmemq : ∀ f, f ∈ q ↔ f = e ∨ f ∈ q' := fun f => by rw [hperm.mem_iff, List.mem_cons]
  have heq : e ∈ q := (hmemq e).mpr (Or.inl rfl)
  have helive := (hi.qlive e heq).1
  have hen : e.src ∈ insert new V ∧ e.tgt ∈ insert new V := by
    rcases hj with ⟨h1, h2⟩ | ⟨h1, h2⟩
    · exact ⟨Finset.mem_insert_of_mem (h1 ▸ hold), by rw [h2]; exact Finset.mem_insert_self _ _⟩
    · exact ⟨by rw [h1]; exact Finset.mem_insert_self _ _, Finset.mem_insert_of_mem (h2 ▸ hold)⟩
  have hecr : Crosses (V : Set Int) e := by
    rcases hj with ⟨h1, h2⟩ | ⟨h1, h2⟩
    · exact Or.inl ⟨by simpa [h1] using hold, by simpa [h2] using hnew⟩
    · exact Or.inr ⟨by simpa [h1] using hnew, by simpa [h2] using hold⟩
  have hE : (m.addEdge e false).edges = m.edges ++ [e] := by
    simp [Graph.addEdge, Graph.pushEdge, Graph.pushAdj]
  have hN : (m.addEdge e false).nodes = insert e.tgt (insert e.src m.nodes) := by
    simp [Graph.addEdge, Graph.pushEdge, Graph.pushAdj]
  have hM : ((m.edges ++ [e] : List E) : Multiset E) = e ::ₘ (m.edges : Multiset E) := by
    rw [← Multiset.coe_add, add_comm]; rfl
  refine ⟨Finset.mem_insert_of_mem hi.start, ?_, ?_, ?_, ?_, ?_, ?_, ?_, ?_, ?_⟩
  · intro v hv
    rcases Finset.mem_insert.mp hv with rfl | hv
    · have := h.live_nodes helive
      rcases hj with ⟨_, h2⟩ | ⟨h1, _⟩
      · rw [← h2]; exact this.2
      · rw [← h1]; exact this.1
    · exact hi.sub hv
  · intro f hf
    rcases List.mem_append.mp hf with hf | hf
    · have := hi.qlive f ((hmemq f).mpr (Or.inr hf))
      exact ⟨this.1, this.2.imp (Finset.mem_insert_of_mem ·) (Finset.mem_insert_of_mem ·)⟩
    · have := (hl f).mp hf
      exact ⟨this.1, this.2.imp (fun h => by rw [h]; exact Finset.mem_insert_self _ _)
        (fun h => by rw [h]; exact Finset.mem_insert_self _ _)⟩
  · intro f hf hcr
    rw [List.mem_append]
    by_cases hnf : f.src = new ∨ f.tgt = new
    · exact Or.inr ((hl f).mpr ⟨hf, hnf⟩)
    · left
      rw [not_or] at hnf
      have hcrV : Crosses (V : Set Int) f := by
        unfold Crosses at hcr ⊢
        simpa [hnf.1, hnf.2] using hcr
      rcases (hmemq f).mp (hi.cross f hf hcrV) with rfl | h1
      · exfalso
        rcases hj with ⟨_, h2⟩ | ⟨h1, _⟩
        · exact hnf.2 h2
        · exact hnf.1 h1
      · exact h1
  · have := hi.rep.pushEdge e (h.live_pos helive)
    rw [hN, hE]
    simpa [Graph.addEdge] using this
  · intro f hf
    rw [hE] at hf
    rcases List.mem_append.mp hf with hf | hf
    · have := hi.tlive f hf
      exact ⟨this.1, Finset.mem_insert_of_mem this.2.1, Finset.mem_insert_of_mem this.2.2⟩
    · simp only [List.mem_singleton] at hf; subst hf
      exact ⟨helive, hen⟩
  · intro u hu
    rw [hE, hM]
    have hm : ∀ f ∈ (m.edges : Multiset E), f ∈ e ::ₘ (m.edges : Multiset E) :=
      fun f hf => Multiset.mem_cons_of_mem hf
    rcases Finset.mem_insert.mp hu with rfl | hu
    · exact ((hi.conn old hold).mono hm).trans
        (Relation.ReflTransGen.single ⟨e, Multiset.mem_cons_self _ _, hj⟩)
    · exact (hi.conn u hu).mono hm
  · rw [hE, Finset.card_insert_of_notMem hnew, ← hi.card]; simp
  · right
    rw [hN]
    have hpair : insert e.tgt (insert e.src m.nodes) = insert new (insert old m.nodes) := by
      rcases hj with ⟨h1, h2⟩ | ⟨h1, h2⟩
      · rw [h1, h2]
      · rw [h1, h2, Finset.insert_comm]
    rw [hpair]
    rcases hi.nodes with ⟨h1, h2⟩ | h1
    · rw [h1, Finset.mem_singleton] at hold
      rw [h1, h2, hold]; rfl
    · rw [h1, Finset.insert_eq_of_mem hold]
  · intro S hS
    obtain ⟨S', hS', hle, hcard, hw⟩ := hi.opt S hS
    have hn := h.live_nodes helive
    obtain ⟨f, hf, hcr, hconn⟩ := exchange_conn hecr (hS'.conn _ hn.1 _ hn.2)
    have hfq := hi.cross f (hS'.live f hf) hcr
    have hfT : f ∉ (m.edges : Multiset E) := by
      intro hft
      have := (hi.tlive f (Multiset.mem_coe.mp hft)).2
      rcases hcr with h1 | h1
      · exact h1.2 (Finset.mem_coe.mpr this.2)
      · exact h1.1 (Finset.mem_coe.mpr this.1)
    refine ⟨e ::ₘ S'.erase f, ⟨?_, ?_⟩, ?_, ?_, ?_⟩
    · intro x hx
      rcases Multiset.mem_cons.mp hx with rfl | hx
      · exact helive
      · exact hS'.live x (Multiset.mem_of_mem_erase hx)
    · intro u hu v hv
      exact hconn u v (hS'.conn u hu v hv)
    · rw [hE, hM]
      apply Multiset.cons_le_cons
      rw [← Multiset.erase_of_notMem hfT]
      exact Multiset.erase_le_erase f hle
    · rw [Multiset.card_cons, Multiset.card_erase_of_mem hf, ← hcard]
      have : 0 < Multiset.card S' := Multiset.card_pos_iff_exists_mem.mpr ⟨f, hf⟩
      rw [Nat.pred_eq_sub_one]
      omega
    · refine le_trans ?_ hw
      have h1 : totalW (e ::ₘ S'.erase f) = e.weight + totalW (S'.erase f) := by simp [totalW]
      have h2 : totalW S' = f.weight + totalW (S'.erase f) := by
        conv_lhs => rw [← Multiset.cons_erase hf]
        simp [totalW]
      rw [h1, h2]
      have := hmin f hfq
      omega

theorem mstLoop_spec {g : Graph Int} {a : AGraph Int} (h : Rep g a)
    {pick : List E → Option (E × List E)} (hp : Picks pick) {n0 : Int} :
    ∀ (fuel : Nat) (V : Finset Int) (q : List E) (m : Graph Int), MInv g a n0 V q m →
      q.length + ((g.keys \ V).sum fun k => (g.adj k).length) < fuel →
      ∃ m' V', g.mstLoop pick fuel V q m = .ok m' ∧ MInv g a n0 V' [] m' := by
  intro fuel
  induction fuel with
  | zero => intro V q m _ hf; omega
  | succ fuel ih =>
    intro V q m hi hf
    unfold Graph.mstLoop
    by_cases hq : q = []
    · subst hq
      rw [hp.nil]
      exact ⟨m, V, rfl, hi⟩
    · obtain ⟨e, q', hpick, hperm, hmin⟩ := hp.min q hq
      rw [hpick]
      simp only
      have hlen : q.length = q'.length + 1 := by rw [hperm.length_eq]; rfl
      have heq : e ∈ q := hperm.mem_iff.mpr List.mem_cons_self
      have hel := hi.qlive e heq
      have hk := h.key hel.1
      have hdec : ∀ new, new ∉ V → new ∈ g.keys → ((g.keys \ V).sum fun k => (g.adj k).length) =
          (g.adj new).length + ((g.keys \ insert new V).sum fun k => (g.adj k).length) := by
        intro new hnew hkey
        rw [← Finset.add_sum_erase (g.keys \ V) _ (Finset.mem_sdiff.mpr ⟨hkey, hnew⟩)]
        congr 2
        ext x
        simp only [Finset.mem_erase, Finset.mem_sdiff, Finset.mem_insert, not_or]
        tauto
      by_cases hs : e.src ∉ V
      · rw [if_pos hs]
        obtain ⟨l, hl, hll, hlm⟩ := pushAll_spec h hk.1 q'
        rw [hl]
        simp only
        have := hdec e.src hs hk.1
        exact ih _ _ _ (hi.step h hperm hmin (new := e.src) (old := e.tgt) (Or.inr ⟨rfl, rfl⟩)
          (hel.2.resolve_left hs) hs hlm) (by rw [List.length_append]; omega)
      · rw [if_neg hs]
        rw [not_not] at hs
        by_cases ht : e.tgt ∉ V
        · rw [if_pos ht]
          obtain ⟨l, hl, hll, hlm⟩ := pushAll_spec h hk.2 q'
          rw [hl]
          simp only
          have := hdec e.tgt ht hk.2
          exact ih _ _ _ (hi.step h hperm hmin (new := e.tgt) (old := e.src) (Or.inl ⟨rfl, rfl⟩)
            hs ht hlm) (by rw [List.length_append]; omega)
        · rw [if_neg ht]
          rw [not_not] at ht
          refine ih V q' m { hi with qlive := ?_, cross := ?_ } (by omega)
          · intro f hf
            exact hi.qlive f (hperm.mem_iff.mpr (List.mem_cons_of_mem _ hf))
          · intro f hf hcr
            rcases List.mem_cons.mp (hperm.mem_iff.mp (hi.cross f hf hcr)) with rfl | h1
            · exfalso
              rcases hcr with h1 | h1
              · exact h1.2 (Finset.mem_coe.mpr ht)
              · exact h1.1 (Finset.mem_coe.mpr hs)
            · exact h1

/-- `graphMST` on a graph that represents a connected abstract graph. -/
theorem mst_spec {g : Graph Int} {a : AGraph Int} (h : Rep g a)
    {pick : List E → Option (E × List E)} (hp : Picks pick) (hk : g.keys.Nonempty)
    (hkn : g.keys ⊆ a.nodes) (hc : ∀ u ∈ a.nodes, ∀ v ∈ a.nodes, a.Linked u v) :
    ∃ m, g.mst pick = .ok m ∧ m.vals = g.vals ∧ Rep m ⟨m.nodes, m.edges.map some⟩ ∧
      (m.nodes = a.nodes ∨ (a.nodes.card = 1 ∧ m.nodes = ∅)) ∧
      (∀ e ∈ m.edges, a.live e) ∧ m.edges.length + 1 = a.nodes.card ∧
      (∀ u ∈ a.nodes, ∀ v ∈ a.nodes, Conn (m.edges : Multiset E) u v) ∧
      ∀ S, Spans a S → ∃ S', (m.edges : Multiset E) ≤ S' ∧ (∀ e ∈ S', a.live e) ∧
        Multiset.card S' = Multiset.card S ∧ totalW S' ≤ totalW S := by
  unfold Graph.mst
  rcases hn0 : g.keys.min with _ | n0
  · rw [Finset.min_eq_top.mp hn0] at hk
    simp at hk
  have hn0k : n0 ∈ g.keys := Finset.mem_of_min hn0
  simp only
  obtain ⟨l, hl, hll, hlm⟩ := pushAll_spec h hn0k []
  rw [hl]
  simp only [List.nil_append]
  have hinit : MInv g a n0 {n0} l (Graph.empty : Graph Int) := by
    refine ⟨by simp, by simpa using hkn hn0k, ?_, ?_, ?_, by simp [Graph.empty], ?_, by simp [Graph.empty],
      Or.inl ⟨rfl, rfl⟩, ?_⟩
    · intro e he
      have := (hlm e).mp he
      simpa using this
    · intro e he hcr
      refine (hlm e).mpr ⟨he, ?_⟩
      rcases hcr with h1 | h1
      · exact Or.inl (by simpa using h1.1)
      · exact Or.inr (by simpa using h1.2)
    · exact Rep.empty
    · intro u hu
      rw [Finset.mem_singleton] at hu; subst hu; exact Relation.ReflTransGen.refl
    · intro S hS
      exact ⟨S, hS, Multiset.zero_le S, rfl, le_refl _⟩
  have hfuel : l.length + ((g.keys \ {n0}).sum fun k => (g.adj k).length) <
      g.keys.sum (fun k => (g.adj k).length) + 1 := by
    rw [hll, ← Finset.add_sum_erase g.keys (fun k => (g.adj k).length) hn0k, Finset.erase_eq]
    omega
  obtain ⟨m, V, hm, hi⟩ := mstLoop_spec h hp _ _ _ _ hinit hfuel
  rw [hm]
  -- nothing crosses any more: every node is visited
  have hV : V = a.nodes := by
    apply Finset.Subset.antisymm hi.sub
    intro v hv
    have := hc n0 (hi.sub hi.start) v hv
    induction this with
    | refl => exact hi.start
    | @tail b c _ hbc ih =>
      have hb := ih (h.adj_mem hbc).1
      by_contra hcn
      obtain ⟨e, he, hor⟩ := hbc
      have hcr : Crosses (V : Set Int) e := by
        rcases hor with ⟨rfl, rfl⟩ | ⟨rfl, rfl⟩
        · exact Or.inl ⟨Finset.mem_coe.mpr hb, fun h => hcn (Finset.mem_coe.mp h)⟩
        · exact Or.inr ⟨fun h => hcn (Finset.mem_coe.mp h), Finset.mem_coe.mpr hb⟩
      have := hi.cross e he hcr
      simp at this
  refine ⟨_, rfl, rfl, ?_, ?_, fun e he => (hi.tlive e he).1, by rw [← hV]; exact hi.card, ?_, ?_⟩
  · exact ⟨hi.rep.len, hi.rep.nbr, hi.rep.nodes, hi.rep.live, hi.rep.dead, hi.rep.adj, hi.rep.keys,
      hi.rep.ends, hi.rep.pos⟩
  · rcases hi.nodes with ⟨h1, h2⟩ | h1
    · right
      exact ⟨by rw [← hV, h1]; rfl, h2⟩
    · left; rw [← hV]; exact h1
  · intro u hu v hv
    exact (hi.conn u (hV ▸ hu)).symm.trans (hi.conn v (hV ▸ hv))
  · intro S hS
    obtain ⟨S', h1, h2, h3, h4⟩ := hi.opt S hS
    exact ⟨S', h2, h1.live, h3, h4⟩

end Smil
