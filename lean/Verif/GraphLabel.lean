import Verif.GraphLemmas
import Mathlib.Logic.Relation

/-!
# Correctness of `labelizeNodes`
-/

namespace Smil
variable {W : Type}

/-- Two nodes joined by a live edge. -/
def AGraph.Adj (a : AGraph W) (u v : Int) : Prop :=
  ∃ e, some e ∈ a.slots ∧ ((e.src = u ∧ e.tgt = v) ∨ (e.src = v ∧ e.tgt = u))

/-- Two nodes joined by a path of live edges. -/
def AGraph.Linked (a : AGraph W) : Int → Int → Prop := Relation.ReflTransGen a.Adj

theorem AGraph.Adj.symm {a : AGraph W} {u v : Int} (h : a.Adj u v) : a.Adj v u := by
  obtain ⟨e, he, h⟩ := h
  exact ⟨e, he, h.symm⟩

theorem AGraph.Linked.symm {a : AGraph W} {u v : Int} (h : a.Linked u v) : a.Linked v u := by
  induction h with
  | refl => exact Relation.ReflTransGen.refl
  | tail _ h ih => exact Relation.ReflTransGen.head h.symm ih

theorem Rep.mem_adj {g : Graph W} {a : AGraph W} (h : Rep g a) {n : Int} {k : Nat} :
    k ∈ g.adj n ↔ ∃ e, a.slots[k]? = some (some e) ∧ (e.src = n ∨ e.tgt = n) := by
  rw [← List.count_pos_iff, h.adj]
  constructor
  · intro hp
    obtain ⟨e, he, hin⟩ := endCount_pos hp
    exact ⟨e, by
      cases hh : a.slots[k]? with
      | none => rw [hh] at he; simp at he
      | some o => rw [hh] at he; simp at he; rw [he], hin⟩
  · rintro ⟨e, he, hin⟩
    rw [he]
    simp only [endCount, Option.join_some]
    rcases hin with h1 | h1
    · rw [if_pos h1]; omega
    · rw [if_pos h1]; omega

/-- What a call of `propagateLabel` does. -/
structure PropOk (g : Graph W) (a : AGraph W) (lbl ind : Int) (s s' : GLabSt) : Prop where
  sub : s'.todo ⊆ s.todo
  hit : ind ∉ s'.todo
  lab : ∀ v ∈ s.todo, v ∉ s'.todo → s'.lookup v = some lbl
  link : ∀ v ∈ s.todo, v ∉ s'.todo → a.Linked ind v
  closed : ∀ v ∈ s.todo, v ∉ s'.todo → ∀ u, a.Adj v u → u ∉ s'.todo
  keys : ∀ v ∈ s.todo, v ∉ s'.todo → v ∈ g.keys
  same : ∀ v, (v ∈ s.todo → v ∈ s'.todo) → s'.lookup v = s.lookup v

/-- The state inside the loop over the edges of `ind`. -/
structure GLoopOk (g : Graph W) (a : AGraph W) (lbl ind : Int) (s c : GLabSt) : Prop where
  sub : c.todo ⊆ s.todo
  lab : ∀ v ∈ s.todo, v ∉ c.todo → c.lookup v = some lbl
  link : ∀ v ∈ s.todo, v ∉ c.todo → a.Linked ind v
  closed : ∀ v ∈ s.todo, v ∉ c.todo → ∀ u, a.Adj v u → u ∉ c.todo
  keys : ∀ v ∈ s.todo, v ∉ c.todo → v ∈ g.keys
  same : ∀ v, (v ∈ s.todo → v ∈ c.todo) → c.lookup v = s.lookup v

theorem GLoopOk.step {g : Graph W} {a : AGraph W} {lbl ind x : Int} {s c c' : GLabSt}
    (h : GLoopOk g a lbl ind s c) (hx : a.Linked ind x) (h' : PropOk g a lbl x c c') :
    GLoopOk g a lbl ind s c' := by
  have hcase : ∀ v, v ∉ c'.todo → v ∉ c.todo ∨ (v ∈ c.todo ∧ v ∉ c'.todo) := by
    intro v hv
    by_cases h1 : v ∈ c.todo
    · exact Or.inr ⟨h1, hv⟩
    · exact Or.inl h1
  refine ⟨fun v hv => h.sub (h'.sub hv), ?_, ?_, ?_, ?_, ?_⟩
  · intro v hv hn
    rcases hcase v hn with h1 | ⟨h1, h2⟩
    · rw [h'.same v (fun h => absurd h h1)]; exact h.lab v hv h1
    · exact h'.lab v h1 h2
  · intro v hv hn
    rcases hcase v hn with h1 | ⟨h1, h2⟩
    · exact h.link v hv h1
    · exact hx.trans (h'.link v h1 h2)
  · intro v hv hn u hu
    rcases hcase v hn with h1 | ⟨h1, h2⟩
    · exact fun h3 => h.closed v hv h1 u hu (h'.sub h3)
    · exact h'.closed v h1 h2 u hu
  · intro v hv hn
    rcases hcase v hn with h1 | ⟨h1, h2⟩
    · exact h.keys v hv h1
    · exact h'.keys v h1 h2
  · intro v hv
    rw [h'.same v, h.same v]
    · exact fun h1 => h'.sub (hv h1)
    · exact fun h1 => hv (h.sub h1)

theorem propagate_spec {g : Graph W} {a : AGraph W} (h : Rep g a) (lbl : Int) :
    ∀ (fuel : Nat) (ind : Int) (s : GLabSt), s.todo.card < fuel →
      (∃ s', g.propagate lbl fuel ind s = .ok s' ∧ PropOk g a lbl ind s s') ∨
      (g.propagate lbl fuel ind s = .error .outOfRange ∧ ∃ v ∈ s.todo, v ∉ g.keys) := by
  intro fuel
  induction fuel with
  | zero => intro ind s hs; omega
  | succ fuel ih =>
    intro ind s hs
    unfold Graph.propagate
    split_ifs with hin hkey
    · -- a new node
      obtain ⟨s1, hs1⟩ : ∃ s1 : GLabSt, s1 = ⟨Function.update s.lookup ind (some lbl), s.todo.erase ind⟩ :=
        ⟨_, rfl⟩
      rw [← hs1]
      have hcard : s1.todo.card < fuel := by
        rw [hs1]; simp only [Finset.card_erase_of_mem hin]
        have : 0 < s.todo.card := Finset.card_pos.mpr ⟨ind, hin⟩
        omega
      have hind1 : ind ∉ s1.todo := by rw [hs1]; simp
      have hsub1 : s1.todo ⊆ s.todo := by rw [hs1]; exact Finset.erase_subset _ _
      have loop : ∀ (l : List Nat) (c : GLabSt), (∀ i ∈ l, i ∈ g.adj ind) → GLoopOk g a lbl ind s1 c →
          (∃ c', (l.foldlM (init := c) fun s i =>
              match g.edges[i]? with
              | none => .error .badIndex
              | some e =>
                if e.src ≠ ind then g.propagate lbl fuel e.src s
                else if e.tgt ≠ ind then g.propagate lbl fuel e.tgt s
                else .ok s) = (.ok c' : Except LabErr GLabSt) ∧ GLoopOk g a lbl ind s1 c' ∧ c'.todo ⊆ c.todo ∧
            ∀ i ∈ l, ∀ e, a.slots[i]? = some (some e) → e.src ∉ c'.todo ∧ e.tgt ∉ c'.todo) ∨
          ((l.foldlM (init := c) fun s i =>
              match g.edges[i]? with
              | none => .error .badIndex
              | some e =>
                if e.src ≠ ind then g.propagate lbl fuel e.src s
                else if e.tgt ≠ ind then g.propagate lbl fuel e.tgt s
                else .ok s) = (.error .outOfRange : Except LabErr GLabSt) ∧ ∃ v ∈ s1.todo, v ∉ g.keys) := by
        intro l
        induction l with
        | nil => intro c _ hc; exact Or.inl ⟨c, rfl, hc, fun _ h => h, by simp⟩
        | cons k l ihl =>
          intro c hl hc
          obtain ⟨e, he, hends⟩ := h.mem_adj.mp (hl k List.mem_cons_self)
          have hge := h.live k e he
          have hmem : some e ∈ a.slots := List.mem_of_getElem? he
          have hind : ind ∉ c.todo := fun h => hind1 (hc.sub h)
          rw [List.foldlM_cons, hge]
          simp only
          -- the recursive call, if any
          have call : ∀ x, a.Adj ind x → (∀ c' : GLabSt, c'.todo ⊆ c.todo → x ∉ c'.todo →
              e.src ∉ c'.todo ∧ e.tgt ∉ c'.todo) → _ := fun x hx hdone =>
            show (∃ c', (g.propagate lbl fuel x c >>= fun c => l.foldlM (init := c) fun s i =>
              match g.edges[i]? with
              | none => .error .badIndex
              | some e =>
                if e.src ≠ ind then g.propagate lbl fuel e.src s
                else if e.tgt ≠ ind then g.propagate lbl fuel e.tgt s
                else .ok s) = (.ok c' : Except LabErr GLabSt) ∧ GLoopOk g a lbl ind s1 c' ∧ c'.todo ⊆ c.todo ∧
              ∀ i ∈ k :: l, ∀ e, a.slots[i]? = some (some e) → e.src ∉ c'.todo ∧ e.tgt ∉ c'.todo) ∨
              ((g.propagate lbl fuel x c >>= fun c => l.foldlM (init := c) fun s i =>
              match g.edges[i]? with
              | none => .error .badIndex
              | some e =>
                if e.src ≠ ind then g.propagate lbl fuel e.src s
                else if e.tgt ≠ ind then g.propagate lbl fuel e.tgt s
                else .ok s) = (.error .outOfRange : Except LabErr GLabSt) ∧ ∃ v ∈ s1.todo, v ∉ g.keys) by
              rcases ih x c (lt_of_le_of_lt (Finset.card_le_card hc.sub) hcard) with
                ⟨c1, h1, hp⟩ | ⟨h1, v, hv, hnk⟩
              · rw [h1]
                have hc1 := hc.step (Relation.ReflTransGen.single hx) hp
                rcases ihl c1 (fun i hi => hl i (List.mem_cons_of_mem _ hi)) hc1 with
                  ⟨c2, h2, hc2, hsub, hall⟩ | ⟨h2, hv⟩
                · refine Or.inl ⟨c2, h2, hc2, fun v hv => hp.sub (hsub hv), ?_⟩
                  intro i hi f hf
                  rcases List.mem_cons.mp hi with rfl | hi
                  · rw [he] at hf; simp only [Option.some.injEq] at hf; subst hf
                    exact hdone c2 (fun v hv => hp.sub (hsub hv)) (fun hx => hp.hit (hsub hx))
                  · exact hall i hi f hf
                · exact Or.inr ⟨h2, hv⟩
              · rw [h1]
                exact Or.inr ⟨rfl, v, hc.sub hv, hnk⟩
          by_cases hsrc : e.src ≠ ind
          · rw [if_pos hsrc]
            have htgt : e.tgt = ind := hends.resolve_left hsrc
            exact call e.src ⟨e, hmem, Or.inr ⟨rfl, htgt⟩⟩
              (fun c' hsub hx => ⟨hx, fun h => hind (hsub (htgt ▸ h))⟩)
          · rw [if_neg hsrc]
            have hsrc' : e.src = ind := not_not.mp hsrc
            by_cases htgt : e.tgt ≠ ind
            · rw [if_pos htgt]
              exact call e.tgt ⟨e, hmem, Or.inl ⟨hsrc', rfl⟩⟩
                (fun c' hsub hx => ⟨fun h => hind (hsub (hsrc' ▸ h)), hx⟩)
            · rw [if_neg htgt]
              have htgt' : e.tgt = ind := not_not.mp htgt
              rcases ihl c (fun i hi => hl i (List.mem_cons_of_mem _ hi)) hc with
                  ⟨c2, h2, hc2, hsub, hall⟩ | ⟨h2, hv⟩
              · refine Or.inl ⟨c2, h2, hc2, hsub, ?_⟩
                intro i hi f hf
                rcases List.mem_cons.mp hi with rfl | hi
                · rw [he] at hf; simp only [Option.some.injEq] at hf; subst hf
                  rw [hsrc', htgt']
                  exact ⟨fun h => hind (hsub h), fun h => hind (hsub h)⟩
                · exact hall i hi f hf
              · exact Or.inr ⟨h2, hv⟩
      rcases loop (g.adj ind) s1 (fun _ h => h)
          ⟨fun _ h => h, fun v h h' => absurd h h', fun v h h' => absurd h h', fun v h h' => absurd h h',
            fun v h h' => absurd h h', fun v _ => rfl⟩ with ⟨c, hc, hl, hsub, hall⟩ | ⟨he, v, hv, hnk⟩
      · refine Or.inl ⟨c, hc, ?_⟩
        have hindc : ind ∉ c.todo := fun h => hind1 (hsub h)
        have hmem1 : ∀ v ∈ s.todo, v ≠ ind → v ∈ s1.todo := by
          intro v hv hne; rw [hs1]; exact Finset.mem_erase.mpr ⟨hne, hv⟩
        refine ⟨fun v hv => hsub1 (hsub hv), hindc, ?_, ?_, ?_, ?_, ?_⟩
        · intro v hv hn
          by_cases hvi : v = ind
          · subst hvi
            rw [hl.same v (fun h => absurd h hind1), hs1]; simp
          · exact hl.lab v (hmem1 v hv hvi) hn
        · intro v hv hn
          by_cases hvi : v = ind
          · subst hvi; exact Relation.ReflTransGen.refl
          · exact hl.link v (hmem1 v hv hvi) hn
        · intro v hv hn u hu
          by_cases hvi : v = ind
          · subst hvi
            obtain ⟨e, he, hor⟩ := hu
            obtain ⟨i, hi⟩ := List.mem_iff_getElem?.mp he
            have := hall i (h.mem_adj.mpr ⟨e, hi, by rcases hor with h | h; exact Or.inl h.1; exact Or.inr h.2⟩)
              e hi
            rcases hor with h1 | h1
            · rw [← h1.2]; exact this.2
            · rw [← h1.1]; exact this.1
          · exact hl.closed v (hmem1 v hv hvi) hn u hu
        · intro v hv hn
          by_cases hvi : v = ind
          · subst hvi; exact hkey
          · exact hl.keys v (hmem1 v hv hvi) hn
        · intro v hv
          have hvi : v ≠ ind := by
            rintro rfl; exact hindc (hv hin)
          rw [hl.same v (fun h => hv (hsub1 h)), hs1]
          simp [Function.update_of_ne hvi]
      · exact Or.inr ⟨he, v, hsub1 hv, hnk⟩
    · exact Or.inr ⟨rfl, ind, hin, hkey⟩
    · exact Or.inl ⟨s, rfl, fun _ h => h, hin, fun v h h' => absurd h h', fun v h h' => absurd h h',
        fun v h h' => absurd h h', fun v h h' => absurd h h', fun v _ => rfl⟩

/-- The state of the loop of `labelizeNodes`. -/
structure GLabInv (g : Graph W) (a : AGraph W) (s : GLabSt) : Prop where
  sub : s.todo ⊆ a.nodes
  lab : ∀ v ∈ a.nodes, v ∉ s.todo → ∃ l, s.lookup v = some l ∧ a.Linked v l ∧ ∀ u, a.Linked v u → l ≤ u
  closed : ∀ v ∈ a.nodes, v ∉ s.todo → ∀ u, a.Adj v u → u ∉ s.todo
  keys : ∀ v ∈ a.nodes, v ∉ s.todo → v ∈ g.keys
  none : ∀ v, v ∉ a.nodes → s.lookup v = none

theorem Rep.adj_mem {g : Graph W} {a : AGraph W} (h : Rep g a) {u v : Int} (huv : a.Adj u v) :
    u ∈ a.nodes ∧ v ∈ a.nodes := by
  obtain ⟨e, he, hor⟩ := huv
  obtain ⟨i, hi⟩ := List.mem_iff_getElem?.mp he
  have := h.ends i e hi
  rcases hor with h1 | h1
  · rw [h1.1, h1.2] at this; exact this
  · rw [h1.1, h1.2] at this; exact this.symm

theorem labLoop_spec {g : Graph W} {a : AGraph W} (h : Rep g a) : ∀ (fuel : Nat) (s : GLabSt),
    s.todo.card < fuel → GLabInv g a s →
      (∃ s', g.labLoop fuel s = .ok s' ∧ GLabInv g a s' ∧ s'.todo = ∅) ∨
      (g.labLoop fuel s = .error .outOfRange ∧ ∃ v ∈ a.nodes, v ∉ g.keys) := by
  intro fuel
  induction fuel with
  | zero => intro s hs; omega
  | succ fuel ih =>
    intro s hs hinv
    unfold Graph.labLoop
    rcases hmin : s.todo.min with _ | n
    · exact Or.inl ⟨s, rfl, hinv, Finset.min_eq_top.mp hmin⟩
    · have hn : n ∈ s.todo := Finset.mem_of_min hmin
      have hle : ∀ u ∈ s.todo, n ≤ u := fun u hu => Finset.min_le_of_eq hu hmin
      simp only
      rcases propagate_spec h n (s.todo.card + 1) n s (by omega) with ⟨s', hs', hp⟩ | ⟨he, v, hv, hnk⟩
      · rw [hs']
        simp only
        have hcard : s'.todo.card < s.todo.card :=
          Finset.card_lt_card ⟨hp.sub, fun hsub => hp.hit (hsub hn)⟩
        refine ih s' (by omega) ?_
        have hdone : ∀ v ∈ a.nodes, v ∉ s'.todo → v ∉ s.todo ∨ (v ∈ s.todo ∧ v ∉ s'.todo) := by
          intro v _ hv
          by_cases h1 : v ∈ s.todo
          · exact Or.inr ⟨h1, hv⟩
          · exact Or.inl h1
        -- the nodes linked to a node still to do are still to do
        have htodo : ∀ u v, a.Linked u v → u ∈ s.todo → v ∈ s.todo := by
          intro u v huv hu
          induction huv with
          | refl => exact hu
          | tail _ hbc ihb =>
            by_contra hc
            exact hinv.closed _ (h.adj_mem hbc).2 hc _ hbc.symm ihb
        refine ⟨fun v hv => hinv.sub (hp.sub hv), ?_, ?_, ?_, ?_⟩
        · intro v hv hn'
          rcases hdone v hv hn' with h1 | ⟨h1, h2⟩
          · rw [hp.same v (fun h => absurd h h1)]
            exact hinv.lab v hv h1
          · refine ⟨n, hp.lab v h1 h2, (hp.link v h1 h2).symm, ?_⟩
            intro u hu
            exact hle u (htodo v u hu h1)
        · intro v hv hn' u hu
          rcases hdone v hv hn' with h1 | ⟨h1, h2⟩
          · exact fun h3 => hinv.closed v hv h1 u hu (hp.sub h3)
          · exact hp.closed v h1 h2 u hu
        · intro v hv hn'
          rcases hdone v hv hn' with h1 | ⟨h1, h2⟩
          · exact hinv.keys v hv h1
          · exact hp.keys v h1 h2
        · intro v hv
          rw [hp.same v (fun h => absurd (hinv.sub h) hv)]
          exact hinv.none v hv
      · rw [he]
        exact Or.inr ⟨rfl, v, hinv.sub hv, hnk⟩

theorem labelize_spec {g : Graph W} {a : AGraph W} (h : Rep g a) :
    ((∀ v ∈ a.nodes, v ∈ g.keys) ∧ ∃ lk, g.labelizeNodes = .ok lk ∧
      (∀ v ∈ a.nodes, ∃ l, lk v = some l ∧ a.Linked v l ∧ ∀ u, a.Linked v u → l ≤ u) ∧
      ∀ v, v ∉ a.nodes → lk v = none) ∨
    ((∃ v ∈ a.nodes, v ∉ g.keys) ∧ g.labelizeNodes = .error .outOfRange) := by
  unfold Graph.labelizeNodes
  rcases labLoop_spec h (g.nodes.card + 1) ⟨fun _ => none, g.nodes⟩ (by simp)
      ⟨by rw [h.nodes], fun v hv hn => absurd (h.nodes ▸ hv) hn, fun v hv hn => absurd (h.nodes ▸ hv) hn,
        fun v hv hn => absurd (h.nodes ▸ hv) hn, fun v _ => rfl⟩ with ⟨s, hs, hinv, he⟩ | ⟨he, hv⟩
  · rw [hs]
    have : ∀ v, v ∉ s.todo := by rw [he]; simp
    exact Or.inl ⟨fun v hv => hinv.keys v hv (this v), s.lookup, rfl,
      fun v hv => hinv.lab v hv (this v), hinv.none⟩
  · rw [he]
    exact Or.inr ⟨hv, rfl⟩

end Smil
