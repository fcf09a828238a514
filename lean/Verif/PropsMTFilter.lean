import Verif.MTFilter
import Mathlib.Tactic.IntervalCases

/-!
# C116: the four decisions of the filters on the max-tree
-/

namespace Smil
section
variable {T : AMTree} {lam : ℚ}

/-! ### Specification -/

/-- `a` is `n` or one of its ancestors. -/
inductive AMTree.Anc (T : AMTree) (a : Nat) : Nat → Prop
  | self : AMTree.Anc T a a
  | up (n) : T.parent n ≠ n → AMTree.Anc T a (T.parent n) → AMTree.Anc T a n

/-- The node satisfies the criterion; roots are always kept. -/
def AMTree.Kept (T : AMTree) (lam : ℚ) (n : Nat) : Prop := T.parent n = n ∨ lam ≤ T.attr n

/-- The levels of `n` and its ancestors that satisfy `S`. -/
def AMTree.levels (T : AMTree) (S : Nat → Prop) (n : Nat) : Set Nat := {v | ∃ a, T.Anc a n ∧ S a ∧ T.level a = v}

/-- The node and all its ancestors are kept. -/
def AMTree.AllKept (T : AMTree) (lam : ℚ) (n : Nat) : Prop := ∀ b, T.Anc b n → T.Kept lam b

/-- The node or one of its descendants is kept. -/
def AMTree.SomeKept (T : AMTree) (lam : ℚ) (n : Nat) : Prop := ∃ b, T.Node b ∧ T.Anc n b ∧ T.Kept lam b

/-! ### Lemmas -/

theorem AMTree.anc_iff {a n : Nat} : T.Anc a n ↔ a = n ∨ T.parent n ≠ n ∧ T.Anc a (T.parent n) := by
  constructor
  · intro h
    cases h with
    | self => exact .inl rfl
    | up _ h1 h2 => exact .inr ⟨h1, h2⟩
  · rintro (rfl | ⟨h1, h2⟩)
    · exact .self
    · exact .up n h1 h2

theorem AMTree.OK.ind (h : T.OK) {P : Nat → Prop} (root : ∀ n, T.Node n → T.parent n = n → P n)
    (child : ∀ n, T.Node n → T.parent n ≠ n → T.Node (T.parent n) → T.level (T.parent n) < T.level n → P (T.parent n) → P n) : ∀ n, T.Node n → P n := by
  intro n hn
  obtain ⟨k, hk⟩ : ∃ k, k = T.level n := ⟨_, rfl⟩
  induction k using Nat.strong_induction_on generalizing n with
  | _ k ih =>
    rcases h.par n hn with e | ⟨e1, e2⟩
    · exact root n hn e
    · by_cases hr : T.parent n = n
      · exact root n hn hr
      · exact child n hn hr e1 e2 (ih _ (by omega) _ e1 rfl)

theorem AMTree.OK.anc_level (h : T.OK) : ∀ n, T.Node n → ∀ a, T.Anc a n → T.Node a ∧ T.level a ≤ T.level n := by
  refine h.ind ?_ ?_
  · intro n hn hr a ha
    rcases AMTree.anc_iff.mp ha with rfl | ⟨h1, -⟩
    · exact ⟨hn, le_rfl⟩
    · exact absurd hr h1
  · intro n hn _ _ hl ih a ha
    rcases AMTree.anc_iff.mp ha with rfl | ⟨-, h2⟩
    · exact ⟨hn, le_rfl⟩
    · have := ih a h2
      exact ⟨this.1, by omega⟩

theorem AMTree.Anc.trans {a b c : Nat} (h1 : T.Anc a b) (h2 : T.Anc b c) : T.Anc a c := by
  induction h2 with
  | self => exact h1
  | up n hn _ ih => exact .up n hn ih

theorem AMTree.levels_self (h : T.OK) {S : Nat → Prop} {n : Nat} (hn : T.Node n) (hs : S n) : IsGreatest (T.levels S n) (T.level n) := by
  refine ⟨⟨n, .self, hs, rfl⟩, ?_⟩
  rintro v ⟨a, ha, -, rfl⟩
  exact (h.anc_level n hn a ha).2

theorem AMTree.levels_up {S : Nat → Prop} {n : Nat} (hr : T.parent n ≠ n) (hs : ¬ S n) : T.levels S n = T.levels S (T.parent n) := by
  ext v
  constructor
  · rintro ⟨a, ha, h2, h3⟩
    rcases AMTree.anc_iff.mp ha with rfl | ⟨-, h⟩
    · exact absurd h2 hs
    · exact ⟨a, h, h2, h3⟩
  · rintro ⟨a, ha, h2, h3⟩
    exact ⟨a, .up n hr ha, h2, h3⟩

theorem AMTree.direct_eq (h : T.OK) {n : Nat} (hn : T.Node n) :
    T.filterDirect lam n = if n ≠ T.parent n ∧ T.attr n < lam then T.filterDirect lam (T.parent n) else T.level n := by
  obtain ⟨nw, e1, -, e2⟩ := AMTree.pass_eq h (T.directStep lam) hn
  unfold AMTree.filterDirect
  rw [e1]
  unfold AMTree.directStep
  by_cases hc : n ≠ T.parent n ∧ T.attr n < lam
  · rcases h.par n hn with hp | ⟨hp, hl⟩
    · exact absurd hp.symm hc.1
    · rw [if_pos hc, if_pos hc, e2 _ hp (h.lt_of_level hp hn hl)]
      rfl
  · rw [if_neg hc, if_neg hc]

theorem AMTree.min_eq (h : T.OK) {n : Nat} (hn : T.Node n) :
    T.filterMin lam n = if n ≠ T.parent n ∧ (T.attr n < lam ∨ T.level (T.parent n) ≠ T.filterMin lam (T.parent n)) then T.filterMin lam (T.parent n) else T.level n := by
  obtain ⟨nw, e1, -, e2⟩ := AMTree.pass_eq h (T.minStep lam) hn
  unfold AMTree.filterMin
  rw [e1]
  unfold AMTree.minStep
  by_cases hr : n = T.parent n
  · rw [if_neg (fun hc => hc.1 hr), if_neg (fun hc => hc.1 hr)]
  · rcases h.par n hn with hp | ⟨hp, hl⟩
    · exact absurd hp.symm hr
    · rw [e2 _ hp (h.lt_of_level hp hn hl)]
      rfl

/-! ### The decisions Direct and Min -/

/-- **C116.** The decision Direct: the new level of a node is the greatest level of a kept node among it and its ancestors. -/
theorem C116_direct (T : AMTree) (h : T.OK) (lam : ℚ) : ∀ n, T.Node n → IsGreatest (T.levels (T.Kept lam) n) (T.filterDirect lam n) := by
  refine h.ind ?_ ?_
  · intro n hn hr
    rw [AMTree.direct_eq h hn, if_neg (fun hc => hc.1 hr.symm)]
    exact AMTree.levels_self h hn (.inl hr)
  · intro n hn hr hp hl ih
    rw [AMTree.direct_eq h hn]
    by_cases hc : T.attr n < lam
    · have hk : ¬ T.Kept lam n := by
        rintro (h1 | h1)
        · exact hr h1
        · exact absurd hc (not_lt.mpr h1)
      rw [if_pos ⟨fun e => hr e.symm, hc⟩, AMTree.levels_up hr hk]
      exact ih
    · rw [if_neg (fun hh => hc hh.2)]
      exact AMTree.levels_self h hn (.inr (not_lt.mp hc))

theorem AMTree.allKept_up {n : Nat} (hr : T.parent n ≠ n) : T.AllKept lam n ↔ T.Kept lam n ∧ T.AllKept lam (T.parent n) := by
  constructor
  · intro h
    exact ⟨h n .self, fun b hb => h b (.up n hr hb)⟩
  · rintro ⟨h1, h2⟩ b hb
    rcases AMTree.anc_iff.mp hb with rfl | ⟨-, hb⟩
    · exact h1
    · exact h2 b hb

theorem AMTree.level_mem (h : T.OK) {S : Nat → Prop} {n : Nat} (hn : T.Node n) (hg : IsGreatest (T.levels S n) (T.level n)) : S n := by
  obtain ⟨a, ha, hs, hl⟩ := hg.1
  rcases AMTree.anc_iff.mp ha with rfl | ⟨hr, ha⟩
  · exact hs
  · rcases h.par n hn with hp | ⟨hp, hlt⟩
    · exact absurd hp hr
    · have := (h.anc_level _ hp a ha).2
      omega

/-- **C116.** The decision Min: the new level of a node is the greatest level of a node, among it and its ancestors, that is kept together with all its ancestors. -/
theorem C116_min (T : AMTree) (h : T.OK) (lam : ℚ) : ∀ n, T.Node n → IsGreatest (T.levels (T.AllKept lam) n) (T.filterMin lam n) := by
  refine h.ind ?_ ?_
  · intro n hn hr
    rw [AMTree.min_eq h hn, if_neg (fun hc => hc.1 hr.symm)]
    refine AMTree.levels_self h hn fun b hb => ?_
    rcases AMTree.anc_iff.mp hb with rfl | ⟨h1, -⟩
    · exact .inl hr
    · exact absurd hr h1
  · intro n hn hr hp hl ih
    rw [AMTree.min_eq h hn]
    by_cases hc : T.attr n < lam ∨ T.level (T.parent n) ≠ T.filterMin lam (T.parent n)
    · have hk : ¬ T.AllKept lam n := by
        rw [AMTree.allKept_up hr]
        rintro ⟨h1 | h1, h2⟩
        · exact hr h1
        · rcases hc with hc | hc
          · exact absurd hc (not_lt.mpr h1)
          · exact hc ((AMTree.levels_self h hp h2).unique ih)
      rw [if_pos ⟨fun e => hr e.symm, hc⟩, AMTree.levels_up hr hk]
      exact ih
    · rw [if_neg (fun hh => hc hh.2)]
      rw [not_or, not_not] at hc
      rw [← hc.2] at ih
      exact AMTree.levels_self h hn ((AMTree.allKept_up hr).mpr ⟨.inr (not_lt.mp hc.1), AMTree.level_mem h hp ih⟩)

/-! ### The decision Max -/

theorem AMTree.direct_level (h : T.OK) {n : Nat} (hn : T.Node n) : T.filterDirect lam n = T.level n ↔ T.Kept lam n := by
  constructor
  · intro e
    have := C116_direct T h lam n hn
    rw [e] at this
    exact AMTree.level_mem h hn this
  · intro hk
    exact (C116_direct T h lam n hn).unique (AMTree.levels_self h hn hk)

theorem AMTree.someKept_iff (h : T.OK) {n : Nat} (hn : T.Node n) : T.SomeKept lam n ↔ T.Kept lam n ∨ ∃ m, T.Node m ∧ T.parent m = n ∧ m ≠ n ∧ T.SomeKept lam m := by
  constructor
  · rintro ⟨b, hb, ha, hk⟩
    have : ∀ b, T.Node b → T.Anc n b → T.Kept lam b → T.Kept lam n ∨ ∃ m, T.Node m ∧ T.parent m = n ∧ m ≠ n ∧ T.SomeKept lam m := by
      intro b hb ha hk
      by_cases e : n = b
      · exact .inl (e ▸ hk)
      · have : ∀ c, T.Node c → T.Anc n c → T.Anc c b → n ≠ c → ∃ m, T.Node m ∧ T.parent m = n ∧ m ≠ n ∧ T.Anc m b := by
          refine h.ind ?_ ?_
          · intro c _ hr ha _ hne
            rcases AMTree.anc_iff.mp ha with rfl | ⟨h1, -⟩
            · exact absurd rfl hne
            · exact absurd hr h1
          · intro c hc hr _ _ ih ha hcb hne
            by_cases hp : n = T.parent c
            · exact ⟨c, hc, hp.symm, Ne.symm hne, hcb⟩
            · rcases AMTree.anc_iff.mp ha with rfl | ⟨-, h2⟩
              · exact absurd rfl hne
              · exact ih h2 (AMTree.Anc.trans (.up c hr .self) hcb) hp
        obtain ⟨m, m1, m2, m3, m4⟩ := this b hb ha .self e
        exact .inr ⟨m, m1, m2, m3, b, hb, m4, hk⟩
    exact this b hb ha hk
  · rintro (hk | ⟨m, m1, m2, m3, b, hb, ha, hk⟩)
    · exact ⟨n, hn, .self, hk⟩
    · exact ⟨b, hb, (AMTree.Anc.up m (fun e => m3 (by rw [← m2, e])) (by rw [m2]; exact .self)).trans ha, hk⟩

open Classical in
theorem AMTree.max_fold (h : T.OK) (nw0 : Nat → Nat) (h0 : ∀ n, T.Node n → nw0 n = T.filterDirect lam n) : ∀ (P L : List Nat), (∀ n, n ∈ P ++ L → T.Node n) →
    (∀ m c, m ∈ L → T.Node c → T.parent c = m → c ≠ m → c ∈ P ++ L) → ((P ++ L).Pairwise fun a b => T.level b ≤ T.level a) → ∀ nw : Nat → Nat,
    (∀ n, T.Node n → (nw n = if T.Kept lam n ∨ ∃ m ∈ P, T.parent m = n ∧ m ≠ n ∧ T.SomeKept lam m then T.level n else nw0 n)) →
    ∀ n, T.Node n → (L.foldl T.maxStep nw n = if T.Kept lam n ∨ ∃ m ∈ P ++ L, T.parent m = n ∧ m ≠ n ∧ T.SomeKept lam m then T.level n else nw0 n) := by
  intro P L
  induction L generalizing P with
  | nil =>
    intro _ _ _ nw hnw n hn
    rw [List.append_nil]
    exact hnw n hn
  | cons m L ih =>
    intro hN hC hS nw hnw n hn
    have hm : T.Node m := hN m (List.mem_append.mpr (.inr List.mem_cons_self))
    have hsplit : P ++ m :: L = (P ++ [m]) ++ L := by rw [List.append_assoc]; rfl
    have hsave : nw m = T.level m ↔ T.SomeKept lam m := by
      rw [hnw m hm, AMTree.someKept_iff h hm]
      by_cases hk : T.Kept lam m ∨ ∃ c ∈ P, T.parent c = m ∧ c ≠ m ∧ T.SomeKept lam c
      · rw [if_pos hk]
        refine ⟨fun _ => ?_, fun _ => rfl⟩
        rcases hk with hk | ⟨c, c1, c2⟩
        · exact .inl hk
        · exact .inr ⟨c, hN c (List.mem_append.mpr (.inl c1)), c2⟩
      · rw [if_neg hk, h0 m hm, AMTree.direct_level h hm]
        refine ⟨.inl, fun hh => ?_⟩
        rcases hh with hh | ⟨c, c0, c1, c2, c3⟩
        · exact hh
        · exfalso
          have hmem := hC m c List.mem_cons_self c0 c1 c2
          have hlt : T.level m < T.level c := by
            rcases h.par c c0 with e | ⟨-, e⟩
            · exact absurd (e.symm.trans c1) c2
            · rwa [c1] at e
          rcases List.mem_append.mp hmem with hmem | hmem
          · exact hk (.inr ⟨c, hmem, c1, c2, c3⟩)
          · rcases List.mem_cons.mp hmem with e | hmem
            · exact c2 e
            · rw [List.pairwise_append, List.pairwise_cons] at hS
              have := hS.2.1.1 c hmem
              omega
    rw [List.foldl_cons, hsplit]
    refine ih (P ++ [m]) (by rw [← hsplit]; exact hN) (fun a c ha => by rw [← hsplit]; exact hC a c (List.mem_cons_of_mem _ ha)) (by rw [← hsplit]; exact hS) _ ?_ n hn
    intro k hk
    have hex : (∃ a ∈ P ++ [m], T.parent a = k ∧ a ≠ k ∧ T.SomeKept lam a) ↔ (∃ a ∈ P, T.parent a = k ∧ a ≠ k ∧ T.SomeKept lam a) ∨ T.parent m = k ∧ m ≠ k ∧ T.SomeKept lam m := by
      constructor
      · rintro ⟨a, ha, r⟩
        rcases List.mem_append.mp ha with ha | ha
        · exact .inl ⟨a, ha, r⟩
        · rw [List.mem_singleton] at ha
          rw [ha] at r
          exact .inr r
      · rintro (⟨a, ha, r⟩ | r)
        · exact ⟨a, List.mem_append.mpr (.inl ha), r⟩
        · exact ⟨m, List.mem_append.mpr (.inr List.mem_cons_self), r⟩
    unfold AMTree.maxStep
    by_cases hc : m ≠ T.parent m ∧ nw m = T.level m
    · rw [if_pos hc, Function.update_apply]
      by_cases hp : k = T.parent m
      · rw [if_pos hp, if_pos (.inr (hex.mpr (.inr ⟨hp.symm, fun e => hc.1 (e.trans hp), hsave.mp hc.2⟩))), hp]
      · rw [if_neg hp, hnw k hk]
        have : (∃ a ∈ P ++ [m], T.parent a = k ∧ a ≠ k ∧ T.SomeKept lam a) ↔ ∃ a ∈ P, T.parent a = k ∧ a ≠ k ∧ T.SomeKept lam a := by
          rw [hex]
          exact ⟨fun hh => hh.resolve_right fun r => hp r.1.symm, .inl⟩
        simp only [this]
    · rw [if_neg hc, hnw k hk]
      have : (∃ a ∈ P ++ [m], T.parent a = k ∧ a ≠ k ∧ T.SomeKept lam a) ↔ ∃ a ∈ P, T.parent a = k ∧ a ≠ k ∧ T.SomeKept lam a := by
        rw [hex]
        refine ⟨fun hh => hh.resolve_right fun r => hc ⟨fun e => r.2.1 (e.trans r.1), hsave.mpr r.2.2⟩, .inl⟩
      simp only [this]

open Classical in
/-- **C116.** The decision Max of the code: a node that is kept, or that has a kept descendant, keeps its level; the others take the greatest level of an ancestor that is kept itself. -/
theorem C116_max (T : AMTree) (h : T.OK) (lam : ℚ) (n : Nat) (hn : T.Node n) :
    T.filterMax lam n = if T.SomeKept lam n then T.level n else T.filterDirect lam n := by
  have hnode : ∀ n, n ∈ T.orderDown → T.Node n := by
    intro n hn
    obtain ⟨l, h1, i, h2, h3⟩ := AMTree.mem_orderDown.mp hn
    exact ⟨l + 1, by omega, i, h2, h3⟩
  have hdown : ∀ c, T.Node c → T.parent c ≠ c → c ∈ T.orderDown := by
    intro c hc hr
    rw [AMTree.mem_orderDown]
    have hpos : 0 < T.level c := by
      rcases h.par c hc with e | ⟨-, e⟩
      · exact absurd e hr
      · omega
    obtain ⟨l, h1, i, h2, h3⟩ := hc
    have hl := h.lev l h1 i h2
    rw [← h3] at hl
    exact ⟨l - 1, by omega, i, by rwa [Nat.sub_add_cancel (by omega)], by rwa [Nat.sub_add_cancel (by omega)]⟩
  have hpair : T.orderDown.Pairwise fun a b => T.level b ≤ T.level a := by
    unfold AMTree.orderDown
    rw [List.pairwise_flatMap]
    have key : ∀ l, l < 255 → ∀ x ∈ (List.range (T.cnt (l + 1))).map (T.below (l + 1) + ·), T.level x = l + 1 := by
      intro l hl x hx
      obtain ⟨i, hi, rfl⟩ := List.mem_map.mp hx
      exact h.lev (l + 1) (by omega) i (List.mem_range.mp hi)
    refine ⟨fun l hl => ?_, ?_⟩
    · rw [List.mem_reverse, List.mem_range] at hl
      refine List.Pairwise.imp_of_mem (R := fun _ _ => True) (fun {a b} ha hb _ => ?_) (List.pairwise_of_forall fun _ _ => trivial)
      rw [key l hl a ha, key l hl b hb]
    · rw [List.pairwise_reverse]
      refine List.Pairwise.imp_of_mem (fun {a b} ha hb hab x hx y hy => ?_) List.pairwise_lt_range
      rw [List.mem_range] at ha hb
      rw [key b hb x hx, key a ha y hy]
      omega
  have := AMTree.max_fold (lam := lam) h (T.filterDirect lam) (fun _ _ => rfl) [] T.orderDown hnode
    (fun m c _ hc hp hne => hdown c hc (fun e => hne (e.symm.trans hp))) hpair (T.filterDirect lam) ?_ n hn
  · unfold AMTree.filterMax
    rw [this, List.nil_append]
    have e : (T.Kept lam n ∨ ∃ m ∈ T.orderDown, T.parent m = n ∧ m ≠ n ∧ T.SomeKept lam m) ↔ T.SomeKept lam n := by
      rw [AMTree.someKept_iff h hn]
      refine or_congr Iff.rfl ⟨fun ⟨m, m1, m2⟩ => ⟨m, hnode m m1, m2⟩, fun ⟨m, m1, m2, m3, m4⟩ => ⟨m, hdown m m1 (fun e => m3 (e.symm.trans m2)), m2, m3, m4⟩⟩
    simp only [e]
  · intro k hk
    by_cases hkk : T.Kept lam k
    · rw [if_pos (.inl hkk)]
      exact (AMTree.direct_level h hk).mpr hkk
    · rw [if_neg]
      rintro (hh | ⟨m, m1, -⟩)
      · exact hkk hh
      · exact absurd m1 List.not_mem_nil

/-! ### Increasing attributes -/

/-- **C116.** For an attribute that does not grow from a parent to its child, as the area, the decisions Min, Direct and Max are the same on every node: the greatest level of a kept node. -/
theorem C116_increasing (T : AMTree) (h : T.OK) (lam : ℚ) (hinc : ∀ n, T.Node n → T.parent n ≠ n → T.attr n ≤ T.attr (T.parent n)) (n : Nat) (hn : T.Node n) :
    T.filterMin lam n = T.filterDirect lam n ∧ T.filterMax lam n = T.filterDirect lam n ∧ IsGreatest (T.levels (T.Kept lam) n) (T.filterMax lam n) := by
  have hall : ∀ n, T.Node n → ∀ a, T.Anc a n → T.Kept lam n → T.Kept lam a := by
    refine h.ind ?_ ?_
    · intro n _ hr a ha hk
      rcases AMTree.anc_iff.mp ha with rfl | ⟨h1, -⟩
      · exact hk
      · exact absurd hr h1
    · intro n hn hr _ _ ih a ha hk
      rcases AMTree.anc_iff.mp ha with rfl | ⟨-, h2⟩
      · exact hk
      · refine ih a h2 (.inr ?_)
        rcases hk with hk | hk
        · exact absurd hk hr
        · exact hk.trans (hinc n hn hr)
  have hD := C116_direct T h lam n hn
  have hmin : T.filterMin lam n = T.filterDirect lam n := by
    refine (C116_min T h lam n hn).unique ?_
    have : T.levels (T.AllKept lam) n = T.levels (T.Kept lam) n := by
      ext v
      constructor
      · rintro ⟨a, h1, h2, h3⟩
        exact ⟨a, h1, h2 a .self, h3⟩
      · rintro ⟨a, h1, h2, h3⟩
        exact ⟨a, h1, fun b hb => hall a (h.anc_level n hn a h1).1 b hb h2, h3⟩
    rw [this]
    exact hD
  have hmax : T.filterMax lam n = T.filterDirect lam n := by
    classical
    rw [C116_max T h lam n hn]
    split
    · rename_i hs
      obtain ⟨b, hb, ha, hk⟩ := hs
      exact ((AMTree.direct_level h hn).mpr (hall b hb n ha hk)).symm
    · rfl
  exact ⟨hmin, hmax, hmax ▸ hD⟩

/-- **C116.** The images of the decisions Min, Direct and Max: no pixel is raised, Min is below Direct and Direct is below Max, and a pixel whose node and ancestors are all kept is unchanged by the three. -/
theorem C116_image (T : AMTree) (h : T.OK) (lam : ℚ) (status pix : Nat → Nat) (i : Nat) (hl : pix i < 256) (hs : status i < T.cnt (pix i)) :
    T.output (T.filterMin lam) status pix i ≤ T.output (T.filterDirect lam) status pix i ∧
    T.output (T.filterDirect lam) status pix i ≤ T.output (T.filterMax lam) status pix i ∧
    T.output (T.filterMax lam) status pix i ≤ pix i ∧
    (T.AllKept lam (T.below (pix i) + status i) → T.output (T.filterMin lam) status pix i = pix i) := by
  classical
  have hn : T.Node (T.below (pix i) + status i) := ⟨pix i, hl, status i, hs, rfl⟩
  have hlev := h.lev (pix i) hl (status i) hs
  unfold AMTree.output
  generalize T.below (pix i) + status i = n at hn hlev
  have hD := C116_direct T h lam n hn
  have hM := C116_min T h lam n hn
  have hDl : T.filterDirect lam n ≤ T.level n := by
    obtain ⟨a, h1, -, h3⟩ := hD.1
    rw [← h3]
    exact (h.anc_level n hn a h1).2
  refine ⟨?_, ?_, ?_, ?_⟩
  · obtain ⟨a, h1, h2, h3⟩ := hM.1
    exact hD.2 ⟨a, h1, h2 a .self, h3⟩
  · rw [C116_max T h lam n hn]
    split
    · exact hDl
    · exact le_rfl
  · rw [C116_max T h lam n hn]
    split <;> omega
  · intro hk
    rw [← hlev]
    exact hM.unique (AMTree.levels_self h hn hk)

/-! ### Exceptions -/

/-- A root of level 0, its child of level 1, and two children of this one of level 2. -/
def exTree (a1 a2 a3 : ℚ) : AMTree where
  below l := if l = 0 then 0 else if l = 1 then 1 else if l = 2 then 2 else 4
  cnt l := if l = 0 then 1 else if l = 1 then 1 else if l = 2 then 2 else 0
  parent n := if n = 2 ∨ n = 3 then 1 else 0
  level n := if n = 0 then 0 else if n = 1 then 1 else 2
  attr n := if n = 0 then 10 else if n = 1 then a1 else if n = 2 then a2 else a3

theorem exTree_node {a1 a2 a3 : ℚ} {n : Nat} : (exTree a1 a2 a3).Node n ↔ n < 4 := by
  constructor
  · rintro ⟨l, hl, i, hi, rfl⟩
    simp only [exTree] at hi ⊢
    split at hi
    · rename_i h; simp only [h, ↓reduceIte]; omega
    · rename_i h0
      split at hi
      · rename_i h; simp only [h]; simp; omega
      · rename_i h1
        split at hi
        · rename_i h; simp only [h]; simp; omega
        · omega
  · intro h
    interval_cases n
    · exact ⟨0, by omega, 0, by simp [exTree], by simp [exTree]⟩
    · exact ⟨1, by omega, 0, by simp [exTree], by simp [exTree]⟩
    · exact ⟨2, by omega, 0, by simp [exTree], by simp [exTree]⟩
    · exact ⟨2, by omega, 1, by simp [exTree], by simp [exTree]⟩

theorem exTree_ok (a1 a2 a3 : ℚ) : (exTree a1 a2 a3).OK := by
  refine ⟨?_, ?_, ?_⟩
  · intro l hl i hi
    simp only [exTree] at hi ⊢
    split at hi
    · rename_i h; simp only [h]; simp; omega
    · rename_i h0
      split at hi
      · rename_i h; simp only [h]; simp; omega
      · rename_i h1
        split at hi
        · rename_i h; simp only [h]; simp; omega
        · omega
  · intro l
    match l with
    | 0 => simp [exTree]
    | 1 => simp [exTree]
    | 2 => simp [exTree]
    | n + 3 => simp [exTree]
  · intro n hn
    rw [exTree_node] at hn
    simp only [exTree_node]
    interval_cases n <;> simp [exTree]

/-- **C116 fails for the decision Max.** The node 1 does not satisfy the criterion, but its child 2 does, so that the node 1 keeps its level 1. Its other child 3 is removed: it should take the
level 1 of its parent, the greatest level of an ancestor with a kept descendant; it gets the level 0 of the root. -/
theorem C116_max_bug : (exTree 1 5 1).OK ∧ (exTree 1 5 1).filterMax 3 1 = 1 ∧ (exTree 1 5 1).filterMax 3 2 = 2 ∧ (exTree 1 5 1).filterMax 3 3 = 0 ∧
    IsGreatest ((exTree 1 5 1).levels ((exTree 1 5 1).SomeKept 3) 3) 1 := by
  have hok := exTree_ok 1 5 1
  have node : ∀ n, n < 4 → (exTree 1 5 1).Node n := fun n h => exTree_node.mpr h
  have k0 : (exTree 1 5 1).Kept 3 0 := .inl (by simp [exTree])
  have k1 : ¬ (exTree 1 5 1).Kept 3 1 := by simp [AMTree.Kept, exTree]
  have k2 : (exTree 1 5 1).Kept 3 2 := .inr (by simp [exTree]; norm_num)
  have k3 : ¬ (exTree 1 5 1).Kept 3 3 := by simp [AMTree.Kept, exTree]
  have s2 : (exTree 1 5 1).SomeKept 3 2 := ⟨2, node 2 (by omega), .self, k2⟩
  have s1 : (exTree 1 5 1).SomeKept 3 1 := (AMTree.someKept_iff hok (node 1 (by omega))).mpr (.inr ⟨2, node 2 (by omega), by simp [exTree], by omega, s2⟩)
  have s3 : ¬ (exTree 1 5 1).SomeKept 3 3 := by
    rw [AMTree.someKept_iff hok (node 3 (by omega))]
    rintro (hh | ⟨m, m1, m2, -⟩)
    · exact k3 hh
    · rw [exTree_node] at m1
      interval_cases m <;> simp [exTree] at m2
  have d1 : (exTree 1 5 1).filterDirect 3 1 = 0 := by
    rw [AMTree.direct_eq hok (node 1 (by omega)), if_pos (by simp [exTree])]
    exact (AMTree.direct_level hok (node 0 (by omega))).mpr k0
  refine ⟨hok, ?_, ?_, ?_, ?_⟩
  · rw [C116_max _ hok 3 1 (node 1 (by omega)), if_pos s1]; simp [exTree]
  · rw [C116_max _ hok 3 2 (node 2 (by omega)), if_pos s2]; simp [exTree]
  · rw [C116_max _ hok 3 3 (node 3 (by omega)), if_neg s3, AMTree.direct_eq hok (node 3 (by omega)), if_pos (by simp [exTree])]
    exact d1
  · rw [AMTree.levels_up (by simp [exTree]) s3]
    exact AMTree.levels_self hok (node 1 (by omega)) s1

/-- The hypotheses of `C116_increasing`, and its result: the levels 0, 1, 2 and 1. -/
example : (∀ n, (exTree 8 5 1).Node n → (exTree 8 5 1).parent n ≠ n → (exTree 8 5 1).attr n ≤ (exTree 8 5 1).attr ((exTree 8 5 1).parent n)) ∧
    (exTree 8 5 1).filterDirect 3 3 = 1 := by
  constructor
  · intro n hn _
    rw [exTree_node] at hn
    interval_cases n <;> simp [exTree] <;> norm_num
  · rw [AMTree.direct_eq (exTree_ok 8 5 1) (exTree_node.mpr (by omega)), if_pos (by simp [exTree])]
    exact (AMTree.direct_level (exTree_ok 8 5 1) (exTree_node.mpr (by simp [exTree]))).mpr (.inr (by simp [exTree]; norm_num))

/-- **C116 fails for the decision Subtractive.** When all the nodes satisfy the criterion nothing should change; the level of the root is subtracted from every node. -/
theorem C116_subtractive_bug (T : AMTree) (h : T.OK) (lam : ℚ) (hk : ∀ n, T.Node n → lam ≤ T.attr n) : ∀ n, T.Node n → ∃ r, T.Anc r n ∧ T.parent r = r ∧ T.filterSub lam n + T.level r = T.level n := by
  refine h.ind ?_ ?_
  · intro n hn hr
    obtain ⟨nw, e1, e0, -⟩ := AMTree.pass_eq h (T.subStep lam) hn
    refine ⟨n, .self, hr, ?_⟩
    unfold AMTree.filterSub
    rw [e1]
    unfold AMTree.subStep
    rw [if_neg (fun hc => hc.1 hr.symm), hr, e0]
    simp
  · intro n hn hr hp hl ih
    obtain ⟨r, r1, r2, r3⟩ := ih
    obtain ⟨nw, e1, -, e2⟩ := AMTree.pass_eq h (T.subStep lam) hn
    refine ⟨r, .up n hr r1, r2, ?_⟩
    have hlt := h.level_lt hn
    unfold AMTree.filterSub at r3 ⊢
    rw [e1]
    unfold AMTree.subStep
    rw [if_neg (fun hc => absurd hc.2 (not_lt.mpr (hk n hn))), e2 _ hp (h.lt_of_level hp hn hl)]
    omega

/-- A root of level 5 alone: the flat image 5 becomes 0. -/
example : (⟨fun l => if l ≤ 5 then 0 else 1, fun l => if l = 5 then 1 else 0, fun _ => 0, fun _ => 5, fun _ => 10⟩ : AMTree).filterSub 3 0 = 0 ∧
    (⟨fun l => if l ≤ 5 then 0 else 1, fun l => if l = 5 then 1 else 0, fun _ => 0, fun _ => 5, fun _ => 10⟩ : AMTree).filterDirect 3 0 = 5 := by
  decide +kernel

end
end Smil
