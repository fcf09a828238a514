import Verif.MaxTreeFlood

/-!
# The criteria and the values of the nodes
-/

namespace Smil
open Relation
variable {M : Type} {K : MTCrit M} {C : MTCfg} {Good : M → Finset Nat → Prop} {mv : Nat} {s : MTSt M}
  {anc : Nat → Nat → Prop} {kids : Nat → List Nat}

/-- Nodes below the nodes of a list. -/
noncomputable def descs (anc : Nat → Nat → Prop) (cur : Nat) (L : List Nat) : Finset Nat := by
  classical exact (Finset.range cur).filter fun x => ∃ k ∈ L, anc k x

theorem mem_descs {cur : Nat} {L : List Nat} {x : Nat} :
    x ∈ descs anc cur L ↔ x < cur ∧ ∃ k ∈ L, anc k x := by unfold descs; simp

section
variable {lev child bro : Nat → Nat} {cur : Nat}

theorem MTr.disj (h : MTr lev child bro cur anc kids) {p k k' x : Nat} (hk : k ∈ kids p) (hk' : k' ∈ kids p)
    (hx : anc k x) (hx' : anc k' x) : k = k' := by
  rcases le_total (lev k) (lev k') with hl | hl
  · exact h.kidd hk hk' (h.chain hx hx' hl)
  · exact (h.kidd hk' hk (h.chain hx' hx hl)).symm

/-- The nodes below `c` without `c`. -/
theorem MTr.below (h : MTr lev child bro cur anc kids) {c x : Nat} (hc : anc c x) :
    x = c ∨ ∃ k ∈ kids c, anc k x := by
  by_cases e : c = x
  · exact .inl e.symm
  · exact .inr (h.kid.mp ⟨hc, e⟩)

/-- `c` and the nodes after it. -/
theorem MTr.suffix (h : MTr lev child bro cur anc kids) {node c : Nat} {pre L : List Nat}
    (hL : kids node = pre ++ c :: L) :
    c ∈ kids node ∧ (∀ k ∈ L, k ∈ kids node) ∧ (∀ x, anc c x → ¬ ∃ k ∈ L, anc k x) ∧
      (descs anc cur (kids c)).card < (descs anc cur (c :: L)).card ∧
      (descs anc cur L).card < (descs anc cur (c :: L)).card := by
  have hc : c ∈ kids node := by rw [hL]; simp
  have hk : ∀ k ∈ L, k ∈ kids node := fun k hk => by rw [hL]; simp [hk]
  have hcL : c ∉ L := by
    have := h.nd node
    rw [hL] at this
    exact (List.nodup_cons.mp (List.nodup_append.mp this).2.1).1
  have hdis : ∀ x, anc c x → ¬ ∃ k ∈ L, anc k x := by
    rintro x hx ⟨k, hk', hkx⟩
    exact hcL (h.disj hc (hk k hk') hx hkx ▸ hk')
  have hcn := h.kidn hc
  have hcr := h.refl hcn.1 hcn.2
  have hmem : c ∈ descs anc cur (c :: L) := mem_descs.mpr ⟨hcn.2, c, by simp, hcr⟩
  refine ⟨hc, hk, hdis, ?_, ?_⟩
  · refine Finset.card_lt_card ⟨fun x hx => ?_, fun hs => ?_⟩
    · obtain ⟨h1, k, h2, h3⟩ := mem_descs.mp hx
      exact mem_descs.mpr ⟨h1, c, by simp, (h.kid.mpr ⟨k, h2, h3⟩).1⟩
    · obtain ⟨_, h2⟩ := mem_descs.mp (hs hmem)
      exact (h.kid.mpr h2).2 rfl
  · refine Finset.card_lt_card ⟨fun x hx => ?_, fun hs => ?_⟩
    · obtain ⟨h1, k, h2, h3⟩ := mem_descs.mp hx
      exact mem_descs.mpr ⟨h1, k, by simp [h2], h3⟩
    · exact hdis c hcr (mem_descs.mp (hs hmem)).2

end

/-- The offsets of the nodes below those of a list. -/
noncomputable def subL (C : MTCfg) (anc : Nat → Nat → Prop) (eti : Nat → Nat) (L : List Nat) : Finset Nat :=
  offSet C fun i => ∃ k ∈ L, anc k (eti i)

/-- `updateCriteria`. -/
theorem mtCriteria_spec (h : MTDone C Good mv s anc kids) (hG : MTGood K C Good) :
    ∀ (fuel node : Nat) (L : List Nat) (c : Nat) (crit : Nat → M) (pre : List Nat), kids node = pre ++ L →
      Enc s.tree.bro c L → (descs anc s.tree.cur L).card < fuel →
      (∀ x, (∃ k ∈ L, anc k x) → Good (crit x) (offSet C fun i => s.eti i = x)) →
      ∃ crit', mtCriteria K s.tree fuel node c crit = some crit' ∧
        (∀ x, (∃ k ∈ L, anc k x) → Good (crit' x) (offSet C fun i => anc x (s.eti i))) ∧
        (∀ x, x ≠ node → (¬ ∃ k ∈ L, anc k x) → crit' x = crit x) ∧
        ∀ S, Disjoint S (subL C anc s.eti L) → Good (crit node) S →
          Good (crit' node) (S ∪ subL C anc s.eti L)
  | 0, _, _, _, _, _, _, _, hf, _ => by omega
  | fuel + 1, node, [], c, crit, _, _, he, _, _ => by
    cases he
    refine ⟨crit, by unfold mtCriteria; simp, by simp, fun _ _ _ => rfl, fun S _ hS => ?_⟩
    have : subL C anc s.eti [] = ∅ := by
      rw [Finset.eq_empty_iff_forall_notMem]
      intro i hi
      simp [subL, mem_offSet] at hi
    rw [this, Finset.union_empty]
    exact hS
  | fuel + 1, node, c :: L, _, crit, pre, hL, he, hf, hcr => by
    cases he with
    | cons hc0 he =>
    obtain ⟨hc, hk, hdis, hc1, hc2⟩ := h.tr.suffix hL
    have hcn := h.tr.kidn hc
    have hcc := h.tr.refl hcn.1 hcn.2
    unfold mtCriteria
    rw [if_neg hc0]
    obtain ⟨k1, e1, h1, h2, h3⟩ := mtCriteria_spec h hG fuel c (kids c) (s.tree.child c) crit [] (by simp)
      (h.tr.enc hcn.1 hcn.2) (by omega) (fun x hx => hcr x ⟨c, by simp, (h.tr.kid.mpr hx).1⟩)
    rw [e1]
    simp only [Option.bind_some]
    have hnc : ∀ {k}, k ∈ kids node → ¬ anc k node := fun hk hkn =>
      (h.tr.kid_anc hk).2 (h.tr.anti (h.tr.kid_anc hk).1 hkn)
    have hcsub : Good (k1 c) (offSet C fun i => anc c (s.eti i)) := by
      have h4 := h3 (offSet C fun i => s.eti i = c) (by
        rw [Finset.disjoint_left]
        intro i hi hi'
        have := (mem_offSet.mp hi).2
        exact (h.tr.kid.mpr (mem_offSet.mp hi').2).2 this.symm) (hcr c ⟨c, by simp, hcc⟩)
      convert h4 using 1
      ext i
      simp only [Finset.mem_union, subL, mem_offSet]
      constructor
      · rintro ⟨h5, h6⟩
        rcases h.tr.below h6 with h7 | h7
        · exact .inl ⟨h5, h7⟩
        · exact .inr ⟨h5, h7⟩
      · rintro (⟨h5, h6⟩ | ⟨h5, h6⟩)
        · exact ⟨h5, by rw [h6]; exact hcc⟩
        · exact ⟨h5, (h.tr.kid.mpr h6).1⟩
    have hk1n : k1 node = crit node := by
      refine h2 node (fun e => hnc hc (e ▸ hcc)) ?_
      rintro ⟨k, hk', hkn⟩
      exact hnc hc (h.tr.kid.mpr ⟨k, hk', hkn⟩).1
    have hk1L : ∀ x, (∃ k ∈ L, anc k x) → k1 x = crit x := by
      intro x hx
      refine h2 x ?_ ?_
      · rintro rfl; exact hdis _ hcc hx
      · intro hx'; exact hdis x (h.tr.kid.mpr hx').1 hx
    have hLn : ∀ x, (∃ k ∈ L, anc k x) → x ≠ node := by
      rintro x ⟨k, hk', hkx⟩ rfl
      exact hnc (hk k hk') hkx
    obtain ⟨k2, e2, h4, h5, h6⟩ := mtCriteria_spec h hG fuel node L (s.tree.bro c)
      (Function.update k1 node (K.merge (k1 node) (k1 c))) (pre ++ [c]) (by rw [hL]; simp) he (by omega) (by
        intro x hx
        rw [Function.update_of_ne (hLn x hx), hk1L x hx]
        obtain ⟨k, hk', hkx⟩ := hx
        exact hcr x ⟨k, by simp [hk'], hkx⟩)
    refine ⟨k2, e2, ?_, ?_, ?_⟩
    · rintro x ⟨k, hk', hkx⟩
      rcases List.mem_cons.mp hk' with hk' | hk'
      · subst hk'
        have hne : x ≠ node := by rintro rfl; exact hnc hc hkx
        rw [h5 x hne (hdis x hkx), Function.update_of_ne hne]
        rcases h.tr.below hkx with h7 | h7
        · rw [h7]; exact hcsub
        · exact h1 x h7
      · exact h4 x ⟨k, hk', hkx⟩
    · intro x hx hxL
      have hxc : ¬ anc c x := fun e => hxL ⟨c, by simp, e⟩
      rw [h5 x hx (fun ⟨k, hk', hkx⟩ => hxL ⟨k, by simp [hk'], hkx⟩), Function.update_of_ne hx]
      refine h2 x (fun e => hxc (e ▸ hcc)) fun hx' => hxc (h.tr.kid.mpr hx').1
    · intro S hS hSg
      have hs1 : Disjoint S (offSet C fun i => anc c (s.eti i)) := by
        rw [Finset.disjoint_left] at hS ⊢
        intro i hi hi'
        have := mem_offSet.mp hi'
        exact hS hi (mem_offSet.mpr ⟨this.1, c, by simp, this.2⟩)
      have h7 := h6 (S ∪ offSet C fun i => anc c (s.eti i)) (by
        rw [Finset.disjoint_left] at hS ⊢
        intro i hi hi'
        obtain ⟨h8, k, h9, h10⟩ := mem_offSet.mp hi'
        rcases Finset.mem_union.mp hi with hi | hi
        · exact hS hi (mem_offSet.mpr ⟨h8, k, by simp [h9], h10⟩)
        · exact hdis _ (mem_offSet.mp hi).2 ⟨k, h9, h10⟩) (by
        rw [Function.update_self, hk1n]
        exact hG.merge hs1 hSg hcsub)
      convert h7 using 1
      rw [Finset.union_assoc]
      congr 1
      ext i
      simp only [Finset.mem_union, subL, mem_offSet, List.mem_cons]
      constructor
      · rintro ⟨h8, k, h9 | h9, h10⟩
        · subst h9; exact .inl ⟨h8, h10⟩
        · exact .inr ⟨h8, k, h9, h10⟩
      · rintro (⟨h8, h10⟩ | ⟨h8, k, h9, h10⟩)
        · exact ⟨h8, c, .inl rfl, h10⟩
        · exact ⟨h8, k, .inr h9, h10⟩

/-- `v` is the level of the nearest kept ancestor of `x`, the root being always kept. -/
def NodeVal (anc : Nat → Nat → Prop) (lev : Nat → Nat) (big : Nat → Prop) (x v : Nat) : Prop :=
  ∃ a, anc a x ∧ (a = 1 ∨ (a ≠ 1 ∧ big a)) ∧ v = lev a ∧ ∀ b, anc b x → lev a < lev b → ¬ big b

/-- `processMaxTree`. -/
theorem mtLut_spec {T : MTree M} {lev child bro : Nat → Nat} {cur : Nat}
    (h : MTr lev child bro cur anc kids) (hl : T.lev = lev) (hch : T.child = child) (hb : T.bro = bro)
    (stop : Nat) :
    ∀ (fuel node : Nat) (L : List Nat) (prev c : Nat) (lut : Nat → Nat) (pre : List Nat), kids node = pre ++ L →
      Enc bro c L → (descs anc cur L).card < fuel →
      NodeVal anc lev (fun a => stop ≤ K.val (T.crit a)) node prev →
      ∃ lut', mtLut K T stop fuel prev c lut = some lut' ∧
        (∀ x, (∃ k ∈ L, anc k x) → NodeVal anc lev (fun a => stop ≤ K.val (T.crit a)) x (lut' x)) ∧
        ∀ x, (¬ ∃ k ∈ L, anc k x) → lut' x = lut x
  | 0, _, _, _, _, _, _, _, _, hf, _ => by omega
  | fuel + 1, node, [], prev, c, lut, _, _, he, _, _ => by
    cases he
    exact ⟨lut, by unfold mtLut; simp, by simp, fun _ _ => rfl⟩
  | fuel + 1, node, c :: L, prev, _, lut, pre, hL, he, hf, hv => by
    cases he with
    | cons hc0 he =>
    obtain ⟨hc, hk, hdis, hc1, hc2⟩ := h.suffix hL
    have hcn := h.kidn hc
    have hcc := h.refl hcn.1 hcn.2
    unfold mtLut
    rw [if_neg hc0]
    dsimp only
    have hpc := h.kid_anc hc
    have hvc : NodeVal anc lev (fun a => stop ≤ K.val (T.crit a)) c
        (if K.val (T.crit c) < stop then prev else T.lev c) := by
      by_cases hbg : K.val (T.crit c) < stop
      · rw [if_pos hbg]
        obtain ⟨a, ha, h1, h2, h3⟩ := hv
        refine ⟨a, h.trans ha hpc.1, h1, h2, fun b hb hab => ?_⟩
        by_cases e : b = c
        · rw [e]; exact Nat.not_le_of_lt hbg
        · exact h3 b (h.up hc hb e) hab
      · rw [if_neg hbg, hl]
        refine ⟨c, hcc, .inr ⟨?_, Nat.le_of_not_lt hbg⟩, rfl, fun b hb hab => ?_⟩
        · rintro rfl
          exact hpc.2 (h.anti hpc.1 (h.root (h.node hpc.1).1.1 (h.node hpc.1).1.2))
        · have := h.le hb; omega
    obtain ⟨k1, e1, h1, h2⟩ := mtLut_spec h hl hch hb stop fuel c (kids c)
      (if K.val (T.crit c) < stop then prev else T.lev c) (T.child c)
      (Function.update lut c (if K.val (T.crit c) < stop then prev else T.lev c)) [] (by simp)
      (by rw [hch]; exact h.enc hcn.1 hcn.2) (by omega) hvc
    rw [e1]
    simp only [Option.bind_some]
    obtain ⟨k2, e2, h3, h4⟩ := mtLut_spec h hl hch hb stop fuel node L prev (T.bro c) k1 (pre ++ [c])
      (by rw [hL]; simp) (by rw [hb]; exact he) (by omega) hv
    refine ⟨k2, e2, ?_, ?_⟩
    · rintro x ⟨k, hk', hkx⟩
      rcases List.mem_cons.mp hk' with hk' | hk'
      · subst hk'
        rw [h4 x (hdis x hkx)]
        by_cases hx : ∃ k' ∈ kids k, anc k' x
        · exact h1 x hx
        · have : x = k := (h.below hkx).resolve_right hx
          subst this
          rw [h2 x hx, Function.update_self]
          exact hvc
      · exact h3 x ⟨k, hk', hkx⟩
    · intro x hx
      rw [h4 x (fun ⟨k, hk', hkx⟩ => hx ⟨k, by simp [hk'], hkx⟩)]
      have hxc : ¬ anc c x := fun e => hx ⟨c, by simp, e⟩
      rw [h2 x (fun hx' => hxc (h.kid.mpr hx').1), Function.update_of_ne]
      rintro rfl; exact hxc hcc

/-! ### The tree is that of the components -/

section
variable (h : MTDone C Good mv s anc kids) (hC : C.Ok)
include h hC

theorem MTDone.sub_eq {a i : Nat} (hi : anc a (s.eti i)) :
    {j | anc a (s.eti j)} = acomp C.nbs (ALev C.n C.f (s.tree.lev a)) i := by
  have h0 : ∀ {b}, ¬ anc b 0 := fun hb => by have := (h.tr.node hb).2.1; omega
  have hne : ∀ {j}, anc a (s.eti j) → s.eti j ≠ 0 := fun hj e => h0 (e ▸ hj)
  ext j
  constructor
  · intro hj
    exact h.conn a i j hi hj
  · intro hj
    change anc a (s.eti j)
    change AConn _ _ _ _ at hj
    induction hj with
    | refl => exact hi
    | @tail j k _ hjk ih =>
      obtain ⟨h1, h2, h3⟩ := hjk
      have hk0 := h.closed j (hne ih) k h3
      obtain ⟨_, _, hkl⟩ := h.eti k hk0
      rcases le_total (C.f k) (C.f j) with hl | hl
      · have h4 := h.adj j k (hne ih) hk0 h3 hl
        exact h.tr.chain ih h4 (by rw [hkl]; exact h2.2)
      · exact h.tr.trans ih (h.adj k j hk0 (hne ih) (hC.sym j h1.1 k h3) hl)

/-- The pixels reached are those joined to the first pixel of least value. -/
theorem MTDone.whole {i : Nat} (hi : s.eti i ≠ 0) :
    {j | s.eti j ≠ 0} = acomp C.nbs (· < C.n) i := by
  ext j
  constructor
  · intro hj
    obtain ⟨hin, hic, _⟩ := h.eti i hi
    obtain ⟨hjn, hjc, _⟩ := h.eti j hj
    exact AConn.mono (fun k hk => hk.1) (h.conn 1 i j (h.tr.root (Nat.one_le_iff_ne_zero.mpr hi) hic)
      (h.tr.root (Nat.one_le_iff_ne_zero.mpr hj) hjc))
  · intro hj
    change s.eti j ≠ 0
    change AConn _ _ _ _ at hj
    induction hj with
    | refl => exact hi
    | tail _ hjk ih => exact h.closed _ ih _ hjk.2.2

/-- The component of a pixel at a level is a node of the tree. -/
theorem MTDone.comp_node {i v : Nat} (hi : s.eti i ≠ 0) (hv : v ≤ C.f i) :
    ∃ b, anc b (s.eti i) ∧ v ≤ s.tree.lev b ∧ acomp C.nbs (ALev C.n C.f v) i = {j | anc b (s.eti j)} := by
  obtain ⟨hin, hic, hil⟩ := h.eti i hi
  have hsym : ∀ {S : Nat → Prop} {x y : Nat}, (∀ k, S k → k < C.n) → AConn C.nbs S x y → AConn C.nbs S y x := by
    intro S x y hS hxy
    induction hxy with
    | refl => exact .refl
    | tail _ h2 ih => exact ReflTransGen.head ⟨h2.2.1, h2.1, hC.sym _ (hS _ h2.1) _ h2.2.2⟩ ih
  classical
  obtain ⟨j, hj, hmin⟩ : ∃ j, AConn C.nbs (ALev C.n C.f v) i j ∧
      ∀ k, AConn C.nbs (ALev C.n C.f v) i k → C.f j ≤ C.f k := by
    have hex : ∃ w, ∃ j, AConn C.nbs (ALev C.n C.f v) i j ∧ C.f j = w := ⟨C.f i, i, .refl, rfl⟩
    obtain ⟨j, hj, e⟩ := Nat.find_spec hex
    refine ⟨j, hj, fun k hk => ?_⟩
    rw [e]
    exact Nat.find_min' hex ⟨k, hk, rfl⟩
  have hjS : ALev C.n C.f v j := AConn.mem hj ⟨hin, hv⟩
  have hj0 : s.eti j ≠ 0 := by
    have : j ∈ {k | s.eti k ≠ 0} := by
      rw [h.whole hC hi]
      exact AConn.mono (fun k hk => hk.1) hj
    exact this
  obtain ⟨hjn, hjc, hjl⟩ := h.eti j hj0
  have hb := h.tr.refl (Nat.one_le_iff_ne_zero.mpr hj0) hjc
  have hsub := h.sub_eq hC hb
  rw [hjl] at hsub
  have hup : ∀ {k}, AConn C.nbs (ALev C.n C.f v) i k → AConn C.nbs (ALev C.n C.f (C.f j)) i k := by
    intro k hk
    induction hk with
    | refl => exact .refl
    | tail hk hkl ih =>
      have h1 := hmin _ hk
      have h2 := hmin _ (ReflTransGen.tail hk hkl)
      exact ih.tail ⟨⟨hkl.1.1, h1⟩, ⟨hkl.2.1.1, h2⟩, hkl.2.2⟩
  have hji : AConn C.nbs (ALev C.n C.f (C.f j)) j i := hsym (fun k hk => hk.1) (hup hj)
  refine ⟨s.eti j, ?_, by rw [hjl]; exact hjS.2, ?_⟩
  · have : i ∈ {k | anc (s.eti j) (s.eti k)} := by rw [hsub]; exact hji
    exact this
  · rw [hsub]
    ext k
    constructor
    · intro hk
      exact ReflTransGen.trans hji (hup hk)
    · intro hk
      exact ReflTransGen.trans hj (AConn.mono (fun x hx => ⟨hx.1, hjS.2.trans hx.2⟩) hk)

end

/-- The opening on offsets. `B` tells which sets of offsets are kept. -/
theorem mtOpen_spec (hC : C.Ok) (hG : MTGood K C Good) {top stop : Nat} (hn : 0 < C.n)
    (htop : ∀ i < C.n, C.f i ≤ top) {B : Set Nat → Prop}
    (hB : ∀ m (S : Finset Nat), S.Nonempty → (∀ i ∈ S, i < C.n) → Good m S → (stop ≤ K.val m ↔ B S)) :
    ∃ o, mtOpen K C top stop = some o ∧ ∃ z, z < C.n ∧ (∀ i < C.n, C.f z ≤ C.f i) ∧
      (∀ i, AConn C.nbs (· < C.n) z i → o i ≤ C.f i ∧
        ((B (acomp C.nbs (ALev C.n C.f (o i)) i) ∧
            ∀ v, o i < v → v ≤ C.f i → ¬ B (acomp C.nbs (ALev C.n C.f v) i)) ∨
          (¬ B (acomp C.nbs (· < C.n) i) ∧ o i = C.f z ∧
            ∀ v, o i < v → v ≤ C.f i → ¬ B (acomp C.nbs (ALev C.n C.f v) i)))) ∧
      ∀ i < C.n, ¬ AConn C.nbs (· < C.n) z i → o i = 0 := by
  obtain ⟨s, anc, kids, e, h⟩ := mtRun_spec (K := K) (Good := Good) (top := top) hC hG hn htop
  obtain ⟨hm1, hm2, hm3⟩ := mtMin_spec hn htop
  unfold mtOpen
  rw [e]
  simp only [Option.bind_eq_bind, Option.bind_some]
  rw [h.root]
  have hone := h.tr.one
  have hfuel : (descs anc s.tree.cur (kids 1)).card < s.tree.cur := by
    have hlt : descs anc s.tree.cur (kids 1) ⊂ Finset.range s.tree.cur := by
      refine ⟨fun x hx => Finset.mem_range.mpr (mem_descs.mp hx).1, fun hs => ?_⟩
      have := mem_descs.mp (hs (Finset.mem_range.mpr hone))
      exact (h.tr.kid.mpr this.2).2 rfl
    simpa using Finset.card_lt_card hlt
  obtain ⟨crit, e1, h1, _, _⟩ := mtCriteria_spec h hG s.tree.cur 1 (kids 1) (s.tree.child 1) s.tree.crit [] (by simp)
    (h.tr.enc (le_refl _) hone) hfuel (fun x hx => by
      obtain ⟨ha, hne⟩ := h.tr.kid.mpr hx
      obtain ⟨_, h2, h3⟩ := h.tr.node ha
      exact h.crit x h2 h3 (Ne.symm hne))
  rw [e1]
  simp only [Option.bind_some]
  obtain ⟨lut, e2, h2, h3⟩ := mtLut_spec (K := K) (T := ⟨s.tree.lev, s.tree.child, s.tree.bro, crit, s.tree.cur⟩)
    h.tr rfl rfl rfl stop s.tree.cur 1 (kids 1) (s.tree.lev 1) (s.tree.child 1)
    (Function.update (fun _ => 0) 1 (s.tree.lev 1)) [] (by simp) (h.tr.enc (le_refl _) hone) hfuel
    ⟨1, h.tr.refl (le_refl _) hone, .inl rfl, rfl, fun b hb hl => by
      have := h.tr.anti hb (h.tr.root (h.tr.node hb).1.1 (h.tr.node hb).1.2)
      subst this; omega⟩
  rw [e2]
  refine ⟨_, rfl, ?_⟩
  obtain ⟨z, hz, hzv, hz0⟩ := h.start
  have hzw := h.whole hC hz0
  have hmvz : C.f z ≤ C.f (mtMin C top).2 := by rw [hzv, hm2]
  refine ⟨z, hz, fun i hi => by rw [hzv]; exact hm3 i hi, ?_, ?_⟩
  · intro i hi
    have hi0 : s.eti i ≠ 0 := by
      have : i ∈ {j | s.eti j ≠ 0} := by rw [hzw]; exact hi
      exact this
    obtain ⟨hin, hic, hil⟩ := h.eti i hi0
    have hi1 := Nat.one_le_iff_ne_zero.mpr hi0
    have hval : NodeVal anc s.tree.lev (fun a => stop ≤ K.val (crit a)) (s.eti i) (lut (s.eti i)) := by
      by_cases hx : ∃ k ∈ kids 1, anc k (s.eti i)
      · exact h2 _ hx
      · have h4 := (h.tr.below (h.tr.root hi1 hic)).resolve_right hx
        rw [h4] at hx ⊢
        rw [h3 1 hx, Function.update_self]
        exact ⟨1, h.tr.refl (le_refl _) hone, .inl rfl, rfl, fun b hb hl => by
          have := h.tr.anti hb (h.tr.root (h.tr.node hb).1.1 (h.tr.node hb).1.2)
          subst this; omega⟩
    obtain ⟨a, ha, hka, hva, hnext⟩ := hval
    rw [hva]
    have hbig : ∀ b, anc b (s.eti i) → b ≠ 1 → (stop ≤ K.val (crit b) ↔
        B (acomp C.nbs (ALev C.n C.f (s.tree.lev b)) i)) := by
      intro b hb hb1
      have hg := h1 b (h.tr.kid.mp ⟨h.tr.root (h.tr.node hb).1.1 (h.tr.node hb).1.2, Ne.symm hb1⟩)
      rw [hB _ _ ⟨i, mem_offSet.mpr ⟨hin, hb⟩⟩ (fun j hj => (mem_offSet.mp hj).1) hg, ← h.sub_eq hC hb]
      have : ((offSet C fun j => anc b (s.eti j) : Finset Nat) : Set Nat) = {j | anc b (s.eti j)} := by
        ext j
        rw [Finset.mem_coe, mem_offSet]
        constructor
        · exact fun hj => hj.2
        · intro hj
          refine ⟨(h.eti j fun e => ?_).1, hj⟩
          have hj' : anc b (s.eti j) := hj
          rw [e] at hj'
          have := (h.tr.node hj').2.1
          omega
      rw [this]
    have hno : ∀ v, s.tree.lev a < v → v ≤ C.f i → ¬ B (acomp C.nbs (ALev C.n C.f v) i) := by
      intro v hv hv'
      obtain ⟨b, hb, hbv, hbe⟩ := h.comp_node hC hi0 hv'
      have hb1 : b ≠ 1 := by
        rintro rfl
        have := h.tr.le (h.tr.root (h.tr.node ha).1.1 (h.tr.node ha).1.2)
        omega
      rw [hbe, h.sub_eq hC hb, ← hbig b hb hb1]
      exact hnext b hb (by omega)
    have hle := h.tr.le ha
    refine ⟨by omega, ?_⟩
    rcases hka with hka | ⟨hka, hkb⟩
    · subst hka
      have hw : acomp C.nbs (ALev C.n C.f (s.tree.lev 1)) i = acomp C.nbs (· < C.n) i := by
        rw [← h.sub_eq hC ha, ← h.whole hC hi0]
        ext j
        constructor
        · intro hj e
          have hj' : anc 1 (s.eti j) := hj
          rw [e] at hj'
          have := (h.tr.node hj').2.1
          omega
        · intro hj
          exact h.tr.root (Nat.one_le_iff_ne_zero.mpr hj) (h.eti j hj).2.1
      by_cases hbw : B (acomp C.nbs (· < C.n) i)
      · left; rw [hw]; exact ⟨hbw, hno⟩
      · right; exact ⟨hbw, by rw [h.lev1, hzv], hno⟩
    · left
      exact ⟨(hbig a ha hka).mp hkb, hno⟩
  · intro i hi hni
    have hi0 : s.eti i = 0 := by
      by_contra hne
      have : i ∈ acomp C.nbs (· < C.n) z := by rw [← hzw]; exact hne
      exact hni this
    rw [hi0, h3 0 (fun hx => by
      have := (h.tr.node (h.tr.kid.mpr hx).1).2.1; omega), Function.update_of_ne (by simp)]

end Smil
