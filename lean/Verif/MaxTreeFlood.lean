import Verif.MaxTreeLemmas
import Mathlib.Data.Finset.Range
import Mathlib.Data.Finset.Card

/-!
# The flooding builds the max-tree
-/

namespace Smil
open Relation
variable {M : Type} {K : MTCrit M} {C : MTCfg}

/-- What the construction needs. -/
structure MTCfg.Ok (C : MTCfg) : Prop where
  P : C.P.Ok
  rev : C.P.rev = true
  f : ∀ i < C.n, C.f i < C.P.nbr
  nbs : ∀ i < C.n, ∀ j ∈ C.nbs i, j < C.n
  sym : ∀ i < C.n, ∀ j ∈ C.nbs i, i ∈ C.nbs j
  small : C.n < mtMaxLabel

/-- `Good m S`: `m` is the criterion of the set of offsets `S`. -/
structure MTGood (K : MTCrit M) (C : MTCfg) (Good : M → Finset Nat → Prop) : Prop where
  zero : Good K.zero ∅
  upd : ∀ {m S i}, i < C.n → i ∉ S → Good m S →
    Good (K.upd m (C.pos i).1 (C.pos i).2.1 (C.pos i).2.2) (insert i S)
  merge : ∀ {m m' S S'}, Disjoint S S' → Good m S → Good m' S' → Good (K.merge m m') (S ∪ S')

/-- The offsets that satisfy `p`. -/
noncomputable def offSet (C : MTCfg) (p : Nat → Prop) : Finset Nat := by
  classical exact (Finset.range C.n).filter p

theorem mem_offSet {p : Nat → Prop} {i : Nat} : i ∈ offSet C p ↔ i < C.n ∧ p i := by
  unfold offSet; simp

/-- Invariant of the flooding. `O` holds of the queued offsets and of the offset being processed, `m` is the
greatest level whose entry of `labels` is meaningful, `mv` the least value. -/
structure MTI (C : MTCfg) (Good : M → Finset Nat → Prop) (mv : Nat) (s : MTSt M) (l : List (Nat × Nat))
    (O : Nat → Prop) (m : Nat) (anc : Nat → Nat → Prop) (kids : Nat → List Nat) : Prop where
  tr : MTr s.tree.lev s.tree.child s.tree.bro s.tree.cur anc kids
  rel : HQRel C.P s.hq l
  ql : ∀ e ∈ l, e.1 = C.f e.2 ∧ O e.2
  act : ∀ i, O i → s.eti i ≠ 0 ∧ C.f i ≤ m ∧ s.eti i = s.labels (C.f i)
  eti : ∀ i, s.eti i ≠ 0 → i < C.n ∧ s.eti i < s.tree.cur ∧ s.tree.lev (s.eti i) = C.f i
  opn : ∀ i, s.eti i ≠ 0 → O i ∨ ∀ j ∈ C.nbs i, s.eti j ≠ 0
  lab : ∀ k ≤ m, s.labels k ≠ 0 → s.labels k < s.tree.cur ∧ s.tree.lev (s.labels k) = k
  labanc : ∀ k k', k ≤ k' → k' ≤ m → s.labels k ≠ 0 → s.labels k' ≠ 0 → anc (s.labels k) (s.labels k')
  labkid : ∀ k k', k < k' → k' ≤ m → s.labels k ≠ 0 → s.labels k' ≠ 0 →
    (∀ j, k < j → j < k' → s.labels j = 0) → ∃ r, kids (s.labels k) = s.labels k' :: r
  labmin : s.labels mv = 1
  mvm : mv ≤ m
  adj : ∀ i j, s.eti i ≠ 0 → s.eti j ≠ 0 → j ∈ C.nbs i → C.f j ≤ C.f i → anc (s.eti j) (s.eti i)
  conn : ∀ a i j, anc a (s.eti i) → anc a (s.eti j) → AConn C.nbs (ALev C.n C.f (s.tree.lev a)) i j
  crit : ∀ a, 1 ≤ a → a < s.tree.cur → a ≠ 1 → Good (s.tree.crit a) (offSet C fun i => s.eti i = a)
  st : ∃ i, i < C.n ∧ C.f i = mv ∧ s.eti i ≠ 0

section
variable {Good : M → Finset Nat → Prop} {mv : Nat} {s : MTSt M} {l : List (Nat × Nat)} {O : Nat → Prop}
  {m : Nat} {anc : Nat → Nat → Prop} {kids : Nat → List Nat}

/-- A lesser level may be taken for `m`, and fewer offsets for `O`, provided that those left out have all their
neighbours visited. -/
theorem MTI.restrict (h : MTI C Good mv s l O m anc kids) {m' : Nat} {O' : Nat → Prop} {l' : List (Nat × Nat)}
    {hq' : HQ Nat} (hrel : HQRel C.P hq' l')
    (hm : m' ≤ m) (hmv : mv ≤ m') (hO : ∀ i, O' i → O i ∧ C.f i ≤ m')
    (hl : ∀ e ∈ l', e.1 = C.f e.2 ∧ O' e.2)
    (hopn : ∀ i, O i → O' i ∨ ∀ j ∈ C.nbs i, s.eti j ≠ 0) :
    MTI C Good mv ⟨s.tree, s.labels, s.eti, hq'⟩ l' O' m' anc kids where
  tr := h.tr
  rel := hrel
  ql := hl
  act i hi := ⟨(h.act i (hO i hi).1).1, (hO i hi).2, (h.act i (hO i hi).1).2.2⟩
  eti := h.eti
  opn i hi := (h.opn i hi).elim (hopn i) .inr
  lab k hk := h.lab k (hk.trans hm)
  labanc k k' hk hk' := h.labanc k k' hk (hk'.trans hm)
  labkid k k' hk hk' := h.labkid k k' hk (hk'.trans hm)
  labmin := h.labmin
  mvm := hmv
  adj := h.adj
  conn := h.conn
  crit := h.crit
  st := h.st

/-- A new node above the present level. -/
theorem MTI.higher (h : MTI C Good mv s l O m anc kids) (hG : MTGood K C Good) {v : Nat} (hv : m < v)
    (hm0 : s.labels m ≠ 0) (hcur : s.tree.cur < mtMaxLabel) :
    ∃ T, mtHigher K s.tree (s.labels m) v = some T ∧ T.cur = s.tree.cur + 1 ∧
      MTI C Good mv ⟨T, Function.update (fun j => if m < j ∧ j < v then 0 else s.labels j) v s.tree.cur, s.eti,
        s.hq⟩ l O v (ancHigher anc s.tree.cur (s.labels m))
        (Function.update kids (s.labels m) (s.tree.cur :: kids (s.labels m))) := by
  obtain ⟨hP', hPl⟩ := h.lab m (le_refl _) hm0
  have hP : 1 ≤ s.labels m := Nat.one_le_iff_ne_zero.mpr hm0
  refine ⟨_, by unfold mtHigher; rw [if_pos hcur], rfl, ?_⟩
  have hone := h.tr.one
  have hlab : ∀ k, k ≤ m → Function.update (fun j => if m < j ∧ j < v then 0 else s.labels j) v s.tree.cur k =
      s.labels k := by
    intro k hk
    rw [Function.update_of_ne (by omega), if_neg (by omega)]
  have hlabv : Function.update (fun j => if m < j ∧ j < v then 0 else s.labels j) v s.tree.cur v =
      s.tree.cur := Function.update_self ..
  have hcases : ∀ k, k ≤ v → Function.update (fun j => if m < j ∧ j < v then 0 else s.labels j) v s.tree.cur k ≠ 0 →
      k ≤ m ∨ k = v := by
    intro k hk hk'
    by_contra hc
    rw [Function.update_of_ne (by omega), if_pos (by omega)] at hk'
    exact hk' rfl
  have hanc : ∀ {a b}, b ≠ s.tree.cur → (ancHigher anc s.tree.cur (s.labels m) a b ↔ anc a b) := by
    intro a b hb
    unfold ancHigher
    rw [if_neg hb]
  have hlev : ∀ {a}, a < s.tree.cur → Function.update s.tree.lev s.tree.cur v a = s.tree.lev a := by
    intro a ha
    rw [Function.update_of_ne (by omega)]
  have heti : ∀ i, s.eti i ≠ s.tree.cur := by
    intro i e
    have := h.eti i (by omega)
    omega
  refine ⟨h.tr.higher hP hP' (by omega), h.rel, h.ql, ?_, ?_, h.opn, ?_, ?_, ?_, ?_, by have := h.mvm; omega, ?_, ?_, ?_, h.st⟩
  · intro i hi
    obtain ⟨h1, h2, h3⟩ := h.act i hi
    exact ⟨h1, by omega, h3.trans (hlab _ h2).symm⟩
  · intro i hi
    obtain ⟨h1, h2, h3⟩ := h.eti i hi
    exact ⟨h1, Nat.lt_succ_of_lt h2, (hlev h2).trans h3⟩
  · intro k hk hk0
    rcases hcases k hk hk0 with h1 | h1
    · simp only [hlab k h1] at hk0 ⊢
      obtain ⟨h2, h3⟩ := h.lab k h1 hk0
      exact ⟨by omega, (hlev h2).trans h3⟩
    · subst h1
      simp only [hlabv]
      exact ⟨by omega, Function.update_self ..⟩
  · intro k k' hkk hk' hk0 hk0'
    rcases hcases k' hk' hk0' with h1 | h1
    · have h2 : k ≤ m := by omega
      simp only [hlab k' h1, hlab k h2] at hk0 hk0' ⊢
      rw [hanc (by have := h.lab k' h1 hk0'; omega)]
      exact h.labanc k k' hkk h1 hk0 hk0'
    · subst h1
      simp only [hlabv]
      unfold ancHigher
      rw [if_pos rfl]
      rcases hcases k hkk hk0 with h2 | h2
      · simp only [hlab k h2] at hk0 ⊢
        exact .inr (h.labanc k m h2 (le_refl _) hk0 hm0)
      · subst h2
        left; exact hlabv
  · intro k k' hkk hk' hk0 hk0' hz
    rcases hcases k (by omega) hk0 with h2 | h2
    · rcases hcases k' hk' hk0' with h1 | h1
      · simp only [hlab k' h1, hlab k h2] at hk0 hk0' ⊢
        rw [Function.update_of_ne]
        · refine h.labkid k k' hkk h1 hk0 hk0' fun j hj hj' => ?_
          exact (hlab j (by omega)).symm.trans (hz j hj hj')
        · intro e
          have h3 := (h.lab k h2 hk0).2
          rw [e] at h3
          omega
      · subst h1
        have : k = m := by
          by_contra hne
          have := hz m (by omega) hv
          exact hm0 ((hlab m (le_refl _)).symm.trans this)
        subst this
        simp only [hlab k (le_refl _), hlabv]
        rw [Function.update_self]
        exact ⟨_, rfl⟩
    · omega
  · exact (hlab mv h.mvm).trans h.labmin
  · intro i j hi hj hij hf
    simp only at hi hj ⊢
    rw [hanc (heti i)]
    exact h.adj i j hi hj hij hf
  · intro a i j hi hj
    simp only at hi hj ⊢
    rw [hanc (heti _)] at hi hj
    rw [hlev (h.tr.node hi).1.2]
    exact h.conn a i j hi hj
  · intro a ha ha' ha1
    simp only at ha' ⊢
    by_cases hac : a = s.tree.cur
    · subst hac
      rw [Function.update_self]
      have : offSet C (fun i => s.eti i = s.tree.cur) = ∅ := by
        rw [Finset.eq_empty_iff_forall_notMem]
        intro i hi
        exact heti i (mem_offSet.mp hi).2
      rw [this]
      exact hG.zero
    · rw [Function.update_of_ne hac]
      exact h.crit a ha (by omega) ha1

theorem mtBelow_spec {labels : Nat → Nat} : ∀ {v k : Nat}, k < v → labels k ≠ 0 →
    ∃ i, mtBelow labels v = some i ∧ i < v ∧ k ≤ i ∧ labels i ≠ 0 ∧ ∀ j, i < j → j < v → labels j = 0
  | 0, _, hk, _ => by omega
  | v + 1, k, hk, hk0 => by
    unfold mtBelow
    by_cases hz : labels v = 0
    · rw [if_pos hz]
      have hkv : k ≠ v := by rintro rfl; exact hk0 hz
      obtain ⟨i, e, h1, h2, h3, h4⟩ := mtBelow_spec (v := v) (k := k) (by omega) hk0
      refine ⟨i, e, by omega, h2, h3, fun j hj hj' => ?_⟩
      by_cases hjv : j = v
      · rw [hjv]; exact hz
      · exact h4 j hj (by omega)
    · rw [if_neg hz]
      exact ⟨v, rfl, by omega, by omega, hz, fun j hj hj' => by omega⟩

/-- A new node below the present level. -/
theorem MTI.lower (h : MTI C Good mv s l O m anc kids) (hG : MTGood K C Good) {v : Nat} (hv : v < m)
    (hv0 : s.labels v = 0) (hmv : mv ≤ v) (hm0 : s.labels m ≠ 0) (hcur : s.tree.cur < mtMaxLabel) :
    ∃ T anc' kids', mtLower K s.tree s.labels v = some T ∧ T.cur = s.tree.cur + 1 ∧
      MTI C Good mv ⟨T, Function.update s.labels v s.tree.cur, s.eti, s.hq⟩ l O m anc' kids' := by
  have hone := h.tr.one
  have hmv0 : s.labels mv ≠ 0 := by rw [h.labmin]; omega
  have hmv' : mv < v := by
    rcases Nat.lt_or_ge mv v with h1 | h1
    · exact h1
    · have : mv = v := by omega
      rw [this] at hmv0
      exact absurd hv0 hmv0
  obtain ⟨i, e, hi1, hi2, hi3, hi4⟩ := mtBelow_spec (labels := s.labels) hmv' hmv0
  obtain ⟨i', hi'1, hi'2⟩ : ∃ i', (v < i' ∧ i' ≤ m ∧ s.labels i' ≠ 0) ∧ ∀ j, v < j → j < i' → s.labels j = 0 := by
    classical
    have hex : ∃ i', v < i' ∧ i' ≤ m ∧ s.labels i' ≠ 0 := ⟨m, hv, le_refl _, hm0⟩
    refine ⟨Nat.find hex, Nat.find_spec hex, fun j hj hj' => ?_⟩
    by_contra hne
    have := Nat.find_min hex hj'
    have h2 := (Nat.find_spec hex).2.1
    exact this ⟨hj, by omega, hne⟩
  obtain ⟨hi'1, hi'm, hi'0⟩ := hi'1
  obtain ⟨rest, hk⟩ := h.labkid i i' (by omega) hi'm hi3 hi'0 (by
    intro j hj hj'
    rcases Nat.lt_trichotomy j v with h1 | h1 | h1
    · exact hi4 j hj h1
    · rw [h1]; exact hv0
    · exact hi'2 j h1 hj')
  obtain ⟨hPn, hPl⟩ := h.lab i (by omega) hi3
  obtain ⟨hcn, hcl⟩ := h.lab i' hi'm hi'0
  have hP1 : 1 ≤ s.labels i := Nat.one_le_iff_ne_zero.mpr hi3
  have hchild : s.tree.child (s.labels i) = s.labels i' := by
    have := h.tr.enc hP1 hPn
    rw [hk] at this
    generalize s.tree.child (s.labels i) = y at this
    cases this
    rfl
  have htr := h.tr.lower (v := v) hk (by omega) (by omega)
  have hPc : s.labels i ≠ s.tree.cur := by omega
  have hup : Function.update (Function.update s.tree.child s.tree.cur (s.tree.child (s.labels i))) (s.labels i)
      s.tree.cur s.tree.cur = s.labels i' := by
    rw [Function.update_of_ne (Ne.symm hPc), Function.update_self, hchild]
  refine ⟨⟨Function.update s.tree.lev s.tree.cur v,
      Function.update (Function.update s.tree.child s.tree.cur (s.labels i')) (s.labels i) s.tree.cur,
      Function.update (Function.update s.tree.bro s.tree.cur (s.tree.bro (s.labels i'))) (s.labels i') 0,
      Function.update s.tree.crit s.tree.cur K.zero, s.tree.cur + 1⟩,
    ancLower anc s.tree.cur (s.labels i) (s.labels i'),
    Function.update (Function.update kids (s.labels i) (s.tree.cur :: rest)) s.tree.cur [s.labels i'],
    ?_, rfl, ?_⟩
  · unfold mtLower
    rw [if_pos hcur, e]
    simp only [Option.map_some, hup]
    rw [hchild]
  have hlabv : Function.update s.labels v s.tree.cur v = s.tree.cur := Function.update_self ..
  have hlab : ∀ {k}, k ≠ v → Function.update s.labels v s.tree.cur k = s.labels k := by
    intro k hk
    rw [Function.update_of_ne hk]
  have hanc : ∀ {a b}, a ≠ s.tree.cur → b ≠ s.tree.cur →
      (ancLower anc s.tree.cur (s.labels i) (s.labels i') a b ↔ anc a b) := by
    intro a b ha hb
    unfold ancLower
    rw [if_neg hb, if_neg ha]
  have hlev : ∀ {a}, a < s.tree.cur → Function.update s.tree.lev s.tree.cur v a = s.tree.lev a := by
    intro a ha
    rw [Function.update_of_ne (by omega)]
  have heti : ∀ i, s.eti i ≠ s.tree.cur := by
    intro i e
    have := h.eti i (by omega)
    omega
  have hlc : ∀ k ≤ m, s.labels k ≠ 0 → s.labels k ≠ s.tree.cur := by
    intro k hk hk0 e
    have := h.lab k hk hk0
    omega
  refine ⟨htr, h.rel, h.ql, ?_, ?_, h.opn, ?_, ?_, ?_, ?_, h.mvm, ?_, ?_, ?_, h.st⟩
  · intro i hi
    obtain ⟨h1, h2, h3⟩ := h.act i hi
    have hne : C.f i ≠ v := by
      intro e
      rw [e, hv0] at h3
      exact h1 h3
    exact ⟨h1, by omega, h3.trans (hlab hne).symm⟩
  · intro i hi
    obtain ⟨h1, h2, h3⟩ := h.eti i hi
    exact ⟨h1, Nat.lt_succ_of_lt h2, (hlev h2).trans h3⟩
  · intro k hk hk0
    by_cases hkv : k = v
    · subst hkv
      simp only [hlabv]
      exact ⟨by omega, Function.update_self ..⟩
    · simp only [hlab hkv] at hk0 ⊢
      obtain ⟨h2, h3⟩ := h.lab k hk hk0
      exact ⟨by omega, (hlev h2).trans h3⟩
  · intro k k' hkk hk' hk0 hk0'
    by_cases hkv' : k' = v
    · subst hkv'
      simp only [hlabv]
      unfold ancLower
      rw [if_pos rfl]
      by_cases hkv : k = k'
      · subst hkv; left; exact hlabv
      · simp only [hlab hkv] at hk0 ⊢
        right
        refine h.labanc k i ?_ (by omega) hk0 hi3
        by_contra hc
        exact hk0 (hi4 k (by omega) (by omega))
    · simp only [hlab hkv'] at hk0' ⊢
      by_cases hkv : k = v
      · subst hkv
        simp only [hlabv]
        unfold ancLower
        rw [if_neg (hlc k' hk' hk0'), if_pos rfl]
        refine h.labanc i' k' ?_ hk' hi'0 hk0'
        by_contra hc
        exact hk0' (hi'2 k' (by omega) (by omega))
      · simp only [hlab hkv] at hk0 ⊢
        rw [hanc (hlc k (by omega) hk0) (hlc k' hk' hk0')]
        exact h.labanc k k' hkk hk' hk0 hk0'
  · intro k k' hkk hk' hk0 hk0' hz
    by_cases hkv : k = v
    · subst hkv
      have hkv' : k' ≠ k := by omega
      simp only [hlabv, hlab hkv'] at hk0' ⊢
      have : k' = i' := by
        by_contra hne
        rcases Nat.lt_or_ge k' i' with h1 | h1
        · exact hk0' (hi'2 k' hkk h1)
        · have := hz i' hi'1 (by omega)
          exact hi'0 ((hlab (by omega)).symm.trans this)
      rw [this, Function.update_self]
      exact ⟨_, rfl⟩
    · simp only [hlab hkv] at hk0 ⊢
      rw [Function.update_of_ne (hlc k (by omega) hk0)]
      by_cases hkv' : k' = v
      · subst hkv'
        have : k = i := by
          by_contra hne
          rcases Nat.lt_or_ge i k with h1 | h1
          · exact hk0 (hi4 k h1 hkk)
          · have := hz i (by omega) hi1
            exact hi3 ((hlab (by omega)).symm.trans this)
        subst this
        rw [Function.update_self, hlabv]
        exact ⟨_, rfl⟩
      · simp only [hlab hkv'] at hk0' ⊢
        have hnv : ¬ (k < v ∧ v < k') := by
          rintro ⟨h1, h2⟩
          have := hlabv.symm.trans (hz v h1 h2)
          omega
        rw [Function.update_of_ne]
        · refine h.labkid k k' hkk hk' hk0 hk0' fun j hj hj' => ?_
          exact (hlab (k := j) (by omega)).symm.trans (hz j hj hj')
        · intro e
          have h3 := (h.lab k (by omega) hk0).2
          rw [e] at h3
          have hki : k = i := by omega
          have : k' < v := by omega
          exact hk0' (hi4 k' (by omega) this)
  · exact (hlab (by omega)).trans h.labmin
  · intro i j hi hj hij hf
    simp only at hi hj ⊢
    rw [hanc (heti j) (heti i)]
    exact h.adj i j hi hj hij hf
  · intro a x y hx hy
    simp only at hx hy ⊢
    by_cases ha : a = s.tree.cur
    · subst ha
      unfold ancLower at hx hy
      rw [if_neg (heti _), if_pos rfl] at hx hy
      rw [Function.update_self]
      refine AConn.mono (fun j hj => ⟨hj.1, ?_⟩) (h.conn _ x y hx hy)
      have := hj.2; omega
    · rw [hanc ha (heti _)] at hx hy
      rw [hlev (h.tr.node hx).1.2]
      exact h.conn a x y hx hy
  · intro a ha ha' ha1
    simp only at ha' ⊢
    by_cases hac : a = s.tree.cur
    · subst hac
      rw [Function.update_self]
      have : offSet C (fun i => s.eti i = s.tree.cur) = ∅ := by
        rw [Finset.eq_empty_iff_forall_notMem]
        intro i hi
        exact heti i (mem_offSet.mp hi).2
      rw [this]
      exact hG.zero
    · rw [Function.update_of_ne hac]
      exact h.crit a ha (by omega) ha1

/-- A pixel receives the label of its level. -/
theorem MTI.add (h : MTI C Good mv s l O m anc kids) (hC : C.Ok) (hG : MTGood K C Good) {p q : Nat}
    (hp : O p) (hq : q ∈ C.nbs p) (hq0 : s.eti q = 0) (hqm : C.f q ≤ m) (hL : s.labels (C.f q) ≠ 0)
    (hcon : C.f q ≤ C.f p ∨ ∀ a, anc a (s.labels (C.f q)) → ¬ anc a (s.eti p) → ∀ j, ¬ anc a (s.eti j))
    {hq' : HQ Nat} {l' : List (Nat × Nat)} (hrel : HQRel C.P hq' l')
    (hl' : ∀ e ∈ l', e ∈ l ∨ e = (C.f q, q) ∨ e = (C.f p, p)) :
    MTI C Good mv ⟨mtUpdate K C s.tree (s.labels (C.f q)) q, s.labels,
      Function.update s.eti q (s.labels (C.f q)), hq'⟩ l' (fun i => O i ∨ i = q) m anc kids := by
  obtain ⟨hp0, hpm, hpl⟩ := h.act p hp
  obtain ⟨hpn, hpc, hplev⟩ := h.eti p hp0
  have hqn := hC.nbs p hpn q hq
  obtain ⟨hLc, hLlev⟩ := h.lab _ hqm hL
  have hpq := hC.sym p hpn q hq
  have hOq : ∀ {i}, s.eti i ≠ 0 → i ≠ q := by rintro i hi rfl; exact hi hq0
  have hup : ∀ {i}, i ≠ q → Function.update s.eti q (s.labels (C.f q)) i = s.eti i := by
    intro i hi; rw [Function.update_of_ne hi]
  have hupq : Function.update s.eti q (s.labels (C.f q)) q = s.labels (C.f q) := Function.update_self ..
  have hno : ∀ {a}, ¬ anc a 0 := fun hb => by have := (h.tr.node hb).2.1; omega
  -- an offset next to `q` already visited is open
  have hopen : ∀ {j}, s.eti j ≠ 0 → q ∈ C.nbs j → O j := by
    intro j hj hjq
    rcases h.opn j hj with h1 | h1
    · exact h1
    · exact absurd hq0 (h1 q hjq)
  -- the connection of `q` with the offsets of the nodes above it
  have hconn : ∀ a j, anc a (s.labels (C.f q)) → anc a (s.eti j) →
      AConn C.nbs (ALev C.n C.f (s.tree.lev a)) q j ∧ AConn C.nbs (ALev C.n C.f (s.tree.lev a)) j q := by
    intro a j ha hj
    have hap : anc a (s.eti p) := by
      rcases hcon with h1 | h1
      · refine h.tr.trans ha ?_
        rw [hpl]
        exact h.labanc _ _ h1 hpm hL (by rw [← hpl]; exact hp0)
      · by_contra hne
        exact h1 a ha hne j hj
    have l1 := h.tr.le ha
    have l2 := h.tr.le hap
    have e1 : ALev C.n C.f (s.tree.lev a) q := ⟨hqn, by omega⟩
    have e2 : ALev C.n C.f (s.tree.lev a) p := ⟨hpn, by omega⟩
    exact ⟨ReflTransGen.head ⟨e1, e2, hpq⟩ (h.conn a p j hap hj),
      (h.conn a j p hj hap).tail ⟨e2, e1, hq⟩⟩
  refine ⟨h.tr, hrel, ?_, ?_, ?_, ?_, h.lab, h.labanc, h.labkid, h.labmin, h.mvm, ?_, ?_, ?_,
    let ⟨i, h1, h2, h3⟩ := h.st; ⟨i, h1, h2, by simp only [hup (hOq h3)]; exact h3⟩⟩
  · intro e he
    rcases hl' e he with h1 | h1 | h1
    · exact ⟨(h.ql e h1).1, .inl (h.ql e h1).2⟩
    · subst h1; exact ⟨rfl, .inr rfl⟩
    · subst h1; exact ⟨rfl, .inl hp⟩
  · intro i hi
    by_cases hiq : i = q
    · subst hiq
      simp only [hupq]
      exact ⟨hL, hqm, trivial⟩
    · simp only [hup hiq]
      exact h.act i (hi.resolve_right hiq)
  · intro i hi
    by_cases hiq : i = q
    · subst hiq
      simp only [hupq]
      exact ⟨hqn, hLc, hLlev⟩
    · simp only [hup hiq] at hi ⊢
      exact h.eti i hi
  · intro i hi
    by_cases hiq : i = q
    · exact .inl (.inr hiq)
    · simp only [hup hiq] at hi
      rcases h.opn i hi with h1 | h1
      · exact .inl (.inl h1)
      · right
        intro j hj
        simp only [Function.update_apply]
        split
        · exact hL
        · exact h1 j hj
  · intro i j hi hj hij hf
    by_cases hiq : i = q
    · subst hiq
      by_cases hjq : j = i
      · subst hjq
        simp only [hupq]
        exact h.tr.refl (Nat.one_le_iff_ne_zero.mpr hL) hLc
      · simp only [hupq, hup hjq] at hj ⊢
        obtain ⟨h1, h2, h3⟩ := h.act j (hopen hj (hC.sym _ hqn j hij))
        rw [h3]
        exact h.labanc _ _ hf hqm (by rw [← h3]; exact h1) hL
    · by_cases hjq : j = q
      · subst hjq
        simp only [hupq, hup hiq] at hi ⊢
        obtain ⟨h1, h2, h3⟩ := h.act i (hopen hi hij)
        rw [h3]
        exact h.labanc _ _ hf h2 hL (by rw [← h3]; exact h1)
      · simp only [hup hiq, hup hjq] at hi hj ⊢
        exact h.adj i j hi hj hij hf
  · intro a i j hi hj
    by_cases hiq : i = q
    · subst hiq
      simp only [hupq] at hi
      by_cases hjq : j = i
      · rw [hjq]; exact .refl
      · simp only [hup hjq] at hj
        exact (hconn a j hi hj).1
    · simp only [hup hiq] at hi
      by_cases hjq : j = q
      · subst hjq
        simp only [hupq] at hj
        exact (hconn a i hj hi).2
      · simp only [hup hjq] at hj
        exact h.conn a i j hi hj
  · intro a ha ha' ha1
    have h1 := h.crit a ha ha' ha1
    unfold mtUpdate
    simp only
    by_cases hac : a = s.labels (C.f q)
    · subst hac
      rw [Function.update_self]
      have : offSet C (fun i => Function.update s.eti q (s.labels (C.f q)) i = s.labels (C.f q)) =
          insert q (offSet C fun i => s.eti i = s.labels (C.f q)) := by
        ext i
        rw [Finset.mem_insert, mem_offSet, mem_offSet]
        by_cases hiq : i = q
        · subst hiq; simp [hqn]
        · simp [hup hiq, hiq]
      rw [this]
      exact hG.upd hqn (fun hc => hL (by rw [← (mem_offSet.mp hc).2, hq0])) h1
    · rw [Function.update_of_ne hac]
      have : offSet C (fun i => Function.update s.eti q (s.labels (C.f q)) i = a) =
          offSet C fun i => s.eti i = a := by
        ext i
        rw [mem_offSet, mem_offSet]
        by_cases hiq : i = q
        · subst hiq
          rw [hupq, hq0]
          have : ¬ s.labels (C.f i) = a := fun e => hac e.symm
          have : ¬ 0 = a := by omega
          simp [*]
        · rw [hup hiq]
      rw [this]
      exact h1

/-- Number of offsets not yet visited. -/
noncomputable def unvis (C : MTCfg) (eti : Nat → Nat) : Nat := (offSet C fun i => eti i = 0).card

theorem unvis_update {eti : Nat → Nat} {q v : Nat} (hq : q < C.n) (h0 : eti q = 0) (hv : v ≠ 0) :
    unvis C (Function.update eti q v) + 1 = unvis C eti := by
  classical
  unfold unvis
  have hmem : q ∈ offSet C fun i => eti i = 0 := mem_offSet.mpr ⟨hq, h0⟩
  have : (offSet C fun i => Function.update eti q v i = 0) = (offSet C fun i => eti i = 0).erase q := by
    ext i
    rw [Finset.mem_erase, mem_offSet, mem_offSet]
    by_cases hiq : i = q
    · subst hiq; simp [hv]
    · simp [hiq]
  rw [this, Finset.card_erase_add_one hmem]

/-- `subFlood` keeps the invariant. -/
theorem mtSub_spec (h : MTI C Good mv s l O m anc kids) (hC : C.Ok) (hG : MTGood K C Good)
    (hmin : ∀ i < C.n, mv ≤ C.f i) {p q : Nat} (hp : O p) (hpm : C.f p = m) (hq : q ∈ C.nbs p)
    (hq0 : s.eti q = 0) (hcur : s.tree.cur + unvis C s.eti ≤ C.n + 1) :
    ∃ s' b l' m' anc' kids' w, mtSub K C s p q = some (s', b) ∧
      MTI C Good mv s' l' (fun i => O i ∨ i = q) m' anc' kids' ∧ w ≠ 0 ∧ s'.eti = Function.update s.eti q w ∧
      s'.tree.cur + unvis C s'.eti ≤ C.n + 1 ∧ (b = false → m' = m ∧ l' = l ++ [(C.f q, q)]) ∧
      (b = true → l' = l ++ [(C.f q, q)] ++ [(C.f p, p)]) := by
  obtain ⟨hp0, _, hpl⟩ := h.act p hp
  obtain ⟨hpn, hpc, hplev⟩ := h.eti p hp0
  have hqn := hC.nbs p hpn q hq
  have hU : 1 ≤ unvis C s.eti := by
    unfold unvis
    exact Finset.card_pos.mpr ⟨q, mem_offSet.mpr ⟨hqn, hq0⟩⟩
  have hone := h.tr.one
  have hsm := hC.small
  have hm0 : s.labels m ≠ 0 := by rw [← hpm, ← hpl]; exact hp0
  obtain ⟨hq1, e1, r1⟩ := hqRel_push C.P s.hq l h.rel (C.f q) q (hC.f q hqn)
  unfold mtSub
  by_cases hgt : C.f q > C.f p
  · rw [if_pos hgt]
    obtain ⟨hq2, e2, r2⟩ := hqRel_push C.P hq1 _ r1 (C.f p) p (hC.f p hpn)
    obtain ⟨T, e3, hTc, h3⟩ := h.higher hG (v := C.f q) (by omega) hm0 (by omega)
    have hlq : Function.update (fun j => if m < j ∧ j < C.f q then 0 else s.labels j) (C.f q) s.tree.cur (C.f q)
        = s.tree.cur := Function.update_self ..
    have hL0 : s.tree.cur ≠ 0 := by omega
    have h4 := h3.add hC hG (p := p) (q := q) hp hq hq0 (le_refl _) (by simp only [hlq]; exact hL0) (by
      right
      intro a ha hna j hj
      simp only [hlq] at ha hna hj
      have hej : ∀ i, s.eti i ≠ s.tree.cur := by
        intro i e
        have := h.eti i (by omega)
        omega
      unfold ancHigher at ha hna hj
      rw [if_neg (hej _)] at hna hj
      rw [if_pos rfl] at ha
      rcases ha with ha | ha
      · have := (h.tr.node hj).1.2
        omega
      · rw [hpl, hpm] at hna
        exact hna ha) r2 (by
      intro e he
      simpa [or_assoc] using he)
    simp only [hlq] at h4
    have hne : (if C.f p < C.f p ∧ C.f p < C.f q then 0 else s.labels (C.f p)) = s.labels m := by
      rw [if_neg (by omega), hpm]
    have hu := unvis_update (C := C) (eti := s.eti) (q := q) hqn hq0 hL0
    refine ⟨_, true, _, _, _, _, s.tree.cur, ?_, h4, hL0, rfl, ?_, by simp, fun _ => rfl⟩
    · simp only [hne, e3, e1, e2, Option.bind_eq_bind, Option.bind_some]
      rw [hpm]
      rfl
    · simp only [mtUpdate, hTc]
      omega
  · rw [if_neg hgt]
    by_cases hz : s.labels (C.f q) = 0
    · rw [if_pos hz]
      have hlt : C.f q < m := by
        rcases Nat.lt_or_ge (C.f q) m with h1 | h1
        · exact h1
        · have : C.f q = m := by omega
          rw [this] at hz
          exact absurd hz hm0
      obtain ⟨T, anc', kids', e3, hTc, h3⟩ := h.lower hG hlt hz (hmin q hqn) hm0 (by omega)
      have hlq : Function.update s.labels (C.f q) s.tree.cur (C.f q) = s.tree.cur := Function.update_self ..
      have hL0 : s.tree.cur ≠ 0 := by omega
      have h4 := h3.add hC hG (p := p) (q := q) hp hq hq0 (by omega) (by simp only [hlq]; exact hL0)
        (.inl (by omega)) r1 (by
        intro e he
        rcases List.mem_append.mp he with he | he
        · exact .inl he
        · exact .inr (.inl (by simpa using he)))
      simp only [hlq] at h4
      have hu := unvis_update (C := C) (eti := s.eti) (q := q) hqn hq0 hL0
      refine ⟨_, false, _, _, _, _, s.tree.cur, ?_, h4, hL0, rfl, ?_, fun _ => ⟨rfl, rfl⟩, by simp⟩
      · simp only [e3, e1, Option.bind_eq_bind, Option.bind_some]
        rfl
      · simp only [mtUpdate, hTc]
        omega
    · rw [if_neg hz]
      have h4 := h.add hC hG (p := p) (q := q) hp hq hq0 (by omega) hz (.inl (by omega)) r1 (by
        intro e he
        rcases List.mem_append.mp he with he | he
        · exact .inl he
        · exact .inr (.inl (by simpa using he)))
      have hu := unvis_update (C := C) (eti := s.eti) (q := q) hqn hq0 hz
      refine ⟨_, false, _, _, _, _, _, ?_, h4, hz, rfl, ?_, fun _ => ⟨rfl, rfl⟩, by simp⟩
      · simp only [e1, Option.bind_eq_bind, Option.bind_some]
        rfl
      · simp only [mtUpdate]
        omega

/-- The loop on the neighbours keeps the invariant; `p` is put back in the queue or all its neighbours are
visited. -/
theorem mtVisit_spec (hC : C.Ok) (hG : MTGood K C Good) (hmin : ∀ i < C.n, mv ≤ C.f i) {p : Nat} :
    ∀ (L : List Nat) (s : MTSt M) (l : List (Nat × Nat)) (O : Nat → Prop) (anc : Nat → Nat → Prop)
      (kids : Nat → List Nat), MTI C Good mv s l O (C.f p) anc kids → O p → (∀ q ∈ L, q ∈ C.nbs p) →
      (∀ q ∈ C.nbs p, q ∈ L ∨ s.eti q ≠ 0) → (∀ i, O i → i = p ∨ ∃ e ∈ l, e.2 = i) →
      s.tree.cur + unvis C s.eti ≤ C.n + 1 →
      ∃ s' l' O' m' anc' kids', mtVisit K C p L s = some s' ∧ MTI C Good mv s' l' O' m' anc' kids' ∧
        (∀ i, O' i → i = p ∨ ∃ e ∈ l', e.2 = i) ∧ ((∃ e ∈ l', e.2 = p) ∨ ∀ q ∈ C.nbs p, s'.eti q ≠ 0) ∧
        s'.tree.cur + unvis C s'.eti ≤ C.n + 1 ∧
        2 * unvis C s'.eti + l'.length ≤ 2 * unvis C s.eti + l.length ∧ O' p
  | [], s, l, O, anc, kids, h, hp, _, hall, hO, hcur => by
    refine ⟨s, l, O, _, anc, kids, rfl, h, hO, .inr fun q hq => ?_, hcur, le_refl _, hp⟩
    rcases hall q hq with h1 | h1
    · simp at h1
    · exact h1
  | q :: L, s, l, O, anc, kids, h, hp, hL, hall, hO, hcur => by
    unfold mtVisit
    by_cases hq0 : s.eti q = 0
    · rw [if_pos hq0]
      have hqp := hL q (by simp)
      have hqn := hC.nbs p (h.eti p (h.act p hp).1).1 q hqp
      obtain ⟨s', b, l', m', anc', kids', w, e, h', hw, he, hc, hb1, hb2⟩ :=
        mtSub_spec h hC hG hmin hp rfl hqp hq0 hcur
      have hu := unvis_update (C := C) (eti := s.eti) (q := q) hqn hq0 hw
      rw [← he] at hu
      rw [e]
      simp only [Option.bind_some]
      cases b with
      | true =>
        have hl := hb2 rfl
        refine ⟨s', l', _, m', anc', kids', by simp, h', ?_, .inl ⟨(C.f p, p), by rw [hl]; simp, rfl⟩, hc, ?_,
          .inl hp⟩
        · rintro i (hi | hi)
          · rcases hO i hi with h1 | ⟨e, h1, h2⟩
            · exact .inl h1
            · exact .inr ⟨e, by rw [hl]; simp [h1], h2⟩
          · exact .inr ⟨(C.f q, q), by rw [hl]; simp, hi.symm⟩
        · rw [hl]
          simp only [List.length_append, List.length_singleton]
          omega
      | false =>
        obtain ⟨hm, hl⟩ := hb1 rfl
        subst hm
        simp only [Bool.false_eq_true, if_false]
        have hne : ∀ j, s.eti j ≠ 0 → s'.eti j ≠ 0 := by
          intro j hj
          rw [he, Function.update_apply]
          split
          · exact hw
          · exact hj
        obtain ⟨s2, l2, O2, m2, anc2, kids2, e2, h2, hO2, hd, hc2, hm2, hp2⟩ :=
          mtVisit_spec hC hG hmin L s' l' _ anc' kids' h' (.inl hp) (fun q hq => hL q (by simp [hq])) (by
            intro j hj
            rcases hall j hj with h1 | h1
            · rcases List.mem_cons.mp h1 with h1 | h1
              · right; rw [he, h1, Function.update_self]; exact hw
              · exact .inl h1
            · exact .inr (hne j h1)) (by
            rintro i (hi | hi)
            · rcases hO i hi with h1 | ⟨e, h1, h2⟩
              · exact .inl h1
              · exact .inr ⟨e, by rw [hl]; simp [h1], h2⟩
            · exact .inr ⟨(C.f q, q), by rw [hl]; simp, hi.symm⟩) hc
        refine ⟨s2, l2, O2, m2, anc2, kids2, e2, h2, hO2, hd, hc2, ?_, hp2⟩
        rw [hl] at hm2
        simp only [List.length_append, List.length_singleton] at hm2
        omega
    · rw [if_neg hq0]
      refine mtVisit_spec hC hG hmin L s l O anc kids h hp (fun q hq => hL q (by simp [hq])) ?_ hO hcur
      intro j hj
      rcases hall j hj with h1 | h1
      · rcases List.mem_cons.mp h1 with h1 | h1
        · right; rw [h1]; exact hq0
        · exact .inl h1
      · exact .inr h1

/-- The flooding ends with an empty queue. -/
theorem mtFlood_spec (hC : C.Ok) (hG : MTGood K C Good) (hmin : ∀ i < C.n, mv ≤ C.f i) :
    ∀ (fuel : Nat) (s : MTSt M) (l : List (Nat × Nat)) (O : Nat → Prop) (m : Nat) (anc : Nat → Nat → Prop)
      (kids : Nat → List Nat), MTI C Good mv s l O m anc kids → (∀ i, O i → ∃ e ∈ l, e.2 = i) →
      s.tree.cur + unvis C s.eti ≤ C.n + 1 → 2 * unvis C s.eti + l.length < fuel →
      ∃ s' O' m' anc' kids', mtFlood K C mv fuel s = some s' ∧ MTI C Good mv s' [] O' m' anc' kids' ∧
        (∀ i, ¬ O' i) ∧ s'.tree.cur ≤ C.n + 1
  | 0, _, _, _, _, _, _, _, _, _, hf => by omega
  | fuel + 1, s, l, O, m, anc, kids, h, hO, hcur, hf => by
    unfold mtFlood
    by_cases hl : l = []
    · subst hl
      have := (hqRel_isEmpty C.P s.hq [] h.rel).mpr rfl
      rw [if_neg (by simp [this])]
      refine ⟨s, O, m, anc, kids, rfl, h, fun i hi => ?_, by omega⟩
      obtain ⟨e, he, _⟩ := hO i hi
      simp at he
    · obtain ⟨e, l1, q1, he1, ⟨a, b, hab, hl1, ha, hb⟩, hlv, r1⟩ := hqRel_pop C.P hC.P s.hq l h.rel hl
      have hne : s.hq.isEmpty = false := by
        rw [← Bool.not_eq_true, hqRel_isEmpty C.P s.hq l h.rel]
        exact hl
      have hel : e ∈ l := by rw [hab]; simp
      obtain ⟨hef, heO⟩ := h.ql e hel
      obtain ⟨he0, hem, hela⟩ := h.act _ heO
      have hen := (h.eti _ he0).1
      have hmve := hmin _ hen
      rw [if_pos ⟨by rw [← hlv, hef]; exact hmve, hne⟩, he1]
      simp only [Option.bind_some]
      rw [hC.rev] at ha hb
      simp only [better_true] at ha hb
      have hbest : ∀ x ∈ l, x.1 ≤ e.1 := by
        intro x hx
        rw [hab] at hx
        rcases List.mem_append.mp hx with h1 | h1
        · exact (ha x h1).le
        · rcases List.mem_cons.mp h1 with h1 | h1
          · rw [h1]
          · exact Nat.le_of_not_lt (hb x h1)
      have h1 : MTI C Good mv ⟨s.tree, s.labels, s.eti, q1⟩ l1 O (C.f e.2) anc kids := by
        refine h.restrict r1 hem hmve ?_ ?_ (fun i hi => .inl hi)
        · intro i hi
          refine ⟨hi, ?_⟩
          obtain ⟨x, hx, hxi⟩ := hO i hi
          rw [← hxi, ← (h.ql x hx).1, ← hef]
          exact hbest x hx
        · intro x hx
          refine h.ql x ?_
          rw [hl1] at hx
          rw [hab]
          rcases List.mem_append.mp hx with h1 | h1 <;> simp [h1]
      obtain ⟨s2, l2, O2, m2, anc2, kids2, e2, h2, hO2, hd, hc2, hm2, hp2⟩ :=
        mtVisit_spec hC hG hmin (p := e.2) (C.nbs e.2) _ l1 O anc kids h1 heO (fun q hq => hq)
          (fun q hq => .inl hq) (by
          intro i hi
          obtain ⟨x, hx, hxi⟩ := hO i hi
          rw [hab] at hx
          rcases List.mem_append.mp hx with h1 | h1
          · exact .inr ⟨x, by rw [hl1]; simp [h1], hxi⟩
          · rcases List.mem_cons.mp h1 with h1 | h1
            · left; rw [← hxi, h1]
            · exact .inr ⟨x, by rw [hl1]; simp [h1], hxi⟩) hcur
      rw [e2]
      simp only [Option.bind_some]
      have hlen : l1.length + 1 = l.length := by rw [hab, hl1]; simp; omega
      have h3 : MTI C Good mv s2 l2 (fun i => O2 i ∧ ∃ x ∈ l2, x.2 = i) m2 anc2 kids2 := by
        refine h2.restrict h2.rel (le_refl _) h2.mvm (fun i hi => ⟨hi.1, (h2.act i hi.1).2.1⟩)
          (fun x hx => ⟨(h2.ql x hx).1, (h2.ql x hx).2, x, hx, rfl⟩) ?_
        intro i hi
        rcases hO2 i hi with h4 | h4
        · subst h4
          rcases hd with h5 | h5
          · exact .inl ⟨hi, h5⟩
          · exact .inr h5
        · exact .inl ⟨hi, h4⟩
      refine mtFlood_spec hC hG hmin fuel s2 l2 _ m2 anc2 kids2 h3 (fun i hi => hi.2) hc2 ?_
      simp only at hm2
      omega

end

/-! ### The start -/

theorem mtMin_spec {top : Nat} (hn : 0 < C.n) (htop : ∀ i < C.n, C.f i ≤ top) :
    (mtMin C top).2 < C.n ∧ (mtMin C top).1 = C.f (mtMin C top).2 ∧ ∀ i < C.n, (mtMin C top).1 ≤ C.f i := by
  have key : ∀ k ≤ C.n, let s := (List.range k).foldl (fun s i => if C.f i < s.1 then (C.f i, i) else s) (top, 0)
      s.1 ≤ top ∧ (∀ i < k, s.1 ≤ C.f i) ∧ ((s.1 = top ∧ s.2 = 0) ∨ (s.2 < k ∧ s.1 = C.f s.2)) := by
    intro k
    induction k with
    | zero => intro _; simp
    | succ k ih =>
      intro hk
      obtain ⟨h1, h2, h3⟩ := ih (by omega)
      rw [List.range_succ, List.foldl_append]
      simp only [List.foldl_cons, List.foldl_nil]
      generalize (List.range k).foldl (fun s i => if C.f i < s.1 then (C.f i, i) else s) (top, 0) = s at *
      by_cases hc : C.f k < s.1
      · rw [if_pos hc]
        refine ⟨by simp only; omega, fun i hi => ?_, .inr ⟨by simp, rfl⟩⟩
        by_cases e : i = k
        · subst e; exact le_refl _
        · have := h2 i (by omega); simp only; omega
      · rw [if_neg hc]
        refine ⟨h1, fun i hi => ?_, h3.imp id fun h => ⟨by omega, h.2⟩⟩
        by_cases e : i = k
        · subst e; omega
        · exact h2 i (by omega)
  obtain ⟨h1, h2, h3⟩ := key C.n (le_refl _)
  unfold mtMin
  generalize (List.range C.n).foldl (fun s i => if C.f i < s.1 then (C.f i, i) else s) (top, 0) = s at *
  rcases h3 with ⟨h3, h4⟩ | ⟨h3, h4⟩
  · refine ⟨by omega, ?_, h2⟩
    have := h2 0 hn
    have := htop 0 hn
    rw [h4]; omega
  · exact ⟨h3, h4, h2⟩

/-- What holds at the end of the flooding. -/
structure MTDone (C : MTCfg) (Good : M → Finset Nat → Prop) (mv : Nat) (s : MTSt M) (anc : Nat → Nat → Prop)
    (kids : Nat → List Nat) : Prop where
  tr : MTr s.tree.lev s.tree.child s.tree.bro s.tree.cur anc kids
  eti : ∀ i, s.eti i ≠ 0 → i < C.n ∧ s.eti i < s.tree.cur ∧ s.tree.lev (s.eti i) = C.f i
  closed : ∀ i, s.eti i ≠ 0 → ∀ j ∈ C.nbs i, s.eti j ≠ 0
  adj : ∀ i j, s.eti i ≠ 0 → s.eti j ≠ 0 → j ∈ C.nbs i → C.f j ≤ C.f i → anc (s.eti j) (s.eti i)
  conn : ∀ a i j, anc a (s.eti i) → anc a (s.eti j) → AConn C.nbs (ALev C.n C.f (s.tree.lev a)) i j
  crit : ∀ a, 1 ≤ a → a < s.tree.cur → a ≠ 1 → Good (s.tree.crit a) (offSet C fun i => s.eti i = a)
  root : s.labels mv = 1
  lev1 : s.tree.lev 1 = mv
  start : ∃ i, i < C.n ∧ C.f i = mv ∧ s.eti i ≠ 0

/-- The invariant at the start. -/
theorem mtStart {Good : M → Finset Nat → Prop} {mv x : Nat} (hx : x < C.n) (hmv : mv = C.f x)
    {hq : HQ Nat} (hrel : HQRel C.P hq [(mv, x)]) :
    MTI C Good mv ⟨⟨Function.update (fun _ => 0) 1 mv, fun _ => 0, fun _ => 0, fun _ => K.first, 2⟩,
        Function.update (fun _ => 0) mv 1, Function.update (fun _ => 0) x 1, hq⟩ [(mv, x)] (fun i => i = x) mv
      (fun a b => a = 1 ∧ b = 1) (fun _ => []) := by
  have hu : ∀ {y i : Nat}, Function.update (fun _ => 0) y 1 i ≠ 0 → i = y := by
    intro y i hi
    by_contra hne
    rw [Function.update_of_ne hne] at hi
    exact hi rfl
  refine ⟨⟨by simp, ?_, ?_, ?_, ?_, ?_, ?_, ?_, ?_, ?_, ?_, ?_, ?_⟩, hrel, ?_, ?_, ?_, ?_, ?_, ?_, ?_, ?_,
    le_refl _, ?_, ?_, ?_, ⟨x, hx, hmv.symm, by simp⟩⟩
  · intro a b h; simp only; omega
  · intro a h h'; simp only at h'; omega
  · intro a b c h h'; exact ⟨h.1, h'.2⟩
  · intro a b h h'; omega
  · intro a b c h h' _; exact ⟨h.1, h'.1⟩
  · intro b h h'; simp only at h'; omega
  · intro a b
    constructor
    · intro h; omega
    · rintro ⟨_, h, _⟩; simp at h
  · intro a y h; simp at h
  · intro a y z h; simp at h
  · intro a; simp
  · intro a h h'; exact .nil
  · intro a h; rfl
  · intro e he
    rw [List.mem_singleton] at he
    subst he
    exact ⟨hmv, rfl⟩
  · intro i hi
    subst hi
    simp only [Function.update_self]
    refine ⟨by simp, by omega, ?_⟩
    rw [hmv, Function.update_self]
  · intro i hi
    have := hu hi
    subst this
    simp only [Function.update_self]
    exact ⟨hx, by omega, hmv⟩
  · intro i hi
    exact .inl (hu hi)
  · intro k hk hk0
    have := hu hk0
    subst this
    simp only [Function.update_self]
    exact ⟨by omega, trivial⟩
  · intro k k' _ _ hk0 hk0'
    have := hu hk0
    have := hu hk0'
    subst k; subst k'
    simp
  · intro k k' hkk _ hk0 hk0'
    have := hu hk0
    have := hu hk0'
    omega
  · simp
  · intro i j hi hj _ _
    rw [hu hi, hu hj]
    simp
  · intro a i j hi hj
    have h1 : i = x := hu (fun e => by have := e.symm.trans hi.2; omega)
    have h2 : j = x := hu (fun e => by have := e.symm.trans hj.2; omega)
    rw [h1, h2]
    exact .refl
  · intro a h h' h1
    simp only at h'
    omega

/-- `initialize` and `flood` succeed and build the tree of the pixels reached. -/
theorem mtRun_spec {Good : M → Finset Nat → Prop} {top : Nat} (hC : C.Ok) (hG : MTGood K C Good) (hn : 0 < C.n)
    (htop : ∀ i < C.n, C.f i ≤ top) :
    ∃ s anc kids, mtRun K C top = some s ∧ MTDone C Good (mtMin C top).1 s anc kids := by
  obtain ⟨h1, h2, h3⟩ := mtMin_spec hn htop
  unfold mtRun
  dsimp only
  generalize (mtMin C top).1 = mv at *
  generalize (mtMin C top).2 = x at *
  have hlt : mv < C.P.nbr := by rw [h2]; exact hC.f _ h1
  rw [if_pos hlt]
  obtain ⟨hq, e, r⟩ := hqRel_push C.P _ [] (hqRel_init C.P hC.P) mv x hlt
  rw [e]
  simp only [Option.bind_some]
  have hst := mtStart (K := K) (Good := Good) (C := C) h1 h2 r
  have hun : unvis C (Function.update (fun _ => 0) x 1) + 1 = C.n := by
    rw [unvis_update h1 rfl (by simp)]
    unfold unvis
    have : (offSet C fun _ => (0 : Nat) = 0) = Finset.range C.n := by
      ext i; rw [mem_offSet]; simp
    rw [this, Finset.card_range]
  obtain ⟨s, O, m, anc, kids, e2, h4, hO, hc⟩ := mtFlood_spec hC hG h3 (2 * C.n + 1) _ _ _ _ _ _ hst
    (by rintro i rfl; exact ⟨_, List.mem_singleton.mpr rfl, rfl⟩) (by simp only; omega) (by
      simp only [List.length_singleton]; omega)
  have hlab := h4.lab mv h4.mvm (by rw [h4.labmin]; simp)
  rw [h4.labmin] at hlab
  refine ⟨s, anc, kids, e2, h4.tr, h4.eti, fun i hi => (h4.opn i hi).resolve_left (hO i), h4.adj, h4.conn,
    h4.crit, h4.labmin, hlab.2, h4.st⟩

end Smil
