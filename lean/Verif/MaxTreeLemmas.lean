import Verif.MaxTree
import Verif.AreaOpenLemmas
import Verif.HierarQLemmas
import Mathlib.Data.Finset.Card

/-!
# Invariants of the max-tree

`anc` is the relation "is an ancestor of, or is" of the nodes and `kids` lists the children of a node in the
order of the brothers; neither is in the code.
-/

namespace Smil
open Relation
variable {M : Type} {K : MTCrit M} {C : MTCfg}

/-- `l` is the list of brothers from `c` on. -/
inductive Enc (bro : Nat → Nat) : Nat → List Nat → Prop
  | nil : Enc bro 0 []
  | cons {c l} : c ≠ 0 → Enc bro (bro c) l → Enc bro c (c :: l)

theorem Enc.congr {bro bro' : Nat → Nat} {c : Nat} {l : List Nat} (h : Enc bro c l)
    (hb : ∀ x ∈ l, bro' x = bro x) : Enc bro' c l := by
  induction h with
  | nil => exact .nil
  | @cons c l h1 _ ih =>
    refine .cons h1 ?_
    rw [hb c (by simp)]
    exact ih fun x hx => hb x (by simp [hx])

/-- The tree is well formed. -/
structure MTr (lev child bro : Nat → Nat) (cur : Nat) (anc : Nat → Nat → Prop) (kids : Nat → List Nat) :
    Prop where
  one : 1 < cur
  node : ∀ {a b}, anc a b → (1 ≤ a ∧ a < cur) ∧ (1 ≤ b ∧ b < cur)
  refl : ∀ {a}, 1 ≤ a → a < cur → anc a a
  trans : ∀ {a b c}, anc a b → anc b c → anc a c
  lt : ∀ {a b}, anc a b → a ≠ b → lev a < lev b
  chain : ∀ {a b c}, anc a c → anc b c → lev a ≤ lev b → anc a b
  root : ∀ {b}, 1 ≤ b → b < cur → anc 1 b
  kid : ∀ {a b}, (anc a b ∧ a ≠ b) ↔ ∃ x ∈ kids a, anc x b
  kidn : ∀ {a x}, x ∈ kids a → 1 ≤ x ∧ x < cur
  kidd : ∀ {a x y}, x ∈ kids a → y ∈ kids a → anc x y → x = y
  nd : ∀ a, (kids a).Nodup
  enc : ∀ {a}, 1 ≤ a → a < cur → Enc bro (child a) (kids a)
  fresh : ∀ {a}, cur ≤ a → child a = 0

section
variable {lev child bro : Nat → Nat} {cur : Nat} {anc : Nat → Nat → Prop} {kids : Nat → List Nat}

theorem MTr.le (h : MTr lev child bro cur anc kids) {a b : Nat} (hab : anc a b) : lev a ≤ lev b := by
  by_cases e : a = b
  · rw [e]
  · exact (h.lt hab e).le

theorem MTr.anti (h : MTr lev child bro cur anc kids) {a b : Nat} (hab : anc a b) (hba : anc b a) : a = b := by
  by_contra e
  have := h.lt hab e
  have := h.lt hba (Ne.symm e)
  omega

theorem MTr.kid_anc (h : MTr lev child bro cur anc kids) {a x : Nat} (hx : x ∈ kids a) : anc a x ∧ a ≠ x :=
  h.kid.mpr ⟨x, hx, h.refl (h.kidn hx).1 (h.kidn hx).2⟩

theorem MTr.kidp (h : MTr lev child bro cur anc kids) {a x : Nat} (hx : x ∈ kids a) : 1 ≤ a ∧ a < cur :=
  (h.node (h.kid_anc hx).1).1

theorem MTr.kids_nil (h : MTr lev child bro cur anc kids) {a : Nat} (ha : cur ≤ a) : kids a = [] := by
  rw [List.eq_nil_iff_forall_not_mem]
  intro x hx
  have := (h.kidp hx).2
  omega

/-- An ancestor of a child other than the child is an ancestor of the father. -/
theorem MTr.up (h : MTr lev child bro cur anc kids) {P c a : Nat} (hc : c ∈ kids P) (ha : anc a c)
    (hne : a ≠ c) : anc a P := by
  rcases le_total (lev a) (lev P) with hl | hl
  · exact h.chain ha (h.kid_anc hc).1 hl
  · have h1 := h.chain (h.kid_anc hc).1 ha hl
    by_cases e : P = a
    · rw [e]; exact h.refl (h.node ha).1.1 (h.node ha).1.2
    · obtain ⟨y, hy, hya⟩ := h.kid.mp ⟨h1, e⟩
      have e2 := h.kidd hy hc (h.trans hya ha)
      subst e2
      exact absurd (h.anti ha hya) hne

theorem MTr.uniq (h : MTr lev child bro cur anc kids) {P Q c : Nat} (hc : c ∈ kids P) (hc' : c ∈ kids Q) :
    P = Q := by
  have h1 := h.up hc (h.kid_anc hc').1 (h.kid_anc hc').2
  have h2 := h.up hc' (h.kid_anc hc).1 (h.kid_anc hc).2
  exact h.anti h2 h1

/-- A node of lesser level, inserted below `P`. -/
def ancHigher (anc : Nat → Nat → Prop) (n P : Nat) (a b : Nat) : Prop :=
  if b = n then a = n ∨ anc a P else anc a b

/-- `nextHigherLabel` keeps the tree well formed. -/
theorem MTr.higher (h : MTr lev child bro cur anc kids) {P v : Nat} (hP : 1 ≤ P) (hP' : P < cur)
    (hv : lev P < v) :
    MTr (Function.update lev cur v) (Function.update child P cur) (Function.update bro cur (child P)) (cur + 1)
      (ancHigher anc cur P) (Function.update kids P (cur :: kids P)) := by
  have hn : ∀ {b}, ¬ anc cur b := fun hb => by have := (h.node hb).1.2; omega
  have hn' : ∀ {a}, ¬ anc a cur := fun hb => by have := (h.node hb).2.2; omega
  have hk : ∀ {a}, cur ∉ kids a := fun hb => by have := (h.kidn hb).2; omega
  have hPn : P ≠ cur := by omega
  have hlt : ∀ {a b}, anc a b → a ≠ cur ∧ b ≠ cur := fun hb => by have := h.node hb; omega
  have h1 := h.one
  refine ⟨by omega, ?_, ?_, ?_, ?_, ?_, ?_, ?_, ?_, ?_, ?_, ?_, ?_⟩
  · intro a b hab
    unfold ancHigher at hab
    split at hab
    · rcases hab with hab | hab
      · omega
      · have := h.node hab; omega
    · have := h.node hab; omega
  · intro a ha ha'
    unfold ancHigher
    split
    · left; assumption
    · exact h.refl ha (by omega)
  · intro a b c hab hbc
    unfold ancHigher at *
    split
    · rename_i hc
      rw [if_pos hc] at hbc
      rcases hbc with hbc | hbc
      · rwa [if_pos hbc] at hab
      · rw [if_neg (hlt hbc).1] at hab
        exact .inr (h.trans hab hbc)
    · rename_i hc
      rw [if_neg hc] at hbc
      rw [if_neg (hlt hbc).1] at hab
      exact h.trans hab hbc
  · intro a b hab hne
    unfold ancHigher at hab
    simp only [Function.update_apply]
    split at hab
    · rename_i hb
      rcases hab with hab | hab
      · omega
      · rw [if_neg (hlt hab).1, if_pos hb]
        have := h.le hab; omega
    · rw [if_neg (hlt hab).1, if_neg (hlt hab).2]
      exact h.lt hab hne
  · intro a b c hac hbc hl
    simp only [Function.update_apply] at hl
    unfold ancHigher at *
    by_cases hb : b = cur
    · rw [if_pos hb]
      by_cases ha : a = cur
      · exact .inl ha
      · right
        by_cases hc : c = cur
        · rw [if_pos hc] at hac
          exact hac.resolve_left ha
        · rw [if_neg hc] at hbc
          exact absurd hb (hlt hbc).1
    · rw [if_neg hb]
      rw [if_neg hb] at hl
      by_cases hc : c = cur
      · rw [if_pos hc] at hac hbc
        have hbP := hbc.resolve_left hb
        rcases hac with ha | ha
        · rw [if_pos ha] at hl
          have := h.le hbP; omega
        · rw [if_neg (hlt ha).1] at hl
          exact h.chain ha hbP hl
      · rw [if_neg hc] at hac hbc
        rw [if_neg (hlt hac).1] at hl
        exact h.chain hac hbc hl
  · intro b hb hb'
    unfold ancHigher
    split
    · exact .inr (h.root hP hP')
    · exact h.root hb (by omega)
  · intro a b
    unfold ancHigher
    simp only [Function.update_apply]
    by_cases hb : b = cur
    · simp only [if_pos hb]
      by_cases ha : a = cur
      · subst ha
        rw [if_neg (Ne.symm hPn), h.kids_nil (le_refl _)]
        simp [hb]
      · by_cases haP : a = P
        · rw [if_pos haP]
          subst haP
          constructor
          · intro _; exact ⟨cur, by simp, .inl rfl⟩
          · intro _; exact ⟨.inr (h.refl hP hP'), by omega⟩
        · rw [if_neg haP]
          have := h.kid (a := a) (b := P)
          constructor
          · rintro ⟨h2 | h2, _⟩
            · exact absurd h2 ha
            · obtain ⟨x, hx, hx'⟩ := this.mp ⟨h2, haP⟩
              exact ⟨x, hx, .inr hx'⟩
          · rintro ⟨x, hx, h2 | h2⟩
            · exact absurd (h2 ▸ hx) hk
            · exact ⟨.inr (this.mpr ⟨x, hx, h2⟩).1, by omega⟩
    · simp only [if_neg hb]
      rw [h.kid]
      by_cases haP : a = P
      · subst haP
        simp [hn]
      · rw [if_neg haP]
  · intro a x hx
    simp only [Function.update_apply] at hx
    split at hx
    · rcases List.mem_cons.mp hx with hx | hx
      · omega
      · have := h.kidn hx; omega
    · have := h.kidn hx; omega
  · intro a x y hx hy hxy
    simp only [Function.update_apply] at hx hy
    unfold ancHigher at hxy
    split at hx
    · rename_i haP
      subst haP
      rw [if_pos rfl] at hy
      rcases List.mem_cons.mp hx with hx | hx <;> rcases List.mem_cons.mp hy with hy | hy
      · rw [hx, hy]
      · rw [if_neg (fun e => hk (e ▸ hy)), hx] at hxy
        exact absurd hxy hn
      · rw [if_pos hy] at hxy
        rcases hxy with hxy | hxy
        · exact absurd (hxy ▸ hx) hk
        · exact absurd (h.anti (h.kid_anc hx).1 hxy) (h.kid_anc hx).2
      · rw [if_neg (fun e => hk (e ▸ hy))] at hxy
        exact h.kidd hx hy hxy
    · rename_i haP
      rw [if_neg haP] at hy
      rw [if_neg (fun e => hk (e ▸ hy))] at hxy
      exact h.kidd hx hy hxy
  · intro a
    simp only [Function.update_apply]
    split
    · exact List.nodup_cons.mpr ⟨hk, h.nd _⟩
    · exact h.nd _
  · intro a ha ha'
    have hc : ∀ b, ∀ x ∈ kids b, Function.update bro cur (child P) x = bro x := by
      intro b x hx
      rw [Function.update_of_ne]
      exact fun e => hk (e ▸ hx)
    simp only [Function.update_apply]
    split
    · refine .cons (by omega) ?_
      rw [Function.update_self]
      exact (h.enc hP hP').congr (hc _)
    · rename_i haP
      by_cases hac : a < cur
      · exact (h.enc ha hac).congr (hc _)
      · rw [h.fresh (a := a) (by omega), h.kids_nil (a := a) (by omega)]
        exact .nil
  · intro a ha
    rw [Function.update_of_ne (by omega)]
    exact h.fresh (by omega)

/-- A node inserted between `P` and its first child `c`. -/
def ancLower (anc : Nat → Nat → Prop) (n P c : Nat) (a b : Nat) : Prop :=
  if b = n then a = n ∨ anc a P else if a = n then anc c b else anc a b

/-- `nextLowerLabel` keeps the tree well formed. -/
theorem MTr.lower (h : MTr lev child bro cur anc kids) {P c v : Nat} {rest : List Nat}
    (hkP : kids P = c :: rest) (hv : lev P < v) (hv' : v < lev c) :
    MTr (Function.update lev cur v) (Function.update (Function.update child cur c) P cur)
      (Function.update (Function.update bro cur (bro c)) c 0) (cur + 1)
      (ancLower anc cur P c) (Function.update (Function.update kids P (cur :: rest)) cur [c]) := by
  have hcP : c ∈ kids P := by rw [hkP]; simp
  obtain ⟨hP, hP'⟩ := h.kidp hcP
  obtain ⟨hc1, hc2⟩ := h.kidn hcP
  have hrest : ∀ {x}, x ∈ rest → x ∈ kids P := fun hx => by rw [hkP]; simp [hx]
  have hcr : c ∉ rest := by
    have := h.nd P
    rw [hkP] at this
    exact (List.nodup_cons.mp this).1
  have hn : ∀ {b}, ¬ anc cur b := fun hb => by have := (h.node hb).1.2; omega
  have hn' : ∀ {a}, ¬ anc a cur := fun hb => by have := (h.node hb).2.2; omega
  have hk : ∀ {a}, cur ∉ kids a := fun hb => by have := (h.kidn hb).2; omega
  have hkr : cur ∉ rest := fun hb => hk (hrest hb)
  have hkr' : ∀ {x}, x ∈ rest → x ≠ cur := fun hx e => hkr (e ▸ hx)
  have hk' : ∀ {a x}, x ∈ kids a → x ≠ cur := fun hx e => hk (e ▸ hx)
  have hcr' : ∀ {x}, x ∈ rest → x ≠ c := fun hx e => hcr (e ▸ hx)
  have hPn : P ≠ cur := by omega
  have hcn : c ≠ cur := by omega
  have hlt : ∀ {a b}, anc a b → a ≠ cur ∧ b ≠ cur := fun hb => by have := h.node hb; omega
  have hPc := h.kid_anc hcP
  have h1 := h.one
  have hcnP : ¬ anc c P := fun e => hPc.2 (h.anti hPc.1 e)
  refine ⟨by omega, ?_, ?_, ?_, ?_, ?_, ?_, ?_, ?_, ?_, ?_, ?_, ?_⟩
  · intro a b hab
    unfold ancLower at hab
    split at hab
    · rcases hab with hab | hab
      · omega
      · have := h.node hab; omega
    · split at hab
      · have := h.node hab; omega
      · have := h.node hab; omega
  · intro a ha ha'
    unfold ancLower
    split
    · left; assumption
    · exact h.refl ha (by omega)
  · intro a b d hab hbd
    unfold ancLower at *
    by_cases hd : d = cur
    · rw [if_pos hd] at hbd ⊢
      rcases hbd with hbd | hbd
      · rwa [if_pos hbd] at hab
      · rw [if_neg (hlt hbd).1] at hab
        split at hab
        · exact absurd (h.trans hab hbd) hcnP
        · exact .inr (h.trans hab hbd)
    · rw [if_neg hd] at hbd ⊢
      by_cases hb : b = cur
      · rw [if_pos hb] at hab hbd
        by_cases ha : a = cur
        · rwa [if_pos ha]
        · rw [if_neg ha]
          exact h.trans (hab.resolve_left ha) (h.trans hPc.1 hbd)
      · rw [if_neg hb] at hab hbd
        by_cases ha : a = cur
        · rw [if_pos ha] at hab ⊢
          exact h.trans hab hbd
        · rw [if_neg ha] at hab ⊢
          exact h.trans hab hbd
  · intro a b hab hne
    unfold ancLower at hab
    simp only [Function.update_apply]
    by_cases hb : b = cur
    · rw [if_pos hb] at hab ⊢
      rcases hab with hab | hab
      · omega
      · rw [if_neg (hlt hab).1]
        have := h.le hab; omega
    · rw [if_neg hb] at hab ⊢
      split at hab
      · rename_i ha
        rw [if_pos ha]
        have := h.le hab; omega
      · rename_i ha
        rw [if_neg ha]
        exact h.lt hab hne
  · intro a b d had hbd hl
    simp only [Function.update_apply] at hl
    unfold ancLower at *
    by_cases ha : a = cur
    · by_cases hb : b = cur
      · rw [if_pos hb]; exact .inl ha
      · rw [if_neg hb, if_pos ha]
        rw [if_pos ha, if_neg hb] at hl
        by_cases hd : d = cur
        · rw [if_pos hd] at hbd
          have := h.le (hbd.resolve_left hb); omega
        · rw [if_neg hd, if_neg hb] at hbd
          rw [if_neg hd, if_pos ha] at had
          rcases le_total (lev c) (lev b) with h2 | h2
          · exact h.chain had hbd h2
          · have h3 := h.chain hbd had h2
            by_cases e : b = c
            · rw [e]; exact h.refl hc1 hc2
            · have := h.le (h.up hcP h3 e); omega
    · rw [if_neg ha] at hl
      by_cases hb : b = cur
      · rw [if_pos hb] at hl ⊢
        right
        by_cases hd : d = cur
        · rw [if_pos hd] at had
          exact had.resolve_left ha
        · rw [if_neg hd, if_pos hb] at hbd
          rw [if_neg hd, if_neg ha] at had
          exact h.up hcP (h.chain had hbd (by omega)) (fun e => by rw [e] at hl; omega)
      · rw [if_neg hb] at hl
        rw [if_neg hb, if_neg ha]
        by_cases hd : d = cur
        · rw [if_pos hd] at had hbd
          exact h.chain (had.resolve_left ha) (hbd.resolve_left hb) hl
        · rw [if_neg hd, if_neg ha] at had
          rw [if_neg hd, if_neg hb] at hbd
          exact h.chain had hbd hl
  · intro b hb hb'
    unfold ancLower
    split
    · exact .inr (h.root hP hP')
    · rw [if_neg (by omega)]
      exact h.root hb (by omega)
  · intro a b
    unfold ancLower
    simp only [Function.update_apply]
    by_cases ha : a = cur
    · simp only [if_pos ha]
      by_cases hb : b = cur
      · simp only [if_pos hb]
        constructor
        · rintro ⟨_, h2⟩; omega
        · rintro ⟨x, hx, h2⟩
          rw [List.mem_singleton] at hx
          subst hx
          rcases h2 with h2 | h2
          · exact absurd h2 hcn
          · exact absurd h2 hcnP
      · simp only [if_neg hb, List.mem_singleton, exists_eq_left, if_neg hcn]
        constructor
        · exact fun h2 => h2.1
        · exact fun h2 => ⟨h2, by omega⟩
    · simp only [if_neg ha]
      by_cases haP : a = P
      · subst haP
        simp only [if_true]
        by_cases hb : b = cur
        · simp only [if_pos hb]
          constructor
          · intro _; exact ⟨cur, by simp, .inl rfl⟩
          · intro _; exact ⟨.inr (h.refl hP hP'), by omega⟩
        · simp only [if_neg hb]
          rw [h.kid, hkP]
          constructor
          · rintro ⟨x, hx, h2⟩
            rcases List.mem_cons.mp hx with hx | hx
            · exact ⟨cur, by simp, by rw [if_pos rfl]; exact hx ▸ h2⟩
            · exact ⟨x, by simp [hx], by rw [if_neg (hlt h2).1]; exact h2⟩
          · rintro ⟨x, hx, h2⟩
            rcases List.mem_cons.mp hx with hx | hx
            · rw [if_pos hx] at h2
              exact ⟨c, by simp, h2⟩
            · rw [if_neg (hkr' hx)] at h2
              exact ⟨x, by simp [hx], h2⟩
      · simp only [if_neg haP]
        by_cases hb : b = cur
        · simp only [if_pos hb]
          have := h.kid (a := a) (b := P)
          constructor
          · rintro ⟨h2 | h2, _⟩
            · exact absurd h2 ha
            · obtain ⟨x, hx, hx'⟩ := this.mp ⟨h2, haP⟩
              exact ⟨x, hx, .inr hx'⟩
          · rintro ⟨x, hx, h2 | h2⟩
            · exact absurd (h2 ▸ hx) hk
            · exact ⟨.inr (this.mpr ⟨x, hx, h2⟩).1, by omega⟩
        · simp only [if_neg hb]
          rw [h.kid]
          refine exists_congr fun x => and_congr_right fun hx => ?_
          rw [if_neg (hk' hx)]
  · intro a x hx
    simp only [Function.update_apply] at hx
    split at hx
    · rw [List.mem_singleton] at hx; omega
    · split at hx
      · rcases List.mem_cons.mp hx with hx | hx
        · omega
        · have := h.kidn (hrest hx); omega
      · have := h.kidn hx; omega
  · intro a x y hx hy hxy
    simp only [Function.update_apply] at hx hy
    unfold ancLower at hxy
    split at hx
    · rename_i ha
      rw [if_pos ha] at hy
      rw [List.mem_singleton] at hx hy
      rw [hx, hy]
    · rename_i ha
      rw [if_neg ha] at hy
      split at hx
      · rename_i haP
        subst haP
        rw [if_pos rfl] at hy
        rcases List.mem_cons.mp hx with hx | hx <;> rcases List.mem_cons.mp hy with hy | hy
        · rw [hx, hy]
        · rw [if_neg (hkr' hy), if_pos hx] at hxy
          exact absurd (h.kidd hcP (hrest hy) hxy) (fun e => hcr (e ▸ hy))
        · rw [if_pos hy] at hxy
          rcases hxy with hxy | hxy
          · exact absurd (hxy ▸ hx) hkr
          · exact absurd (h.anti (h.kid_anc (hrest hx)).1 hxy) (h.kid_anc (hrest hx)).2
        · rw [if_neg (hkr' hy), if_neg (hkr' hx)] at hxy
          exact h.kidd (hrest hx) (hrest hy) hxy
      · rename_i haP
        rw [if_neg haP] at hy
        rw [if_neg (hk' hy), if_neg (hk' hx)] at hxy
        exact h.kidd hx hy hxy
  · intro a
    simp only [Function.update_apply]
    split
    · simp
    · split
      · have := h.nd P
        rw [hkP] at this
        exact List.nodup_cons.mpr ⟨hkr, (List.nodup_cons.mp this).2⟩
      · exact h.nd _
  · intro a ha ha'
    by_cases hac : a = cur
    · subst hac
      simp only [Function.update_self]
      rw [Function.update_of_ne (Ne.symm hPn), Function.update_self]
      refine .cons (by omega) ?_
      rw [Function.update_self]
      exact .nil
    · rw [Function.update_of_ne hac]
      by_cases haP : a = P
      · subst haP
        rw [Function.update_self, Function.update_self]
        refine .cons (by omega) ?_
        rw [Function.update_of_ne (Ne.symm hcn), Function.update_self]
        have h2 := h.enc hP hP'
        rw [hkP] at h2
        generalize child a = y at h2
        cases h2 with
        | cons _ h3 =>
          refine h3.congr fun x hx => ?_
          rw [Function.update_of_ne (hcr' hx), Function.update_of_ne (hkr' hx)]
      · rw [Function.update_of_ne haP, Function.update_of_ne haP, Function.update_of_ne hac]
        refine (h.enc ha (by omega)).congr fun x hx => ?_
        have hxc : x ≠ c := by rintro rfl; exact haP (h.uniq hx hcP)
        rw [Function.update_of_ne hxc,
          Function.update_of_ne (hk' hx)]
  · intro a ha
    rw [Function.update_of_ne (by omega), Function.update_of_ne (by omega)]
    exact h.fresh (by omega)

end

end Smil
