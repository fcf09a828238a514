import Verif.GeoDist
import Verif.DistanceLemmas
import Verif.ArithLemmas
import Mathlib.Data.Finset.Card

/-!
# The loop of the geodesic distance computes least lengths
-/

namespace Smil
section
variable {t : PT}

/-- `i` is reached in `k` steps inside of the object, the first one from the background. -/
inductive GdLen (C : GdCfg) : Nat → Nat → Prop
  | one {i z} : i < C.n → C.obj i = true → z ∈ C.adj i → C.bg z = true → GdLen C 1 i
  | step {k i j} : GdLen C k i → j < C.n → C.obj j = true → j ∈ C.adj i → GdLen C (k + 1) j

def GdLvl (C : GdCfg) (k i : Nat) : Prop := IsLeast {n | GdLen C n i} k

variable {C : GdCfg}

theorem GdLen.pos {k i : Nat} (h : GdLen C k i) : 1 ≤ k := by cases h <;> omega

theorem GdLen.lt {k i : Nat} (h : GdLen C k i) : i < C.n := by cases h <;> assumption

theorem GdLen.obj {k i : Nat} (h : GdLen C k i) : C.obj i = true := by cases h <;> assumption

theorem GdLen.lvl {k i : Nat} (h : GdLen C k i) : ∃ m, m ≤ k ∧ GdLvl C m i := by
  classical
  have hex : ∃ m, GdLen C m i := ⟨k, h⟩
  exact ⟨Nat.find hex, Nat.find_min' hex h, Nat.find_spec hex, fun m hm => Nat.find_min' hex hm⟩

theorem GdLvl.pred {k i : Nat} (h : GdLvl C (k + 1) i) (hk : 1 ≤ k) : ∃ j, GdLvl C k j ∧ i ∈ C.adj j := by
  obtain ⟨h1, h2⟩ := h
  have h1' : GdLen C (k + 1) i := h1
  generalize hn : k + 1 = n at h1'
  cases h1' with
  | one => omega
  | @step k' j _ hj hi ho hadj =>
    obtain rfl : k' = k := by omega
    refine ⟨j, ⟨hj, fun m hm => ?_⟩, hadj⟩
    have : k' + 1 ≤ m + 1 := h2 (show GdLen C (m + 1) i from .step hm hi ho hadj)
    omega

/-- A distance is at most the number of pixels: one pixel at least has each smaller one. -/
theorem GdLvl.le {k i : Nat} (h : GdLvl C k i) : k ≤ C.n := by
  classical
  have hall : ∀ d j, j + d = k → 1 ≤ j → ∃ i, GdLvl C j i := by
    intro d
    induction d with
    | zero => intro j hj _; exact ⟨i, by rw [show j = k by omega]; exact h⟩
    | succ d ih =>
      intro j hj h1
      obtain ⟨i', hi'⟩ := ih (j + 1) (by omega) (by omega)
      obtain ⟨i'', hi'', -⟩ := hi'.pred h1
      exact ⟨i'', hi''⟩
  have hf : ∀ j : Nat, ∃ i, j ∈ Finset.Icc 1 k → GdLvl C j i := by
    intro j
    by_cases hj : j ∈ Finset.Icc 1 k
    · rw [Finset.mem_Icc] at hj
      obtain ⟨i, hi⟩ := hall (k - j) j (by omega) hj.1
      exact ⟨i, fun _ => hi⟩
    · exact ⟨0, fun h => absurd h hj⟩
  choose f hf using hf
  have := Finset.card_le_card_of_injOn (s := Finset.Icc 1 k) (t := Finset.range C.n) f
    (fun j hj => Finset.mem_coe.mpr (Finset.mem_range.mpr (hf j hj).1.lt)) (fun a ha b hb hab => by
      have h1 := hf a ha
      rw [hab] at h1
      exact h1.unique (hf b hb))
  simpa using this

/-- What the abstract proof needs of the configuration. -/
structure GdCfg.Ok (C : GdCfg) : Prop where
  lt : ∀ i, i < C.n → ∀ j ∈ C.adj i, j < C.n
  sym : ∀ i, i < C.n → ∀ j ∈ C.adj i, i ∈ C.adj j
  same : ∀ i, C.obj' i = C.obj i

/-- Invariant: `l` the contents of the queue, `m` its lowest level, `W` the pixel whose neighbours are being visited. -/
structure GdInv (C : GdCfg) (out : Nat → Px t) (l : List (Nat × Nat)) (m : Nat) (W : Nat → Prop) : Prop where
  val : ∀ i, i < C.n → out i ≠ t.wrap 0 → GdLvl C (out i).val.toNat i
  low : ∀ k i, k ≤ m → GdLvl C k i → out i ≠ t.wrap 0
  pend : ∀ e ∈ l, e.2 < C.n ∧ out e.2 ≠ t.wrap 0 ∧ e.1 = (out e.2).val.toNat
  rng : ∀ e ∈ l, m ≤ e.1 ∧ e.1 ≤ m + 1
  done : ∀ i, i < C.n → out i ≠ t.wrap 0 → W i ∨ (∃ e ∈ l, e.2 = i) ∨ ∀ j ∈ C.adj i, C.obj j = true → out j ≠ t.wrap 0

/-- The number of pixels without a value. -/
def gdZeros (C : GdCfg) (out : Nat → Px t) : Nat := ((Finset.range C.n).filter fun i => out i = t.wrap 0).card

theorem zero_val : (t.wrap 0).val = 0 := t.wrap_of_mem t.lo_nonpos t.hi_nonneg

theorem ne_zero_iff (hs : t.signed = false) (v : Px t) : v > t.wrap 0 ↔ v ≠ t.wrap 0 := by
  have h1 := v.lo_le
  rw [lo_unsigned hs] at h1
  rw [gt_iff_lt, Px.lt_iff, zero_val, ne_eq, Px.ext_iff', zero_val]
  omega

theorem gdMin_eq (hs : t.signed = false) (hb : t.bits ≤ 16) (out : Nat → Px t) (p : Nat) (c : Int)
    (h1 : ∃ j ∈ C.adj p, out j ≠ t.wrap 0 ∧ (out j).val + 1 = c)
    (h2 : ∀ j ∈ C.adj p, out j ≠ t.wrap 0 → c ≤ (out j).val + 1) : gdMin C out p = some c := by
  unfold gdMin
  have key : ∀ (l : List Nat) (m : Option Int), (∀ j ∈ l, out j ≠ t.wrap 0 → c ≤ (out j).val + 1) →
      (∀ x, m = some x → c ≤ x) → (m = some c ∨ ∃ j ∈ l, out j ≠ t.wrap 0 ∧ (out j).val + 1 = c) →
      l.foldl (fun m j =>
        if out j > t.wrap 0 then
          match m with
          | none => some (cInc (out j))
          | some c => if cInc (out j) < c then some (cInc (out j)) else m
        else m) m = some c := by
    intro l
    induction l with
    | nil => intro m _ _ h; rcases h with h | ⟨j, hj, -⟩
             · exact h
             · simp at hj
    | cons a l ih =>
      intro m hl hm h
      rw [List.foldl_cons]
      have hl' : ∀ j ∈ l, out j ≠ t.wrap 0 → c ≤ (out j).val + 1 := fun j hj => hl j (List.mem_cons_of_mem _ hj)
      by_cases ha : out a > t.wrap 0
      · have ha' := (ne_zero_iff hs _).mp ha
        have hca := hl a List.mem_cons_self ha'
        rw [if_pos ha]
        cases m with
        | none =>
          simp only
          rw [cInc_val hb]
          refine ih _ hl' (fun x hx => by cases hx; exact hca) ?_
          rcases h with h | ⟨j, hj, hj1, hj2⟩
          · cases h
          · rcases List.mem_cons.mp hj with rfl | hj
            · left; rw [hj2]
            · exact Or.inr ⟨j, hj, hj1, hj2⟩
        | some x =>
          simp only
          rw [cInc_val hb]
          have hx := hm x rfl
          by_cases hlt : (out a).val + 1 < x
          · rw [if_pos hlt]
            refine ih _ hl' (fun y hy => by cases hy; exact hca) ?_
            rcases h with h | ⟨j, hj, hj1, hj2⟩
            · cases h; omega
            · rcases List.mem_cons.mp hj with rfl | hj
              · left; rw [hj2]
              · exact Or.inr ⟨j, hj, hj1, hj2⟩
          · rw [if_neg hlt]
            refine ih _ hl' (fun y hy => by cases hy; exact hx) ?_
            rcases h with h | ⟨j, hj, hj1, hj2⟩
            · exact Or.inl h
            · rcases List.mem_cons.mp hj with rfl | hj
              · left; congr 1; omega
              · exact Or.inr ⟨j, hj, hj1, hj2⟩
      · rw [if_neg ha]
        refine ih _ hl' hm ?_
        rcases h with h | ⟨j, hj, hj1, hj2⟩
        · exact Or.inl h
        · rcases List.mem_cons.mp hj with rfl | hj
          · exact absurd ((ne_zero_iff hs _).mpr hj1) ha
          · exact Or.inr ⟨j, hj, hj1, hj2⟩
  exact key _ none h2 (fun x hx => by cases hx) (Or.inr h1)

theorem level_nat (hs : t.signed = false) {k : Nat} (hk : (k : Int) ≤ t.hi) :
    (t.wrap (k : Int)).val = k ∧ hqLevel (t.wrap (k : Int)) = k := by
  have h0 := lo_unsigned hs
  have h1 : (t.wrap (k : Int)).val = k := t.wrap_of_mem (by omega) hk
  refine ⟨h1, ?_⟩
  unfold hqLevel
  rw [h1, h0]
  omega

/-- One neighbour. -/
theorem gdVisit_inv (hs : t.signed = false) (hb : t.bits ≤ 16) (hC : C.Ok) (hmax : ∀ k i, GdLvl C k i → (k : Int) ≤ t.hi)
    {s : GdSt t} {l : List (Nat × Nat)} {m p0 : Nat} (hq : HQRel (hqParam t false) s.q l)
    (h : GdInv C s.out l m (· = p0)) (hp0 : p0 < C.n) (hv0 : s.out p0 ≠ t.wrap 0) (hm0 : (s.out p0).val.toNat = m)
    {p : Nat} (hp : p ∈ C.adj p0) :
    ∃ s' l', gdVisit C s p = some s' ∧ HQRel (hqParam t false) s'.q l' ∧ GdInv C s'.out l' m (· = p0) ∧
      (∀ j, s.out j ≠ t.wrap 0 → s'.out j = s.out j) ∧ (C.obj p = true → s'.out p ≠ t.wrap 0) ∧
      l'.length + gdZeros C s'.out = l.length + gdZeros C s.out ∧
      (∀ j, s'.out j ≠ s.out j → C.obj j = true) := by
  have hpn := hC.lt p0 hp0 p hp
  have h0 := lo_unsigned hs
  unfold gdVisit
  rw [hC.same]
  by_cases hc : C.obj p = true ∧ s.out p = t.wrap 0
  · obtain ⟨ho, hz⟩ := hc
    rw [if_pos ⟨ho, hz⟩]
    have hlen0 : GdLen C m p0 := by rw [← hm0]; exact (h.val p0 hp0 hv0).1
    have hlen : GdLen C (m + 1) p := .step hlen0 hpn ho hp
    have hlow : ∀ n, GdLen C n p → m + 1 ≤ n := by
      intro n hn
      obtain ⟨k, hk, hkl⟩ := hn.lvl
      by_contra hlt
      exact h.low k p (by omega) hkl hz
    have hlvl : GdLvl C (m + 1) p := ⟨hlen, fun n hn => hlow n hn⟩
    have hmx := hmax _ _ hlvl
    push_cast at hmx
    have hv0' := (s.out p0).lo_le
    have hmin : gdMin C s.out p = some ((m + 1 : Nat) : Int) := by
      apply gdMin_eq hs hb
      · exact ⟨p0, hC.sym p0 hp0 p hp, hv0, by push_cast; omega⟩
      · intro j hj hjz
        have hjn := hC.lt p hpn j hj
        have := hlow _ (.step (h.val j hjn hjz).1 hpn ho (hC.sym p hpn j hj))
        have := (s.out j).lo_le
        push_cast
        omega
    rw [hmin]
    simp only
    rw [if_neg (by push_cast; omega)]
    obtain ⟨hwv, hwl⟩ := level_nat (t := t) hs (k := m + 1) (by push_cast; omega)
    obtain ⟨q', hq1, hq2⟩ := hqRel_push (hqParam t false) s.q l hq (hqLevel (t.wrap ((m + 1 : Nat) : Int))) p (hqLevel_lt _ _)
    rw [hq1, Option.bind_some, if_pos (by push_cast; omega)]
    have hwne : t.wrap ((m + 1 : Nat) : Int) ≠ t.wrap 0 := by
      rw [ne_eq, Px.ext_iff', hwv, zero_val]
      push_cast
      omega
    refine ⟨_, _, rfl, hq2, ?_, ?_, ?_, ?_, ?_⟩
    · refine ⟨?_, ?_, ?_, ?_, ?_⟩
      · intro i hi hne
        simp only [Function.update_apply] at hne ⊢
        by_cases e : i = p
        · subst e
          rw [if_pos rfl, hwv]
          exact hlvl
        · rw [if_neg e] at hne ⊢
          exact h.val i hi hne
      · intro k i hk hki
        simp only [Function.update_apply]
        by_cases e : i = p
        · rw [if_pos e]; exact hwne
        · rw [if_neg e]; exact h.low k i hk hki
      · intro e he
        simp only [Function.update_apply]
        rcases List.mem_append.mp he with he | he
        · obtain ⟨e1, e2, e3⟩ := h.pend e he
          by_cases ep : e.2 = p
          · rw [ep] at e2; exact absurd hz e2
          · rw [if_neg ep]; exact ⟨e1, e2, e3⟩
        · rw [List.mem_singleton.mp he]
          refine ⟨hpn, ?_, ?_⟩
          · rw [if_pos rfl]; exact hwne
          · rw [if_pos rfl, hwl, hwv]; rfl
      · intro e he
        rcases List.mem_append.mp he with he | he
        · exact h.rng e he
        · rw [List.mem_singleton.mp he]
          simp only [hwl]
          omega
      · intro i hi hne
        simp only [Function.update_apply] at hne ⊢
        by_cases e : i = p
        · right; left
          exact ⟨_, List.mem_append_right _ (List.mem_singleton_self _), e.symm⟩
        · rw [if_neg e] at hne
          rcases h.done i hi hne with hw | ⟨f, hf, hfi⟩ | hd
          · exact Or.inl hw
          · exact Or.inr (Or.inl ⟨f, List.mem_append_left _ hf, hfi⟩)
          · refine Or.inr (Or.inr fun j hj hoj => ?_)
            by_cases ej : j = p
            · rw [if_pos ej]; exact hwne
            · rw [if_neg ej]; exact hd j hj hoj
    · intro j hj
      simp only [Function.update_apply]
      by_cases e : j = p
      · rw [e] at hj; exact absurd hz hj
      · rw [if_neg e]
    · intro _
      simp only [Function.update_self]
      exact hwne
    · rw [List.length_append, List.length_singleton]
      have : gdZeros C s.out = gdZeros C (Function.update s.out p (t.wrap ((m + 1 : Nat) : Int))) + 1 := by
        unfold gdZeros
        rw [show (Finset.range C.n).filter (fun i => Function.update s.out p (t.wrap ((m + 1 : Nat) : Int)) i = t.wrap 0) =
          ((Finset.range C.n).filter fun i => s.out i = t.wrap 0).erase p by
            ext i
            simp only [Finset.mem_filter, Finset.mem_erase, Finset.mem_range, Function.update_apply]
            by_cases e : i = p
            · rw [if_pos e]
              simp only [e, not_true_eq_false, ne_eq, false_and, iff_false, not_and]
              exact fun _ => hwne
            · rw [if_neg e]
              simp only [ne_eq, e, not_false_eq_true, true_and]]
        rw [Finset.card_erase_of_mem (Finset.mem_filter.mpr ⟨Finset.mem_range.mpr hpn, hz⟩)]
        have : 0 < ((Finset.range C.n).filter fun i => s.out i = t.wrap 0).card :=
          Finset.card_pos.mpr ⟨p, Finset.mem_filter.mpr ⟨Finset.mem_range.mpr hpn, hz⟩⟩
        omega
      simp only at this ⊢
      omega
    · intro j hj
      simp only [Function.update_apply] at hj
      by_cases e : j = p
      · rw [e]; exact ho
      · rw [if_neg e] at hj; exact absurd rfl hj
  · rw [if_neg hc]
    exact ⟨s, l, rfl, hq, h, fun _ _ => rfl, fun ho hz => hc ⟨ho, hz⟩, rfl, fun j hj => absurd rfl hj⟩

/-- All the neighbours. -/
theorem gdVisits_inv (hs : t.signed = false) (hb : t.bits ≤ 16) (hC : C.Ok) (hmax : ∀ k i, GdLvl C k i → (k : Int) ≤ t.hi)
    {m p0 : Nat} (hp0 : p0 < C.n) :
    ∀ (ps : List Nat) (s : GdSt t) (l : List (Nat × Nat)), HQRel (hqParam t false) s.q l → GdInv C s.out l m (· = p0) →
      s.out p0 ≠ t.wrap 0 → (s.out p0).val.toNat = m → (∀ p ∈ ps, p ∈ C.adj p0) →
    ∃ s' l', ps.foldlM (gdVisit C) s = some s' ∧ HQRel (hqParam t false) s'.q l' ∧ GdInv C s'.out l' m (· = p0) ∧
      (∀ j, s.out j ≠ t.wrap 0 → s'.out j = s.out j) ∧ (∀ p ∈ ps, C.obj p = true → s'.out p ≠ t.wrap 0) ∧
      l'.length + gdZeros C s'.out = l.length + gdZeros C s.out ∧ (∀ j, s'.out j ≠ s.out j → C.obj j = true) := by
  intro ps
  induction ps with
  | nil =>
    intro s l hq h _ _ _
    exact ⟨s, l, rfl, hq, h, fun _ _ => rfl, fun p hp => by simp at hp, rfl, fun j hj => absurd rfl hj⟩
  | cons p ps ih =>
    intro s l hq h hv0 hm0 hps
    obtain ⟨s1, l1, e1, q1, i1, m1, o1, z1, c1⟩ := gdVisit_inv hs hb hC hmax hq h hp0 hv0 hm0 (hps p List.mem_cons_self)
    obtain ⟨s2, l2, e2, q2, i2, m2, o2, z2, c2⟩ := ih s1 l1 q1 i1 (by rw [m1 _ hv0]; exact hv0) (by rw [m1 _ hv0]; exact hm0)
      fun p' hp' => hps p' (List.mem_cons_of_mem _ hp')
    refine ⟨s2, l2, ?_, q2, i2, ?_, ?_, by omega, ?_⟩
    · rw [List.foldlM_cons, e1]; exact e2
    · intro j hj
      rw [m2 j (by rw [m1 j hj]; exact hj), m1 j hj]
    · intro p' hp' ho
      rcases List.mem_cons.mp hp' with rfl | hp'
      · rw [m2 _ (o1 ho)]; exact o1 ho
      · exact o2 p' hp' ho
    · intro j hj
      by_cases e : s1.out j = s.out j
      · exact c2 j (by rw [e]; exact hj)
      · exact c1 j e

/-- The result: exactly the pixels that can be reached have a value, their distance. -/
theorem gdLoop_spec (hs : t.signed = false) (hb : t.bits ≤ 16) (hC : C.Ok) (hmax : ∀ k i, GdLvl C k i → (k : Int) ≤ t.hi) :
    ∀ (fuel : Nat) (s : GdSt t) (l : List (Nat × Nat)) (m : Nat), 1 ≤ m → HQRel (hqParam t false) s.q l →
      GdInv C s.out l m (fun _ => False) → l.length + gdZeros C s.out < fuel →
    ∃ o, gdLoop C fuel s = some o ∧ (∀ j, C.obj j = false → o j = s.out j) ∧ (∀ i, i < C.n → o i ≠ t.wrap 0 → GdLvl C (o i).val.toNat i) ∧
      ∀ k i, GdLvl C k i → o i ≠ t.wrap 0 := by
  intro fuel
  induction fuel with
  | zero => intro s l m _ _ _ hf; omega
  | succ fuel ih =>
    intro s l m hm hq h hf
    rw [gdLoop]
    by_cases hl : l = []
    · subst hl
      rw [if_pos ((hqRel_isEmpty _ _ _ hq).mpr rfl)]
      refine ⟨s.out, rfl, fun _ _ => rfl, h.val, ?_⟩
      intro k
      induction k with
      | zero => intro i hi; exact absurd hi.1.pos (by omega)
      | succ k ihk =>
        intro i hi
        by_cases hk : k + 1 ≤ m
        · exact h.low _ i hk hi
        · obtain ⟨j, hj, hadj⟩ := hi.pred (by omega)
          rcases h.done j hj.1.lt (ihk j hj) with hw | ⟨e, he, -⟩ | hd
          · exact hw.elim
          · simp at he
          · exact hd i hadj hi.1.obj
    · rw [if_neg (fun hh => hl ((hqRel_isEmpty _ _ _ hq).mp hh))]
      obtain ⟨e, l', q', hpop, hisp, -, hq'⟩ := hqRel_pop _ (hqParam_ok t false hs (by omega)) s.q l hq hl
      rw [hpop, Option.bind_some]
      obtain ⟨a, b, rfl, rfl, ha, hbb⟩ := hisp
      have hemem : e ∈ a ++ e :: b := List.mem_append_right _ List.mem_cons_self
      obtain ⟨hen, hez, hev⟩ := h.pend e hemem
      have hrng := h.rng e hemem
      have hsub : ∀ f ∈ a ++ b, f ∈ a ++ e :: b := fun f hf => by
        rcases List.mem_append.mp hf with hf | hf
        · exact List.mem_append_left _ hf
        · exact List.mem_append_right _ (List.mem_cons_of_mem _ hf)
      have hge : ∀ f ∈ a ++ e :: b, e.1 ≤ f.1 := by
        intro f hf
        have hP : (hqParam t false).rev = false := rfl
        rcases List.mem_append.mp hf with hf | hf
        · have := ha f hf
          rw [hP, better_false] at this
          omega
        · rcases List.mem_cons.mp hf with rfl | hf
          · exact le_rfl
          · have := hbb f hf
            rw [hP, better_false] at this
            omega
      have hinv : GdInv C s.out (a ++ b) e.1 (· = e.2) := by
        refine ⟨h.val, ?_, fun f hf => h.pend f (hsub f hf), ?_, ?_⟩
        · intro k i hk hi
          by_cases hkm : k ≤ m
          · exact h.low k i hkm hi
          · obtain ⟨k, rfl⟩ : ∃ k', k = k' + 1 := ⟨k - 1, by omega⟩
            obtain ⟨j, hj, hadj⟩ := hi.pred (by omega)
            have hjo := h.low k j (by omega) hj
            rcases h.done j hj.1.lt hjo with hw | ⟨f, hf, hfj⟩ | hd
            · exact hw.elim
            · exfalso
              have hfl := (h.pend f hf).2.2
              have hjl := h.val j hj.1.lt hjo
              rw [hfj] at hfl
              have : (s.out j).val.toNat = k := hjl.unique hj
              have := hge f hf
              omega
            · exact hd i hadj hi.1.obj
        · intro f hf
          have := hge f (hsub f hf)
          have := h.rng f (hsub f hf)
          omega
        · intro i hi hne
          by_cases ei : i = e.2
          · exact Or.inl ei
          · rcases h.done i hi hne with hw | ⟨f, hf, hfi⟩ | hd
            · exact hw.elim
            · refine Or.inr (Or.inl ⟨f, ?_, hfi⟩)
              rcases List.mem_append.mp hf with hf | hf
              · exact List.mem_append_left _ hf
              · rcases List.mem_cons.mp hf with rfl | hf
                · exact absurd hfi.symm ei
                · exact List.mem_append_right _ hf
            · exact Or.inr (Or.inr hd)
      obtain ⟨s', l', e1, q1, i1, m1, o1, z1, c1⟩ := gdVisits_inv hs hb hC hmax hen (C.adj e.2) ⟨s.out, q'⟩ (a ++ b) hq' hinv hez
        hev.symm fun p hp => hp
      rw [e1, Option.bind_some]
      have i2 : GdInv C s'.out l' e.1 (fun _ => False) := by
        refine ⟨i1.val, i1.low, i1.pend, i1.rng, fun i hi hne => ?_⟩
        rcases i1.done i hi hne with hw | hw
        · refine Or.inr (Or.inr fun j hj ho => ?_)
          rw [hw] at hj
          exact o1 j hj ho
        · exact Or.inr hw
      obtain ⟨o, r1, r2, r3, r4⟩ := ih s' l' e.1 (by omega) q1 i2 (by
        simp only [List.length_append, List.length_cons] at hf z1
        omega)
      refine ⟨o, r1, fun j hj => ?_, r3, r4⟩
      rw [r2 j hj]
      by_contra hne
      have := c1 j hne
      rw [hj] at this
      cases this

/-- The first loop. -/
theorem gdSeeds_spec (hs : t.signed = false) (hb : t.bits ≤ 16) (h1 : 1 ≤ t.hi) (out : Nat → Px t) :
    ∀ n, n ≤ C.n → ∃ (s : GdSt t) (l : List (Nat × Nat)), (List.range n).foldlM (gdSeed C) ⟨out, HQ.init (hqParam t false)⟩ = some s ∧
      HQRel (hqParam t false) s.q l ∧ l.length ≤ n ∧
      (∀ i, s.out i = if i < n then (if C.obj i then (if (C.adj i).any C.bg then t.wrap 1 else out i) else t.wrap 0) else out i) ∧
      (∀ e, e ∈ l ↔ e.1 = 1 ∧ e.2 < n ∧ C.obj e.2 = true ∧ (C.adj e.2).any C.bg = true) := by
  intro n
  induction n with
  | zero =>
    intro _
    refine ⟨_, [], rfl, hqRel_init _ (hqParam_ok t false hs (by omega)), le_rfl, fun i => ?_, fun e => ?_⟩
    · rw [if_neg (by omega)]
    · simp
  | succ n ih =>
    intro hn
    obtain ⟨s, l, e1, q1, l1, v1, m1⟩ := ih (by omega)
    obtain ⟨hwv, hwl⟩ := level_nat (t := t) hs (k := 1) (by omega)
    rw [List.range_succ, List.foldlM_append, e1]
    simp only [List.foldlM_cons, List.foldlM_nil, Option.bind_eq_bind, Option.bind_some]
    by_cases ho : C.obj n = true
    · by_cases ha : (C.adj n).any C.bg = true
      · obtain ⟨q', r1, r2⟩ := hqRel_push (hqParam t false) s.q l q1 (hqLevel (t.wrap 1)) n (hqLevel_lt _ _)
        refine ⟨⟨Function.update s.out n (t.wrap 1), q'⟩, l ++ [(hqLevel (t.wrap 1), n)], ?_, r2, ?_, ?_, ?_⟩
        · unfold gdSeed
          rw [if_pos ho, if_pos ha, r1]
          rfl
        · rw [List.length_append, List.length_singleton]; omega
        · intro i
          simp only [Function.update_apply]
          by_cases e : i = n
          · subst e
            rw [if_pos rfl, if_pos (by omega), if_pos ho, if_pos ha]
          · rw [if_neg e, v1]
            by_cases hi : i < n
            · rw [if_pos hi, if_pos (show i < n + 1 by omega)]
            · rw [if_neg hi, if_neg (show ¬ i < n + 1 by omega)]
        · intro e
          rw [List.mem_append, m1, List.mem_singleton]
          have hw1 : hqLevel (t.wrap 1) = 1 := hwl
          constructor
          · rintro (⟨a1, a2, a3⟩ | rfl)
            · exact ⟨a1, by omega, a3⟩
            · exact ⟨hw1, by simp only; omega, ho, ha⟩
          · rintro ⟨a1, a2, a3⟩
            by_cases e2 : e.2 = n
            · right
              exact Prod.ext (by rw [a1]; exact hw1.symm) e2
            · exact Or.inl ⟨a1, by omega, a3⟩
      · refine ⟨s, l, ?_, q1, by omega, ?_, ?_⟩
        · unfold gdSeed
          rw [if_pos ho, if_neg ha]
          rfl
        · intro i
          rw [v1]
          by_cases e : i = n
          · subst e
            rw [if_neg (lt_irrefl _), if_pos (by omega), if_pos ho, if_neg ha]
          · by_cases hi : i < n
            · rw [if_pos hi, if_pos (show i < n + 1 by omega)]
            · rw [if_neg hi, if_neg (show ¬ i < n + 1 by omega)]
        · intro e
          rw [m1]
          constructor
          · rintro ⟨a1, a2, a3⟩; exact ⟨a1, by omega, a3⟩
          · rintro ⟨a1, a2, a3, a4⟩
            refine ⟨a1, ?_, a3, a4⟩
            by_contra hlt
            obtain h' : e.2 = n := by omega
            rw [h'] at a4
            exact ha a4
    · refine ⟨⟨Function.update s.out n (t.wrap 0), s.q⟩, l, ?_, q1, by omega, ?_, ?_⟩
      · unfold gdSeed
        rw [if_neg ho]
        rfl
      · intro i
        simp only [Function.update_apply]
        by_cases e : i = n
        · subst e
          rw [if_pos rfl, if_pos (by omega), if_neg ho]
        · rw [if_neg e, v1]
          by_cases hi : i < n
          · rw [if_pos hi, if_pos (show i < n + 1 by omega)]
          · rw [if_neg hi, if_neg (show ¬ i < n + 1 by omega)]
      · intro e
        rw [m1]
        constructor
        · rintro ⟨a1, a2, a3⟩; exact ⟨a1, by omega, a3⟩
        · rintro ⟨a1, a2, a3, a4⟩
          refine ⟨a1, ?_, a3, a4⟩
          by_contra hlt
          obtain h' : e.2 = n := by omega
          rw [h'] at a3
          exact ho a3

/-- Both loops. -/
theorem gdRun_spec (hs : t.signed = false) (hb : t.bits ≤ 16) (h1 : 1 ≤ t.hi) (hC : C.Ok) (hmax : ∀ k i, GdLvl C k i → (k : Int) ≤ t.hi)
    (out : Nat → Px t) (hz : ∀ i, i < C.n → C.obj i = true → out i = t.wrap 0) :
    ∃ o, gdRun C out = some o ∧ ∀ i, i < C.n →
      (∀ k, GdLvl C k i → (o i).val = k) ∧ ((∀ k, ¬ GdLen C k i) → (o i).val = 0) := by
  obtain ⟨s, l, e1, q1, l1, v1, m1⟩ := gdSeeds_spec (C := C) hs hb h1 out C.n le_rfl
  obtain ⟨hwv, hwl⟩ := level_nat (t := t) hs (k := 1) (by omega)
  have hwv' : (t.wrap 1).val = 1 := hwv
  have hwne : t.wrap 1 ≠ t.wrap 0 := by
    rw [ne_eq, Px.ext_iff', hwv', zero_val]
    omega
  have hval : ∀ i, i < C.n → ((C.obj i = true ∧ (C.adj i).any C.bg = true) ∧ s.out i = t.wrap 1) ∨
      (¬ (C.obj i = true ∧ (C.adj i).any C.bg = true) ∧ s.out i = t.wrap 0) := by
    intro i hi
    rw [v1, if_pos hi]
    by_cases ho : C.obj i = true
    · by_cases ha : (C.adj i).any C.bg = true
      · rw [if_pos ho, if_pos ha]; exact Or.inl ⟨⟨ho, ha⟩, rfl⟩
      · rw [if_pos ho, if_neg ha]; exact Or.inr ⟨fun h => ha h.2, hz i hi ho⟩
    · rw [if_neg ho]; exact Or.inr ⟨fun h => ho h.1, rfl⟩
  have hone : ∀ i, i < C.n → (s.out i ≠ t.wrap 0 ↔ GdLvl C 1 i) := by
    intro i hi
    constructor
    · intro hne
      rcases hval i hi with ⟨⟨ho, ha⟩, -⟩ | ⟨-, h⟩
      · obtain ⟨z, hz, hbz⟩ := List.any_eq_true.mp ha
        exact ⟨.one hi ho hz hbz, fun n hn => GdLen.pos hn⟩
      · exact absurd h hne
    · intro hl
      have h' : GdLen C 1 i := hl.1
      generalize hk : 1 = k at h'
      cases h' with
      | one _ ho hz hbz =>
        rcases hval i hi with ⟨-, h⟩ | ⟨h, -⟩
        · rw [h]; exact hwne
        · exact absurd ⟨ho, List.any_eq_true.mpr ⟨_, hz, hbz⟩⟩ h
      | step hj => have := hj.pos; omega
  have hinv : GdInv C s.out l 1 (fun _ => False) := by
    refine ⟨?_, ?_, ?_, ?_, ?_⟩
    · intro i hi hne
      rcases hval i hi with ⟨-, h⟩ | ⟨-, h⟩
      · rw [h, hwv']; exact (hone i hi).mp hne
      · exact absurd h hne
    · intro k i hk hl
      have := hl.1.pos
      obtain rfl : k = 1 := by omega
      exact (hone i hl.1.lt).mpr hl
    · intro e he
      obtain ⟨a1, a2, a3, a4⟩ := (m1 e).mp he
      rcases hval e.2 a2 with ⟨-, h⟩ | ⟨h, -⟩
      · exact ⟨a2, by rw [h]; exact hwne, by rw [h, hwv', a1]; rfl⟩
      · exact absurd ⟨a3, a4⟩ h
    · intro e he
      have := ((m1 e).mp he).1
      omega
    · intro i hi hne
      right; left
      rcases hval i hi with ⟨⟨ho, ha⟩, -⟩ | ⟨-, h⟩
      · exact ⟨(1, i), (m1 _).mpr ⟨rfl, hi, ho, ha⟩, rfl⟩
      · exact absurd h hne
  have hzl : gdZeros C s.out ≤ C.n := by
    unfold gdZeros
    exact (Finset.card_filter_le _ _).trans (by simp)
  obtain ⟨o, r1, r2, r3, r4⟩ := gdLoop_spec hs hb hC hmax (2 * C.n + 1) s l 1 le_rfl q1 hinv (by omega)
  refine ⟨o, ?_, fun i hi => ⟨fun k hk => ?_, fun hno => ?_⟩⟩
  · unfold gdRun
    rw [e1]
    exact r1
  · have := (r3 i hi (r4 k i hk)).unique hk
    have := (o i).lo_le
    rw [lo_unsigned hs] at this
    omega
  · by_contra hne
    have hne' : o i ≠ t.wrap 0 := fun h => hne (by rw [h, zero_val])
    exact hno _ (r3 i hi hne').1

end
end Smil
