import Verif.Build
import Mathlib.Data.List.Count

/-!
# Correctness of the reconstruction queue
-/

namespace Smil
variable {α : Type} [LinearOrder α] [OrderBot α]

/-- Levels that can be carried to `i` along a path: the starting value at its beginning, the mask
everywhere. -/
inductive IReach (adj : Nat → List Nat) (n : Nat) (f0 mask : Nat → α) (v : α) : Nat → Prop
  | base {i} : i < n → v ≤ f0 i → IReach adj n f0 mask v i
  | step {i j} : IReach adj n f0 mask v i → j ∈ adj i → v ≤ mask j → IReach adj n f0 mask v j

theorem IReach.mono {adj : Nat → List Nat} {n : Nat} {f0 mask : Nat → α} {v w : α} {i : Nat}
    (hvw : v ≤ w) (h : IReach adj n f0 mask w i) : IReach adj n f0 mask v i := by
  induction h with
  | base hi hv => exact .base hi (hvw.trans hv)
  | step _ hj hv ih => exact .step ih hj (hvw.trans hv)

theorem IReach.lt {adj : Nat → List Nat} {n : Nat} {f0 mask : Nat → α} {v : α} {i : Nat}
    (hadj : ∀ i < n, ∀ j ∈ adj i, j < n) (h : IReach adj n f0 mask v i) : i < n := by
  induction h with
  | base hi _ => exact hi
  | step _ hj _ ih => exact hadj _ ih _ hj

/-- The queue serves the largest values first. -/
structure BuildCfg.Ok (C : BuildCfg α) (n : Nat) : Prop where
  P : C.P.Ok
  lev : ∀ a, C.lev a < C.P.nbr
  ord : ∀ a b, better C.P.rev (C.lev a) (C.lev b) ↔ b < a
  oper : C.oper = min
  nbs : ∀ i < n, ∀ j ∈ C.nbs i, j < n
  shared : C.shared = false

theorem BuildCfg.Ok.msk {C : BuildCfg α} {n : Nat} (h : C.Ok n) (s : BuildSt α) (i : Nat) :
    C.msk s i = C.mask i := by
  unfold BuildCfg.msk; rw [h.shared]; rfl

/-- Levels of the ghost entries. -/
def lvl (C : BuildCfg α) (e : α × Nat) : Nat × Nat := (C.lev e.1, e.2)

/-- Invariant of the main loop. `l`: the elements of the queue with their values. -/
structure BInv (C : BuildCfg α) (n : Nat) (f0 : Nat → α) (s : BuildSt α) (l : List (α × Nat)) :
    Prop where
  rel : HQRel C.P s.hq (l.map (lvl C))
  mem : ∀ e ∈ l, e.2 < n
  cand : ∀ p < n, s.stat p = .candidate → s.val p = f0 p ∧ (f0 p = ⊥ ∨ (f0 p, p) ∈ l)
  que : ∀ p < n, s.stat p = .queued → (s.val p, p) ∈ l
  st : ∀ p < n, s.stat p = .candidate ∨ s.stat p = .queued ∨ s.stat p = .final
  lo : ∀ p < n, f0 p ≤ s.val p
  hi : ∀ p < n, s.val p ≤ C.mask p
  ent : ∀ e ∈ l, e.1 ≤ s.val e.2
  cov : ∀ p < n, s.stat p ≠ .candidate → ∀ e ∈ l, min e.1 (C.mask p) ≤ s.val p
  candNo : ∀ e ∈ l, s.stat e.2 = .candidate → e.1 = f0 e.2
  fin : ∀ p < n, s.stat p = .final → ∀ j ∈ C.nbs p, min (s.val p) (C.mask j) ≤ s.val j
  finq : ∀ p < n, s.stat p = .final → (∃ e ∈ l, e.2 = p) → ∀ j ∈ C.nbs p, s.stat j ≠ .candidate
  sound : ∀ p < n, IReach C.nbs n f0 C.mask (s.val p) p

/-- Number of candidates. -/
def candCount (s : BuildSt α) (n : Nat) : Nat := (List.range n).countP fun i => s.stat i = .candidate

/-- Invariant while the neighbours of `cur` are visited (first visit). -/
structure BMid (C : BuildCfg α) (n : Nat) (f0 : Nat → α) (cur : Nat) (s : BuildSt α)
    (l : List (α × Nat)) : Prop where
  rel : HQRel C.P s.hq (l.map (lvl C))
  curlt : cur < n
  mem : ∀ e ∈ l, e.2 < n
  cand : ∀ p < n, s.stat p = .candidate → s.val p = f0 p ∧ (f0 p = ⊥ ∨ (f0 p, p) ∈ l)
  que : ∀ p < n, s.stat p = .queued → (s.val p, p) ∈ l
  st : ∀ p < n, s.stat p = .candidate ∨ s.stat p = .queued ∨ s.stat p = .final
  lo : ∀ p < n, f0 p ≤ s.val p
  hi : ∀ p < n, s.val p ≤ C.mask p
  ent : ∀ e ∈ l, e.1 ≤ s.val e.2
  candNo : ∀ e ∈ l, s.stat e.2 = .candidate → e.1 = f0 e.2
  fin : ∀ p < n, p ≠ cur → s.stat p = .final → ∀ j ∈ C.nbs p, min (s.val p) (C.mask j) ≤ s.val j
  finq : ∀ p < n, p ≠ cur → s.stat p = .final → (∃ e ∈ l, e.2 = p) →
    ∀ j ∈ C.nbs p, s.stat j ≠ .candidate
  sound : ∀ p < n, IReach C.nbs n f0 C.mask (s.val p) p
  curfin : s.stat cur = .final
  le : ∀ e ∈ l, e.1 ≤ s.val cur
  m1 : ∀ p < n, s.stat p ≠ .candidate → min (s.val cur) (C.mask p) ≤ s.val p

theorem BMid.candLe {C : BuildCfg α} {n : Nat} {f0 : Nat → α} {cur : Nat} {s : BuildSt α}
    {l : List (α × Nat)} (h : BMid C n f0 cur s l) (p : Nat) (hp : p < n)
    (hc : s.stat p = .candidate) : s.val p ≤ s.val cur := by
  obtain ⟨h1, h2 | h2⟩ := h.cand p hp hc
  · rw [h1, h2]; exact bot_le
  · rw [h1]; exact h.le _ h2

theorem visit_inv {C : BuildCfg α} {n : Nat} (hC : C.Ok n) {f0 : Nat → α} {cur : Nat}
    {s : BuildSt α} {l : List (α × Nat)} (h : BMid C n f0 cur s l) (nb : Nat) (hnb : nb ∈ C.nbs cur) :
    ∃ s' l', buildVisit C cur s nb = some s' ∧ BMid C n f0 cur s' l' ∧ s'.stat nb ≠ .candidate ∧
      (∀ j, s.stat j ≠ .candidate → s'.stat j ≠ .candidate) ∧
      l'.length + candCount s' n = l.length + candCount s n := by
  have hlt : nb < n := hC.nbs cur h.curlt nb hnb
  unfold buildVisit
  by_cases hc : s.stat nb = .candidate
  · rw [if_pos hc]
    simp only [hC.oper, hC.msk]
    obtain ⟨q, hq, hr⟩ := hqRel_push C.P s.hq _ h.rel (C.lev (min (s.val cur) (C.mask nb))) nb
      (hC.lev _)
    have hne : cur ≠ nb := by
      rintro rfl; rw [h.curfin] at hc; cases hc
    have hge : s.val nb ≤ min (s.val cur) (C.mask nb) := le_min (h.candLe nb hlt hc) (h.hi nb hlt)
    have hvcur : Function.update s.val nb (min (s.val cur) (C.mask nb)) cur = s.val cur := by
      rw [Function.update_apply, if_neg hne]
    have hmono : ∀ p, s.val p ≤ Function.update s.val nb (min (s.val cur) (C.mask nb)) p := by
      intro p
      rw [Function.update_apply]
      split
      · rename_i e; subst e; exact hge
      · exact le_refl _
    have hstat : ∀ p, Function.update s.stat nb HQStat.queued p = .candidate →
        p ≠ nb ∧ s.stat p = .candidate := by
      intro p hp
      rw [Function.update_apply] at hp
      split at hp
      · cases hp
      · exact ⟨by assumption, hp⟩
    have hstatf : ∀ p, Function.update s.stat nb HQStat.queued p = .final → p ≠ nb ∧ s.stat p = .final := by
      intro p hp
      rw [Function.update_apply] at hp
      split at hp
      · cases hp
      · exact ⟨by assumption, hp⟩
    refine ⟨⟨Function.update s.val nb (min (s.val cur) (C.mask nb)),
      Function.update s.stat nb .queued, q⟩, l ++ [(min (s.val cur) (C.mask nb), nb)], by rw [hq]; rfl,
      ⟨?_, h.curlt, ?_, ?_, ?_, ?_, ?_, ?_, ?_, ?_, ?_, ?_, ?_, ?_, ?_, ?_⟩, ?_, ?_, ?_⟩
    · simpa [lvl] using hr
    · intro e he
      rcases List.mem_append.mp he with he | he
      · exact h.mem e he
      · rw [List.mem_singleton] at he; subst he; exact hlt
    · intro p hp hs
      obtain ⟨hpn, hs⟩ := hstat p hs
      obtain ⟨h1, h2⟩ := h.cand p hp hs
      refine ⟨by simp only [Function.update_apply, if_neg hpn]; exact h1, ?_⟩
      rcases h2 with h2 | h2
      · exact Or.inl h2
      · exact Or.inr (List.mem_append_left _ h2)
    · intro p hp hs
      simp only [Function.update_apply] at hs ⊢
      by_cases e : p = nb
      · subst e; simp
      · rw [if_neg e] at hs ⊢
        exact List.mem_append_left _ (h.que p hp hs)
    · intro p hp
      simp only [Function.update_apply]
      split
      · simp
      · exact h.st p hp
    · intro p hp; exact (h.lo p hp).trans (hmono p)
    · intro p hp
      simp only [Function.update_apply]
      split
      · rename_i e; subst e; exact min_le_right _ _
      · exact h.hi p hp
    · intro e he
      rcases List.mem_append.mp he with he | he
      · exact (h.ent e he).trans (hmono _)
      · rw [List.mem_singleton] at he; subst he; simp
    · intro e he hs
      obtain ⟨hpn, hs⟩ := hstat _ hs
      rcases List.mem_append.mp he with he | he
      · exact h.candNo e he hs
      · rw [List.mem_singleton] at he; subst he; exact absurd rfl hpn
    · intro p hp hpc hs j hj
      obtain ⟨hpn, hs⟩ := hstatf p hs
      have := h.fin p hp hpc hs j hj
      have e1 : Function.update s.val nb (min (s.val cur) (C.mask nb)) p = s.val p := by
        rw [Function.update_apply, if_neg hpn]
      simp only [e1]
      exact this.trans (hmono j)
    · intro p hp hpc hs hex j hj hs'
      obtain ⟨hpn, hs⟩ := hstatf p hs
      obtain ⟨e, he, rfl⟩ := hex
      rcases List.mem_append.mp he with he | he
      · exact h.finq _ hp hpc hs ⟨e, he, rfl⟩ j hj (hstat j hs').2
      · rw [List.mem_singleton] at he; subst he; exact hpn rfl
    · intro p hp
      simp only [Function.update_apply]
      split
      · rename_i e; subst e
        exact .step (IReach.mono (min_le_left _ _) (h.sound cur h.curlt)) hnb (min_le_right _ _)
      · exact h.sound p hp
    · simp only [Function.update_apply, if_neg hne]; exact h.curfin
    · intro e he
      simp only [hvcur]
      rcases List.mem_append.mp he with he | he
      · exact h.le e he
      · rw [List.mem_singleton] at he; subst he; exact min_le_left _ _
    · intro p hp hs
      simp only [hvcur]
      by_cases e : p = nb
      · subst e; simp
      · simp only [Function.update_apply, if_neg e] at hs ⊢
        exact h.m1 p hp hs
    · simp
    · intro j hj hs
      exact hj (hstat j hs).2
    · have : candCount s n = candCount (⟨Function.update s.val nb (min (s.val cur) (C.mask nb)),
          Function.update s.stat nb .queued, q⟩ : BuildSt α) n + 1 := by
        unfold candCount
        have hmem : nb ∈ List.range n := List.mem_range.mpr hlt
        obtain ⟨a, b, hab⟩ := List.append_of_mem hmem
        have hnd : (List.range n).Nodup := List.nodup_range
        rw [hab] at hnd
        rw [hab]
        simp only [List.countP_append, List.countP_cons]
        have e1 : ∀ c : List Nat, nb ∉ c →
            c.countP (fun i => decide (Function.update s.stat nb HQStat.queued i = .candidate)) =
            c.countP (fun i => decide (s.stat i = .candidate)) := by
          intro c hcn
          apply List.countP_congr
          intro x hx
          have : x ≠ nb := fun e => hcn (e ▸ hx)
          simp [this]
        have hn1 : nb ∉ a := by
          rw [List.nodup_append] at hnd
          intro hh; exact hnd.2.2 nb hh nb (by simp) rfl
        have hn2 : nb ∉ b := by
          rw [List.nodup_append] at hnd
          exact (List.nodup_cons.mp hnd.2.1).1
        rw [e1 a hn1, e1 b hn2]
        simp [hc]
        omega
      simp only [List.length_append, List.length_singleton]
      omega
  · rw [if_neg hc]
    exact ⟨s, l, rfl, h, hc, fun _ h => h, rfl⟩

theorem visits_inv {C : BuildCfg α} {n : Nat} (hC : C.Ok n) {f0 : Nat → α} {cur : Nat}
    (js : List Nat) : ∀ {s : BuildSt α} {l : List (α × Nat)}, BMid C n f0 cur s l →
    (∀ j ∈ js, j ∈ C.nbs cur) →
    ∃ s' l', js.foldlM (buildVisit C cur) s = some s' ∧ BMid C n f0 cur s' l' ∧
      (∀ j ∈ js, s'.stat j ≠ .candidate) ∧ (∀ j, s.stat j ≠ .candidate → s'.stat j ≠ .candidate) ∧
      l'.length + candCount s' n = l.length + candCount s n := by
  induction js with
  | nil => intro s l h _; exact ⟨s, l, rfl, h, by simp, fun _ h => h, rfl⟩
  | cons j js ih =>
    intro s l h hj
    obtain ⟨s1, l1, h1, h2, h3, h4, h5⟩ := visit_inv hC h j (hj j (by simp))
    obtain ⟨s2, l2, g1, g2, g3, g4, g5⟩ := ih h2 (fun k hk => hj k (by simp [hk]))
    refine ⟨s2, l2, by simp only [List.foldlM_cons, h1]; exact g1, g2, ?_, fun k hk => g4 k (h4 k hk),
      g5.trans h5⟩
    intro k hk
    rcases List.mem_cons.mp hk with rfl | hk
    · exact g4 _ h3
    · exact g3 k hk

omit [LinearOrder α] [OrderBot α] in
theorem foldlM_id {C : BuildCfg α} {cur : Nat} (s : BuildSt α) (js : List Nat)
    (h : ∀ j ∈ js, s.stat j ≠ .candidate) : js.foldlM (buildVisit C cur) s = some s := by
  induction js with
  | nil => rfl
  | cons j js ih =>
    have : buildVisit C cur s j = some s := by
      unfold buildVisit; rw [if_neg (h j (by simp))]
    simp only [List.foldlM_cons, this]
    exact ih (fun k hk => h k (by simp [hk]))

theorem step_inv {C : BuildCfg α} {n : Nat} (hC : C.Ok n) {f0 : Nat → α} {s : BuildSt α}
    {l : List (α × Nat)} (h : BInv C n f0 s l) (hl : l ≠ []) :
    ∃ s' l', buildStep C s = some s' ∧ BInv C n f0 s' l' ∧
      l'.length + candCount s' n < l.length + candCount s n := by
  obtain ⟨e', l', q', hp, ⟨a', b', hab, rfl, ha, hb⟩, _, hrel⟩ :=
    hqRel_pop C.P hC.P s.hq _ h.rel (by simpa using hl)
  rw [List.map_eq_append_iff] at hab
  obtain ⟨a, c, rfl, rfl, hc⟩ := hab
  rw [List.map_eq_cons_iff] at hc
  obtain ⟨e, b, rfl, rfl, rfl⟩ := hc
  obtain ⟨v, cur⟩ := e
  simp only [lvl] at hp ha hb
  have hcur : cur < n := h.mem (v, cur) (by simp)
  -- the popped value is the best
  have hbest : ∀ f ∈ a ++ (v, cur) :: b, f.1 ≤ v := by
    intro f hf
    rcases List.mem_append.mp hf with hf | hf
    · have := ha (lvl C f) (List.mem_map_of_mem hf)
      simp only [lvl] at this
      rw [hC.ord] at this; exact le_of_lt this
    · rcases List.mem_cons.mp hf with rfl | hf
      · exact le_refl _
      · have := hb (lvl C f) (List.mem_map_of_mem hf)
        simp only [lvl] at this
        rw [hC.ord] at this; exact not_lt.mp this
  have hsub : ∀ f, f ∈ a ++ b → f ∈ a ++ (v, cur) :: b := by
    intro f hf
    rcases List.mem_append.mp hf with h | h <;> simp [h]
  have hsub' : ∀ f, f ∈ a ++ (v, cur) :: b → f = (v, cur) ∨ f ∈ a ++ b := by
    intro f hf
    rcases List.mem_append.mp hf with h | h
    · right; simp [h]
    · rcases List.mem_cons.mp h with h | h
      · exact Or.inl h
      · right; simp [h]
  unfold buildStep
  rw [hp]
  simp only [Option.bind_some]
  rw [← List.map_append] at hrel
  have hcount : ∀ st' : Nat → HQStat, st' = Function.update s.stat cur .final →
      candCount ⟨s.val, st', q'⟩ n ≤ candCount s n := by
    rintro _ rfl
    unfold candCount
    apply List.countP_mono_left
    intro i _ hi
    simp only [Function.update_apply, decide_eq_true_eq] at hi ⊢
    split at hi
    · cases hi
    · exact hi
  by_cases hs : s.stat cur = .final
  · -- a stale element
    have hst : Function.update s.stat cur .final = s.stat := by
      rw [← hs, Function.update_eq_self]
    have hnc := h.finq cur hcur hs ⟨(v, cur), by simp, rfl⟩
    refine ⟨⟨s.val, Function.update s.stat cur .final, q'⟩, a ++ b, ?_, ?_, ?_⟩
    · apply foldlM_id
      rw [hst]; exact hnc
    · rw [hst]
      refine ⟨hrel, fun e he => h.mem e (hsub e he), fun p hp hs' => ?_, fun p hp hs' => ?_, h.st, h.lo,
        h.hi, fun e he => h.ent e (hsub e he), fun p hp hs' e he => h.cov p hp hs' e (hsub e he),
        fun e he => h.candNo e (hsub e he), h.fin, ?_, h.sound⟩
      · obtain ⟨h1, h2⟩ := h.cand p hp hs'
        refine ⟨h1, h2.imp id fun h2 => ?_⟩
        rcases hsub' _ h2 with h3 | h3
        · simp only [Prod.mk.injEq] at h3
          rw [h3.2, hs] at hs'; cases hs'
        · exact h3
      · have h2 := h.que p hp hs'
        rcases hsub' _ h2 with h3 | h3
        · simp only [Prod.mk.injEq] at h3
          rw [h3.2, hs] at hs'; cases hs'
        · exact h3
      · rintro p hp hs' ⟨e, he, rfl⟩
        exact h.finq _ hp hs' ⟨e, hsub e he, rfl⟩
    · have := hcount _ rfl
      simp only [List.length_append, List.length_cons]
      omega
  · -- first visit
    have hval : v = s.val cur := by
      apply le_antisymm
      · exact h.ent (v, cur) (by simp)
      · rcases h.st cur hcur with h1 | h1 | h1
        · have := h.candNo (v, cur) (by simp) h1
          rw [(h.cand cur hcur h1).1]; exact le_of_eq this.symm
        · exact hbest _ (h.que cur hcur h1)
        · exact absurd h1 hs
    have hmid : BMid C n f0 cur ⟨s.val, Function.update s.stat cur .final, q'⟩ (a ++ b) := by
      have hcand : ∀ p, Function.update s.stat cur HQStat.final p = .candidate →
          p ≠ cur ∧ s.stat p = .candidate := by
        intro p hp
        rw [Function.update_apply] at hp
        split at hp
        · cases hp
        · exact ⟨by assumption, hp⟩
      have hfin : ∀ p, p ≠ cur → Function.update s.stat cur HQStat.final p = .final →
          s.stat p = .final := by
        intro p hpc hp
        rw [Function.update_apply, if_neg hpc] at hp
        exact hp
      refine ⟨hrel, hcur, fun e he => h.mem e (hsub e he), ?_, ?_, ?_, h.lo, h.hi,
        fun e he => h.ent e (hsub e he), ?_, ?_, ?_, h.sound, by simp, ?_, ?_⟩
      · intro p hp hs'
        obtain ⟨hpn, hs'⟩ := hcand p hs'
        obtain ⟨h1, h2⟩ := h.cand p hp hs'
        refine ⟨h1, h2.imp id fun h2 => ?_⟩
        rcases hsub' _ h2 with h3 | h3
        · simp only [Prod.mk.injEq] at h3; exact absurd h3.2 hpn
        · exact h3
      · intro p hp hs'
        simp only [Function.update_apply] at hs'
        split at hs'
        · cases hs'
        · rename_i hpn
          rcases hsub' _ (h.que p hp hs') with h3 | h3
          · simp only [Prod.mk.injEq] at h3; exact absurd h3.2 hpn
          · exact h3
      · intro p hp
        simp only [Function.update_apply]
        split
        · simp
        · exact h.st p hp
      · intro e he hs'
        exact h.candNo e (hsub e he) (hcand _ hs').2
      · intro p hp hpc hs' j hj
        exact h.fin p hp (hfin p hpc hs') j hj
      · rintro p hp hpc hs' ⟨e, he, rfl⟩ j hj hs2
        exact h.finq _ hp (hfin _ hpc hs') ⟨e, hsub e he, rfl⟩ j hj (hcand j hs2).2
      · intro e he
        show e.1 ≤ s.val cur
        rw [← hval]; exact hbest e (hsub e he)
      · intro p hp hs'
        show min (s.val cur) (C.mask p) ≤ s.val p
        by_cases e : p = cur
        · subst e; exact min_le_left _ _
        · simp only [Function.update_apply, if_neg e] at hs'
          have := h.cov p hp hs' (v, cur) (by simp)
          rw [hval] at this; exact this
    obtain ⟨s2, l2, g1, g2, g3, _, g5⟩ := visits_inv hC (C.nbs cur) hmid (fun _ h => h)
    refine ⟨s2, l2, g1, ?_, ?_⟩
    · refine ⟨g2.rel, g2.mem, g2.cand, g2.que, g2.st, g2.lo, g2.hi, g2.ent, ?_, g2.candNo, ?_, ?_, g2.sound⟩
      · intro p hp hs' e he
        exact (min_le_min_right _ (g2.le e he)).trans (g2.m1 p hp hs')
      · intro p hp hs' j hj
        by_cases e : p = cur
        · rw [e] at hj ⊢
          exact g2.m1 j (hC.nbs cur hcur j hj) (g3 j hj)
        · exact g2.fin p hp e hs' j hj
      · intro p hp hs' hex j hj
        by_cases e : p = cur
        · rw [e] at hj; exact g3 j hj
        · exact g2.finq p hp e hs' hex j hj
    · have := hcount _ rfl
      simp only [List.length_append, List.length_cons] at *
      omega

theorem loop_inv {C : BuildCfg α} {n : Nat} (hC : C.Ok n) {f0 : Nat → α} (fuel : Nat) :
    ∀ {s : BuildSt α} {l : List (α × Nat)}, BInv C n f0 s l →
    l.length + candCount s n < fuel → ∃ s', buildLoop C fuel s = some s' ∧ BInv C n f0 s' [] := by
  induction fuel with
  | zero => intro s l _ h; omega
  | succ fuel ih =>
    intro s l h hf
    unfold buildLoop
    by_cases hl : l = []
    · subst hl
      rw [if_pos ((hqRel_isEmpty C.P s.hq _ h.rel).mpr rfl)]
      exact ⟨s, rfl, h⟩
    · rw [if_neg (by rw [hqRel_isEmpty C.P s.hq _ h.rel]; simpa using hl)]
      obtain ⟨s1, l1, h1, h2, h3⟩ := step_inv hC h hl
      obtain ⟨s2, h4, h5⟩ := ih h2 (by omega)
      exact ⟨s2, by rw [h1]; exact h4, h5⟩

/-- At the end, the value is the largest level that can be carried. -/
theorem final_spec {C : BuildCfg α} {n : Nat} (hC : C.Ok n) {f0 : Nat → α} {s : BuildSt α}
    (h : BInv C n f0 s []) (p : Nat) (hp : p < n) :
    IsGreatest {v | IReach C.nbs n f0 C.mask v p} (s.val p) := by
  refine ⟨h.sound p hp, fun v hv => ?_⟩
  have hv' : IReach C.nbs n f0 C.mask v p := hv
  clear hp hv
  induction hv' with
  | base hi hb => exact hb.trans (h.lo _ hi)
  | @step i j hr hj hv ih =>
    have hi : i < n := hr.lt hC.nbs
    rcases h.st i hi with h1 | h1 | h1
    · obtain ⟨h2, h3 | h3⟩ := h.cand i hi h1
      · rw [h2, h3] at ih
        exact ih.trans bot_le
      · simp at h3
    · exact absurd (h.que i hi h1) (by simp)
    · exact (le_min ih hv).trans (h.fin i hi h1 j hj)

omit [LinearOrder α] [OrderBot α] in
theorem init_inv (P : HQParam) (hP : P.Ok) (lev : α → Nat) (hlev : ∀ a, lev a < P.nbr)
    (keep : α → Bool) (val : Nat → α) (n : Nat) :
    ∃ q, buildInit P lev keep val n = some q ∧
      HQRel P q ((((List.range n).filter fun i => keep (val i)).map fun i => (val i, i)).map
        fun e => (lev e.1, e.2)) := by
  unfold buildInit
  induction n with
  | zero => exact ⟨_, rfl, by simpa using hqRel_init P hP⟩
  | succ n ih =>
    obtain ⟨q, h1, h2⟩ := ih
    rw [List.range_succ, List.foldlM_append, h1]
    by_cases hk : keep (val n) = true
    · obtain ⟨q', h3, h4⟩ := hqRel_push P q _ h2 (lev (val n)) n (hlev _)
      refine ⟨q', by simp [hk, h3], ?_⟩
      rw [List.filter_append]
      simpa [hk] using h4
    · refine ⟨q, by simp [hk], ?_⟩
      rw [List.filter_append]
      simpa [hk] using h2

/-- The queue part computes, at every pixel, the largest level that can be carried there. -/
theorem buildRun_spec {C : BuildCfg α} {n : Nat} (hC : C.Ok n) (keep : α → Bool) (val : Nat → α)
    (stat : Nat → HQStat) (hval : ∀ p < n, val p ≤ C.mask p)
    (hkeep : ∀ v, v ≠ ⊥ → keep v = true)
    (hstat : ∀ p < n, stat p = .candidate ∨
      (stat p = .final ∧ C.mask p = ⊥ ∧ keep ⊥ = false)) :
    ∃ s, buildRun C keep val stat n = some s ∧
      ∀ p < n, IsGreatest {v | IReach C.nbs n val C.mask v p} (s.val p) := by
  unfold buildRun
  obtain ⟨q, h1, h2⟩ := init_inv C.P hC.P C.lev hC.lev keep val n
  rw [h1]
  simp only [Option.bind_some]
  set l : List (α × Nat) := ((List.range n).filter fun i => keep (val i)).map fun i => (val i, i) with hl
  have hmem : ∀ e, e ∈ l ↔ e.2 < n ∧ keep (val e.2) = true ∧ e.1 = val e.2 := by
    intro e
    rw [hl, List.mem_map]
    constructor
    · rintro ⟨i, hi, rfl⟩
      rw [List.mem_filter, List.mem_range] at hi
      exact ⟨hi.1, hi.2, rfl⟩
    · rintro ⟨h1, h2, h3⟩
      exact ⟨e.2, by rw [List.mem_filter, List.mem_range]; exact ⟨h1, h2⟩, by rw [← h3]⟩
  have hinv : BInv C n val ⟨val, stat, q⟩ l := by
    refine ⟨h2, fun e he => ((hmem e).mp he).1, fun p hp _ => ⟨rfl, ?_⟩, fun p hp hs => ?_, fun p hp => ?_,
      fun _ _ => le_refl _, hval, fun e he => le_of_eq ((hmem e).mp he).2.2, fun p hp hs e _ => ?_,
      fun e he _ => ((hmem e).mp he).2.2, fun p hp hs j _ => ?_, ?_, fun p hp => .base hp (le_refl _)⟩
    · by_cases hb : val p = ⊥
      · exact Or.inl hb
      · exact Or.inr ((hmem _).mpr ⟨hp, hkeep _ hb, rfl⟩)
    · rcases hstat p hp with h | h
      · rw [show stat p = .queued from hs] at h; cases h
      · rw [show stat p = .queued from hs] at h; cases h.1
    · rcases hstat p hp with h | h
      · exact Or.inl h
      · exact Or.inr (Or.inr h.1)
    · rcases hstat p hp with h | h
      · exact absurd h hs
      · exact (min_le_right _ _).trans (h.2.1 ▸ bot_le)
    · rcases hstat p hp with h | h
      · rw [show stat p = .final from hs] at h; cases h
      · have hb : val p = ⊥ := le_bot_iff.mp (h.2.1 ▸ hval p hp)
        show min (val p) _ ≤ _
        rw [hb]; exact (min_le_left _ _).trans bot_le
    · rintro p hp hs ⟨e, he, rfl⟩ j hj
      rcases hstat _ hp with h | h
      · rw [show stat e.2 = .final from hs] at h; cases h
      · have hb : val e.2 = ⊥ := le_bot_iff.mp (h.2.1 ▸ hval _ hp)
        have := ((hmem e).mp he).2.1
        rw [hb, h.2.2] at this
        cases this
  obtain ⟨s, h3, h4⟩ := loop_inv hC (2 * n + 1) hinv (by
    have e1 : l.length ≤ n := by
      rw [hl, List.length_map]
      exact (List.length_filter_le _ _).trans (by simp)
    have e2 : candCount (⟨val, stat, q⟩ : BuildSt α) n ≤ n := by
      unfold candCount
      exact List.countP_le_length.trans (by simp)
    omega)
  exact ⟨s, h3, fun p hp => final_spec hC h4 p hp⟩

end Smil
