import Verif.WatershedLemmas

/-!
# Correctness of the watershed queue
-/

namespace Smil
variable {t : PT}

/-- A path of pixels that all carry the label `v`. -/
inductive LPath (C : FloodCfg) (lbl : Nat → Nat) (v : Nat) (m : Nat) : Nat → Prop
  | base : m < C.n → lbl m = v → LPath C lbl v m m
  | step {i j} : LPath C lbl v m i → j ∈ C.nbs i → lbl j = v → LPath C lbl v m j

theorem LPath.mono {C : FloodCfg} {lbl lbl' : Nat → Nat} {v m i : Nat}
    (hh : ∀ j, lbl j = v → lbl' j = v) (hp : LPath C lbl v m i) : LPath C lbl' v m i := by
  induction hp with
  | base h1 h2 => exact .base h1 (hh _ h2)
  | step _ hj hl ih => exact .step ih hj (hh _ hl)

/-- The four status values are different. -/
structure StatOk (t : PT) : Prop where
  lk : stLabeled t ≠ stCandidate t
  lq : stLabeled t ≠ stQueued t
  lw : stLabeled t ≠ stLine t
  qk : stQueued t ≠ stCandidate t
  qw : stQueued t ≠ stLine t
  kw : stCandidate t ≠ stLine t

/-- Conditions on the neighbourhood: symmetric, no repetition, not reflexive. -/
structure FloodCfg.Nice (C : FloodCfg) : Prop where
  sym : ∀ i < C.n, ∀ j ∈ C.nbs i, i ∈ C.nbs j
  nd : ∀ i < C.n, (C.nbs i).Nodup
  irr : ∀ i < C.n, i ∉ C.nbs i

/-- A path of pixels with status "labelled" and label `v`. -/
inductive WPath (C : FloodCfg) (lbl : Nat → Nat) (ws : Nat → Px t) (v : Nat) (m : Nat) : Nat → Prop
  | base : m < C.n → lbl m = v → ws m = stLabeled t → WPath C lbl ws v m m
  | step {i j} : WPath C lbl ws v m i → j ∈ C.nbs i → lbl j = v → ws j = stLabeled t →
      WPath C lbl ws v m j

theorem WPath.mono {C : FloodCfg} {lbl lbl' : Nat → Nat} {ws ws' : Nat → Px t} {v m i : Nat}
    (hh : ∀ j, j < C.n → lbl j = v → ws j = stLabeled t → lbl' j = v ∧ ws' j = stLabeled t)
    (hC : ∀ i < C.n, ∀ j ∈ C.nbs i, j < C.n)
    (hp : WPath C lbl ws v m i) : i < C.n ∧ WPath C lbl' ws' v m i := by
  induction hp with
  | base h1 h2 h3 => exact ⟨h1, .base h1 (hh _ h1 h2 h3).1 (hh _ h1 h2 h3).2⟩
  | step _ hj hl hw ih =>
    have hlt := hC _ ih.1 _ hj
    exact ⟨hlt, .step ih.2 hj (hh _ hlt hl hw).1 (hh _ hlt hl hw).2⟩

/-- The marker `i` has no neighbour with another marker. -/
def IsoAt (C : FloodCfg) (mk : Nat → Nat) (i : Nat) : Prop :=
  ∀ j ∈ C.nbs i, mk j ≠ 0 → mk j = mk i

/-- No marker touches another one. -/
def Iso (C : FloodCfg) (mk : Nat → Nat) : Prop := ∀ i < C.n, mk i ≠ 0 → IsoAt C mk i

structure WInv (C : FloodCfg) (mk : Nat → Nat) (s : WsSt t) (l : List Nat) : Prop where
  rel : HQRel C.P s.hq (C.ent l)
  nd : l.Nodup
  mem : ∀ i ∈ l, i < C.n
  stat : ∀ i < C.n, (s.ws i = stCandidate t ∧ s.lbl i = 0 ∧ i ∉ l) ∨
    (s.ws i = stQueued t ∧ s.lbl i = 0 ∧ i ∈ l) ∨ (s.ws i = stLabeled t ∧ s.lbl i ≠ 0) ∨
    (s.ws i = stLine t ∧ s.lbl i ≠ 0 ∧ i ∉ l)
  keep : ∀ i < C.n, mk i ≠ 0 → s.lbl i = mk i
  src : ∀ i < C.n, s.ws i = stQueued t → ∃ j ∈ C.nbs i, s.ws j = stLabeled t ∧ j ∉ l
  done : ∀ i < C.n, s.ws i = stLabeled t → i ∉ l → ∀ j ∈ C.nbs i, s.ws j ≠ stCandidate t
  sep : ∀ i < C.n, i ∉ l → s.ws i = stLabeled t → ∀ j ∈ C.nbs i, s.ws j = stLabeled t →
    s.lbl i = s.lbl j
  why : ∀ i < C.n, s.ws i = stLine t → ∃ j ∈ C.nbs i, s.lbl j ≠ 0 ∧ s.lbl j ≠ s.lbl i
  conn : ∀ i < C.n, s.lbl i ≠ 0 → ∃ m, mk m = s.lbl i ∧ LPath C s.lbl (s.lbl i) m i
  nodup : s.pushed.Nodup
  push : ∀ i ∈ s.pushed, i < C.n ∧ s.ws i ≠ stCandidate t
  qm : ∀ i ∈ l, mk i = 0 → s.ws i = stQueued t
  mark : ∀ i < C.n, mk i ≠ 0 → IsoAt C mk i → s.ws i = stLabeled t
  pconn : Iso C mk → ∀ i < C.n, s.ws i = stLabeled t →
    ∃ m, mk m = s.lbl i ∧ WPath C s.lbl s.ws (s.lbl i) m i
  why2 : Iso C mk → ∀ i < C.n, s.ws i = stLine t → ∃ j ∈ C.nbs i, ∃ k ∈ C.nbs i,
    s.ws j = stLabeled t ∧ s.ws k = stLabeled t ∧ s.lbl j ≠ s.lbl k

/-- Number of candidates. -/
def wsCand (C : FloodCfg) (s : WsSt t) : Nat :=
  (List.range C.n).countP fun i => s.ws i = stCandidate t

/-- What the visits of the neighbours `js` of `cur` have done. -/
structure VInv (cur : Nat) (lbl : Nat → Nat) (ws : Nat → Px t) (js : List Nat)
    (r : (Nat → Nat) × (Nat → Px t) × List Nat) : Prop where
  lblo : ∀ j, j ≠ cur → r.1 j = lbl j
  wso : ∀ j, j ≠ cur → r.2.1 j = ws j
  wsc : r.2.1 cur = stLabeled t ∨ r.2.1 cur = stLine t
  tmp : r.2.2 = js.filter fun j => ws j = stCandidate t
  old : lbl cur ≠ 0 → r.1 cur = lbl cur
  lab : r.2.1 cur = stLabeled t → ∀ j ∈ js, ws j = stLabeled t → r.1 cur = lbl j
  line : r.2.1 cur = stLine t → r.1 cur ≠ 0 ∧ ∃ j ∈ js, ws j = stLabeled t ∧ lbl j ≠ r.1 cur
  zero : r.1 cur = 0 → ∀ j ∈ js, ws j ≠ stLabeled t
  nz : r.1 cur ≠ 0 → lbl cur ≠ 0 ∨ ∃ j ∈ js, ws j = stLabeled t ∧ lbl j = r.1 cur

theorem wsVisits (hS : StatOk t) {cur : Nat} {lbl : Nat → Nat} {ws : Nat → Px t}
    (hc : ws cur = stLabeled t) (js : List Nat) (hnz : ∀ j ∈ js, ws j = stLabeled t → lbl j ≠ 0)
    (hjs : cur ∉ js) : VInv cur lbl ws js (js.foldl (wsVisit t cur) (lbl, ws, [])) := by
  induction js using List.reverseRecOn with
  | nil =>
    exact ⟨fun _ _ => rfl, fun _ _ => rfl, Or.inl hc, rfl, fun _ => rfl, by simp,
      fun h => absurd (hc.symm.trans h) hS.lw, by simp, fun h => Or.inl h⟩
  | append_singleton js nb ih =>
    rw [List.mem_append, List.mem_singleton, not_or] at hjs
    have ih := ih (fun j hj => hnz j (by simp [hj])) hjs.1
    rw [List.foldl_append]
    generalize js.foldl (wsVisit t cur) (lbl, ws, []) = r at ih ⊢
    obtain ⟨rl, rw_, rt⟩ := r
    have hne : nb ≠ cur := fun e => hjs.2 e.symm
    have e1 : rl nb = lbl nb := ih.lblo nb hne
    have e2 : rw_ nb = ws nb := ih.wso nb hne
    have hi := ih
    simp only [List.foldl_cons, List.foldl_nil]
    unfold wsVisit
    simp only [e1, e2]
    by_cases hk : ws nb = stCandidate t
    · rw [if_pos hk]
      have hnl : ws nb ≠ stLabeled t := by rw [hk]; exact hS.lk.symm
      refine ⟨ih.lblo, ih.wso, ih.wsc, ?_, ih.old, ?_, ?_, ?_, ?_⟩
      · rw [List.filter_append, ← ih.tmp]; simp [hk]
      · intro h j hj hw
        rcases List.mem_append.mp hj with hj | hj
        · exact ih.lab h j hj hw
        · rw [List.mem_singleton] at hj; subst hj; exact absurd hw hnl
      · intro h
        obtain ⟨h1, j, h2, h3⟩ := ih.line h
        exact ⟨h1, j, by simp [h2], h3⟩
      · intro h j hj hw
        rcases List.mem_append.mp hj with hj | hj
        · exact ih.zero h j hj hw
        · rw [List.mem_singleton] at hj; subst hj; exact absurd hw hnl
      · intro h
        rcases ih.nz h with h1 | ⟨j, h2, h3⟩
        · exact Or.inl h1
        · exact Or.inr ⟨j, by simp [h2], h3⟩
    · rw [if_neg hk]
      have htmp : (js ++ [nb]).filter (fun j => decide (ws j = stCandidate t)) =
          js.filter fun j => ws j = stCandidate t := by
        rw [List.filter_append]; simp [hk]
      by_cases hl : ws nb = stLabeled t
      · rw [if_pos hl]
        have hn0 := hnz nb (by simp) hl
        by_cases h0 : rl cur = 0
        · rw [if_pos h0]
          have hz := ih.zero h0
          refine ⟨?_, ih.wso, ih.wsc, by rw [htmp]; exact ih.tmp, ?_, ?_, ?_, ?_, ?_⟩
          · intro j hj; simp only [Function.update_apply, if_neg hj]; exact ih.lblo j hj
          · intro h
            exact absurd ((ih.old h).symm.trans h0) h
          · intro h j hj hw
            simp only [Function.update_self]
            rcases List.mem_append.mp hj with hj | hj
            · exact absurd hw (hz j hj)
            · rw [List.mem_singleton] at hj; subst hj; rfl
          · intro h; exact absurd h0 (ih.line h).1
          · intro h; simp only [Function.update_self] at h; exact absurd h hn0
          · intro _; exact Or.inr ⟨nb, by simp, hl, by simp⟩
        · rw [if_neg h0]
          by_cases hd : rl cur ≠ lbl nb
          · rw [if_pos hd]
            refine ⟨ih.lblo, ?_, Or.inr (by simp), by rw [htmp]; exact ih.tmp, ih.old, ?_, ?_, ?_, ?_⟩
            · intro j hj; simp only [Function.update_apply, if_neg hj]; exact ih.wso j hj
            · intro h; simp only [Function.update_self] at h; exact absurd h.symm hS.lw
            · intro _; exact ⟨h0, nb, by simp, hl, Ne.symm hd⟩
            · intro h; exact absurd h h0
            · intro h
              rcases ih.nz h with h1 | ⟨j, h2, h3⟩
              · exact Or.inl h1
              · exact Or.inr ⟨j, by simp [h2], h3⟩
          · rw [if_neg hd]
            push Not at hd
            refine ⟨ih.lblo, ih.wso, ih.wsc, by rw [htmp]; exact ih.tmp, ih.old, ?_, ?_, ?_, ?_⟩
            · intro h j hj hw
              rcases List.mem_append.mp hj with hj | hj
              · exact ih.lab h j hj hw
              · rw [List.mem_singleton] at hj; subst hj; exact hd
            · intro h
              obtain ⟨h1, j, h2, h3⟩ := ih.line h
              exact ⟨h1, j, by simp [h2], h3⟩
            · intro h; exact absurd h h0
            · intro h
              rcases ih.nz h with h1 | ⟨j, h2, h3⟩
              · exact Or.inl h1
              · exact Or.inr ⟨j, by simp [h2], h3⟩
      · rw [if_neg hl]
        refine ⟨ih.lblo, ih.wso, ih.wsc, by rw [htmp]; exact ih.tmp, ih.old, ?_, ?_, ?_, ?_⟩
        · intro h j hj hw
          rcases List.mem_append.mp hj with hj | hj
          · exact ih.lab h j hj hw
          · rw [List.mem_singleton] at hj; subst hj; exact absurd hw hl
        · intro h
          obtain ⟨h1, j, h2, h3⟩ := ih.line h
          exact ⟨h1, j, by simp [h2], h3⟩
        · intro h j hj hw
          rcases List.mem_append.mp hj with hj | hj
          · exact ih.zero h j hj hw
          · rw [List.mem_singleton] at hj; subst hj; exact absurd hw hl
        · intro h
          rcases ih.nz h with h1 | ⟨j, h2, h3⟩
          · exact Or.inl h1
          · exact Or.inr ⟨j, by simp [h2], h3⟩

theorem wsPushes {C : FloodCfg} (hC : C.Ok) (tmp : List Nat) : ∀ (s : WsSt t) (l : List Nat),
    HQRel C.P s.hq (C.ent l) → (∀ i ∈ tmp, i < C.n) →
    ∃ q, tmp.foldlM (wsPush C) s = some ⟨s.lbl, fun i => if i ∈ tmp then stQueued t else s.ws i, q,
        s.pushed ++ tmp⟩ ∧ HQRel C.P q (C.ent (l ++ tmp)) := by
  induction tmp with
  | nil => intro s l h _; exact ⟨s.hq, by simp, by simpa using h⟩
  | cons j tmp ih =>
    intro s l h hlt
    obtain ⟨q, hq, hr⟩ := hqRel_push C.P s.hq _ h (C.lev j) j (hC.lev j (hlt j (by simp)))
    have e : wsPush C s j = some ⟨s.lbl, Function.update s.ws j (stQueued t), q, s.pushed ++ [j]⟩ := by
      unfold wsPush; rw [hq]; rfl
    obtain ⟨q', h1, h2⟩ := ih ⟨s.lbl, Function.update s.ws j (stQueued t), q, s.pushed ++ [j]⟩
      (l ++ [j]) (by simpa [FloodCfg.ent] using hr) (fun i hi => hlt i (by simp [hi]))
    refine ⟨q', ?_, by simpa using h2⟩
    rw [List.foldlM_cons, e]
    refine h1.trans ?_
    simp only [List.append_assoc, List.singleton_append, Option.some.injEq, WsSt.mk.injEq, and_true,
      true_and]
    funext i
    simp only [List.mem_cons, Function.update_apply]
    by_cases h1 : i ∈ tmp
    · simp [h1]
    · by_cases h2 : i = j <;> simp [h1, h2]

theorem length_filter_countP (C : FloodCfg) (p : Nat → Bool) (tmp : List Nat) (hnd : tmp.Nodup)
    (hmem : ∀ i ∈ tmp, i < C.n ∧ p i = true) :
    (List.range C.n).countP (fun i => p i && decide (i ∉ tmp)) + tmp.length =
      (List.range C.n).countP p := by
  induction tmp with
  | nil => simp
  | cons j tmp ih =>
    rw [List.nodup_cons] at hnd
    rw [← ih hnd.2 (fun i hi => hmem i (by simp [hi])), List.length_cons]
    have := countP_update C.n j (fun i => if p i && decide (i ∉ tmp) then 0 else 1) 1
      (hmem j (by simp)).1 (by simp [(hmem j (by simp)).2, hnd.1]) (by simp)
    have e1 : (fun i => decide ((if p i && decide (i ∉ tmp) then 0 else 1) = 0)) =
        fun i => p i && decide (i ∉ tmp) := by
      funext i
      cases p i && decide (i ∉ tmp) <;> simp
    have e2 : (fun i => decide (Function.update
        (fun i => if p i && decide (i ∉ tmp) then 0 else 1) j 1 i = 0)) =
        fun i => p i && decide (i ∉ j :: tmp) := by
      funext i
      rw [Function.update_apply]
      by_cases h : i = j
      · simp [h]
      · cases hp : p i <;> by_cases h' : i ∈ tmp <;> simp [h, h']
    rw [e1, e2] at this
    omega

theorem wsStep_inv {C : FloodCfg} (hC : C.Ok) (hN : C.Nice) (hS : StatOk t) {mk : Nat → Nat}
    {s : WsSt t} {l : List Nat} (h : WInv C mk s l) (hl : l ≠ []) :
    ∃ s' l', wsStep C s = some s' ∧ WInv C mk s' l' ∧
      l'.length + wsCand C s' + 1 = l.length + wsCand C s := by
  obtain ⟨e', l', q', hp, ⟨a', b', hab, rfl, -, -⟩, _, hrel⟩ :=
    hqRel_pop C.P hC.P s.hq _ h.rel (by simpa [FloodCfg.ent] using hl)
  unfold FloodCfg.ent at hab
  rw [List.map_eq_append_iff] at hab
  obtain ⟨a, c, rfl, rfl, hc⟩ := hab
  rw [List.map_eq_cons_iff] at hc
  obtain ⟨cur, b, rfl, rfl, rfl⟩ := hc
  rw [← List.map_append] at hrel
  have hcur : cur < C.n := h.mem cur (by simp)
  have hnd' : (a ++ b).Nodup ∧ cur ∉ a ++ b := by
    have := h.nd
    rw [List.nodup_middle, List.nodup_cons] at this
    exact ⟨this.2, this.1⟩
  have hmem' : ∀ i, i ≠ cur → (i ∈ a ++ cur :: b ↔ i ∈ a ++ b) := by
    intro i hi; simp [hi]
  have hself := hN.irr cur hcur
  have hq0 : ∀ {x : Px t}, x = stQueued t → x = stLabeled t → False :=
    fun h1 h2 => hS.lq (h2.symm.trans h1)
  have hk0 : ∀ {x : Px t}, x = stCandidate t → x = stLabeled t → False :=
    fun h1 h2 => hS.lk (h2.symm.trans h1)
  have hw0 : ∀ {x : Px t}, x = stLine t → x = stLabeled t → False :=
    fun h1 h2 => hS.lw (h2.symm.trans h1)
  have hLnz : ∀ j, j < C.n → s.ws j = stLabeled t → s.lbl j ≠ 0 := by
    intro j hj hw
    rcases h.stat j hj with h1 | h1 | h1 | h1
    · exact (hk0 h1.1 hw).elim
    · exact (hq0 h1.1 hw).elim
    · exact h1.2
    · exact h1.2.1
  set ws0 := Function.update s.ws cur (stLabeled t) with hws0
  have hws0o : ∀ j, j ≠ cur → ws0 j = s.ws j := by
    intro j hj; rw [hws0, Function.update_apply, if_neg hj]
  have hne : ∀ j ∈ C.nbs cur, j ≠ cur := fun j hj e => hself (e ▸ hj)
  have hV := wsVisits hS (cur := cur) (lbl := s.lbl) (ws := ws0) (by simp [hws0]) (C.nbs cur)
    (fun j hj hw => hLnz j (hC.nbs cur hcur j hj) (by rwa [hws0o j (hne j hj)] at hw)) hself
  unfold wsStep
  rw [hp]
  simp only [Option.bind_some, ← hws0]
  generalize hr : (C.nbs cur).foldl (wsVisit t cur) (s.lbl, ws0, []) = r at hV ⊢
  obtain ⟨lbl1, ws1, tmp⟩ := r
  obtain ⟨lblo, wso, wsc, htmp, hold, hlab, hline, hzero, hnz⟩ := hV
  simp only at lblo wso wsc htmp hold hlab hline hzero hnz ⊢
  have wso' : ∀ j, j ≠ cur → ws1 j = s.ws j := fun j hj => (wso j hj).trans (hws0o j hj)
  have tmpMem : ∀ j, j ∈ tmp ↔ j ∈ C.nbs cur ∧ s.ws j = stCandidate t := by
    intro j
    rw [htmp, List.mem_filter]
    constructor
    · rintro ⟨h1, h2⟩; rw [hws0o j (hne j h1)] at h2; exact ⟨h1, by simpa using h2⟩
    · rintro ⟨h1, h2⟩; exact ⟨h1, by rw [hws0o j (hne j h1)]; simpa using h2⟩
  have tmpNd : tmp.Nodup := by rw [htmp]; exact (hN.nd cur hcur).filter _
  -- the two outcomes in one form
  obtain ⟨T, q2, hres, hrel2, hTL, hTW⟩ : ∃ T q2,
      (if ws1 cur ≠ stLine t then tmp.foldlM (wsPush C) (⟨lbl1, ws1, q', s.pushed⟩ : WsSt t)
        else some ⟨lbl1, ws1, q', s.pushed⟩) =
      some ⟨lbl1, fun i => if i ∈ T then stQueued t else ws1 i, q2, s.pushed ++ T⟩ ∧
      HQRel C.P q2 (C.ent (a ++ b ++ T)) ∧ (ws1 cur = stLabeled t → T = tmp) ∧
      (ws1 cur = stLine t → T = []) := by
    rcases wsc with h1 | h1
    · obtain ⟨q2, g1, g2⟩ := wsPushes hC tmp (⟨lbl1, ws1, q', s.pushed⟩ : WsSt t) (a ++ b) hrel
        (fun i hi => hC.nbs cur hcur i ((tmpMem i).mp hi).1)
      refine ⟨tmp, q2, ?_, g2, fun _ => rfl, fun h2 => (hw0 h2 h1).elim⟩
      rw [if_pos (by rw [h1]; exact hS.lw)]
      exact g1
    · refine ⟨[], q', ?_, by rw [List.append_nil]; exact hrel, fun h2 => (hw0 h1 h2).elim, fun _ => rfl⟩
      rw [if_neg (by simp [h1])]
      simp
  have hTmem : ∀ j ∈ T, j ∈ C.nbs cur ∧ s.ws j = stCandidate t ∧ ws1 cur = stLabeled t := by
    intro j hj
    rcases wsc with h1 | h1
    · rw [hTL h1, tmpMem] at hj; exact ⟨hj.1, hj.2, h1⟩
    · rw [hTW h1] at hj; simp at hj
  have hTnd : T.Nodup := by
    rcases wsc with h1 | h1
    · rw [hTL h1]; exact tmpNd
    · rw [hTW h1]; simp
  have hTlt : ∀ j ∈ T, j < C.n := fun j hj => hC.nbs cur hcur j (hTmem j hj).1
  have hcT : cur ∉ T := fun hh => hself (hTmem cur hh).1
  have hKl : ∀ j < C.n, s.ws j = stCandidate t → s.lbl j = 0 ∧ j ∉ a ++ cur :: b := by
    intro j hj hw
    rcases h.stat j hj with h1 | h1 | h1 | h1
    · exact h1.2
    · exact (hS.qk (h1.1.symm.trans hw)).elim
    · exact (hk0 hw h1.1).elim
    · exact (hS.kw (hw.symm.trans h1.1)).elim
  have hcK : s.ws cur ≠ stCandidate t := fun hh => (hKl cur hcur hh).2 (by simp)
  have hcl' : cur ∉ a ++ b ++ T := by
    rw [List.mem_append, not_or]; exact ⟨hnd'.2, hcT⟩
  generalize hws2 : (fun i => if i ∈ T then stQueued t else ws1 i) = ws2 at hres
  have ws2c : ws2 cur = ws1 cur := by rw [← hws2]; simp [hcT]
  have ws2T : ∀ j ∈ T, ws2 j = stQueued t := by intro j hj; rw [← hws2]; simp [hj]
  have ws2o : ∀ j, j ≠ cur → j ∉ T → ws2 j = s.ws j := by
    intro j h1 h2; rw [← hws2]; simp [h2, wso' j h1]
  have ws2K : ∀ j, ws2 j = stCandidate t ↔ s.ws j = stCandidate t ∧ j ∉ T := by
    intro j
    constructor
    · intro hw
      by_cases h2 : j ∈ T
      · rw [ws2T j h2] at hw; exact (hS.qk hw).elim
      · by_cases h1 : j = cur
        · subst h1
          rw [ws2c] at hw
          rcases wsc with h3 | h3
          · exact (hk0 hw h3).elim
          · exact (hS.kw (hw.symm.trans h3)).elim
        · rw [ws2o j h1 h2] at hw; exact ⟨hw, h2⟩
    · rintro ⟨hw, h2⟩
      have h1 : j ≠ cur := by rintro rfl; exact hcK hw
      rw [ws2o j h1 h2]; exact hw
  have ws2L : ∀ j, ws2 j = stLabeled t →
      (j = cur ∧ ws1 cur = stLabeled t) ∨ (j ≠ cur ∧ s.ws j = stLabeled t) := by
    intro j hw
    by_cases h2 : j ∈ T
    · rw [ws2T j h2] at hw; exact (hS.lq hw.symm).elim
    · by_cases h1 : j = cur
      · left; subst h1; exact ⟨rfl, ws2c.symm.trans hw⟩
      · right; rw [ws2o j h1 h2] at hw; exact ⟨h1, hw⟩
  have ws2L' : ∀ j, j ≠ cur → s.ws j = stLabeled t → ws2 j = stLabeled t := by
    intro j h1 hw
    rw [ws2o j h1 (fun hj => hk0 (hTmem j hj).2.1 hw)]; exact hw
  have hml : ∀ i, i ≠ cur → i ∉ a ++ b ++ T → i ∉ a ++ cur :: b := by
    intro i h1 h2
    rw [hmem' i h1]; rw [List.mem_append, not_or] at h2; exact h2.1
  have hml2 : ∀ i, i ∉ a ++ cur :: b → i ∉ T → i ∉ a ++ b ++ T := by
    intro i h1 h2
    rw [List.mem_append, not_or]
    exact ⟨fun hh => h1 (by rcases List.mem_append.mp hh with h | h <;> simp [h]), h2⟩
  have hcnz : lbl1 cur ≠ 0 := by
    intro h0
    have hz := hzero h0
    by_cases h1 : s.lbl cur = 0
    · rcases h.stat cur hcur with h2 | h2 | h2 | h2
      · exact hcK h2.1
      · obtain ⟨j, hj, hw, _⟩ := h.src cur hcur h2.1
        exact hz j hj (by rw [hws0o j (hne j hj)]; exact hw)
      · exact h2.2 h1
      · exact h2.2.1 h1
    · rw [hold h1] at h0; exact h1 h0
  have hstab : ∀ j, s.lbl j ≠ 0 → lbl1 j = s.lbl j := by
    intro j hj
    by_cases e : j = cur
    · subst e; exact hold hj
    · exact lblo j e
  have hmark : ∀ i < C.n, mk i ≠ 0 → IsoAt C mk i → ws2 i = stLabeled t := by
    intro i hi hm hiso
    by_cases e : i = cur
    · subst e
      rw [ws2c]
      rcases wsc with h1 | h1
      · exact h1
      · exfalso
        obtain ⟨_, j, h2, h3, h4⟩ := hline h1
        rw [hws0o j (hne j h2)] at h3
        have hjn := hC.nbs _ hcur j h2
        have hli := h.keep _ hi hm
        rw [hold (by rw [hli]; exact hm)] at h4
        by_cases hj : mk j = 0
        · have hjl : j ∉ a ++ i :: b := fun hh => hq0 (h.qm j hh hj) h3
          exact h4 (h.sep j hjn hjl h3 _ (hN.sym _ hi j h2) (h.mark _ hi hm hiso))
        · exact h4 (by rw [h.keep j hjn hj, hli]; exact hiso j h2 hj)
    · exact ws2L' i e (h.mark i hi hm hiso)
  have hpers : Iso C mk → ∀ j < C.n, s.ws j = stLabeled t →
      lbl1 j = s.lbl j ∧ ws2 j = stLabeled t := by
    intro hiso j hj hw
    refine ⟨hstab j (hLnz j hj hw), ?_⟩
    by_cases e : j = cur
    · by_cases hm : mk j = 0
      · subst e
        exact (hq0 (h.qm j (by simp) hm) hw).elim
      · exact hmark j hj hm (hiso j hj hm)
    · exact ws2L' j e hw
  refine ⟨⟨lbl1, ws2, q2, s.pushed ++ T⟩, a ++ b ++ T, hres,
    ⟨hrel2, ?_, ?_, ?_, ?_, ?_, ?_, ?_, ?_, ?_, ?_, ?_, ?_, hmark, ?_, ?_⟩, ?_⟩
  · rw [List.nodup_append]
    refine ⟨hnd'.1, hTnd, ?_⟩
    rintro x hx y hy rfl
    exact (hKl x (hTlt x hy) (hTmem x hy).2.1).2
      (by rcases List.mem_append.mp hx with h | h <;> simp [h])
  · intro i hi
    rcases List.mem_append.mp hi with hi | hi
    · exact h.mem i (by rcases List.mem_append.mp hi with h | h <;> simp [h])
    · exact hTlt i hi
  · intro i hi
    simp only
    by_cases e : i = cur
    · subst e
      rw [ws2c]
      rcases wsc with h1 | h1
      · exact Or.inr (Or.inr (Or.inl ⟨h1, hcnz⟩))
      · exact Or.inr (Or.inr (Or.inr ⟨h1, hcnz, hcl'⟩))
    · rw [lblo i e]
      by_cases hT : i ∈ T
      · rw [ws2T i hT]
        exact Or.inr (Or.inl ⟨rfl, (hKl i hi (hTmem i hT).2.1).1, by simp [hT]⟩)
      · rw [ws2o i e hT]
        have hiff : i ∈ a ++ b ++ T ↔ i ∈ a ++ cur :: b := by
          rw [hmem' i e, List.mem_append]; simp [hT]
        rw [hiff]
        exact h.stat i hi
  · intro i hi hm
    have := h.keep i hi hm
    rw [← this]; exact hstab i (by rw [this]; exact hm)
  · intro i hi hw
    simp only at hw ⊢
    by_cases hT : i ∈ T
    · obtain ⟨h1, h2, h3⟩ := hTmem i hT
      exact ⟨cur, hN.sym cur hcur i h1, ws2c.trans h3, hcl'⟩
    · have e : i ≠ cur := by
        rintro rfl
        rw [ws2c] at hw
        rcases wsc with h3 | h3
        · exact hq0 hw h3
        · exact hS.qw (hw.symm.trans h3)
      rw [ws2o i e hT] at hw
      obtain ⟨j, hj, h1, h2⟩ := h.src i hi hw
      have hjc : j ≠ cur := by rintro rfl; exact h2 (by simp)
      exact ⟨j, hj, ws2L' j hjc h1, hml2 j h2 (fun hh => hk0 (hTmem j hh).2.1 h1)⟩
  · intro i hi hw hnl j hj hwj
    simp only at hw hwj
    obtain ⟨h1, h2⟩ := (ws2K j).mp hwj
    rcases ws2L i hw with ⟨rfl, h3⟩ | ⟨e, h3⟩
    · rw [hTL h3] at h2
      exact h2 ((tmpMem j).mpr ⟨hj, h1⟩)
    · exact h.done i hi h3 (hml i e hnl) j hj h1
  · intro i hi hnl hw j hj hwj
    simp only at hw hwj ⊢
    rcases ws2L i hw with ⟨rfl, h3⟩ | ⟨e, h3⟩
    · rcases ws2L j hwj with ⟨rfl, h4⟩ | ⟨e', h4⟩
      · rfl
      · rw [hlab h3 j hj (by rw [hws0o j e']; exact h4), lblo j e']
    · rcases ws2L j hwj with ⟨rfl, h4⟩ | ⟨e', h4⟩
      · rw [hlab h4 i (hN.sym i hi _ hj) (by rw [hws0o i e]; exact h3), lblo i e]
      · rw [lblo i e, lblo j e']
        exact h.sep i hi (hml i e hnl) h3 j hj h4
  · intro i hi hw
    simp only at hw ⊢
    by_cases e : i = cur
    · subst e
      rw [ws2c] at hw
      obtain ⟨h1, j, h2, h3, h4⟩ := hline hw
      rw [hws0o j (hne j h2)] at h3
      refine ⟨j, h2, ?_⟩
      rw [lblo j (hne j h2)]
      exact ⟨hLnz j (hC.nbs _ hcur j h2) h3, h4⟩
    · have hT : i ∉ T := fun hT => hS.qw ((ws2T i hT).symm.trans hw)
      rw [ws2o i e hT] at hw
      obtain ⟨j, h2, h3, h4⟩ := h.why i hi hw
      refine ⟨j, h2, ?_⟩
      rw [hstab j h3, lblo i e]
      exact ⟨h3, h4⟩
  · intro i hi h0
    simp only at h0 ⊢
    have hext : ∀ k < C.n, s.lbl k ≠ 0 → ∃ m, mk m = s.lbl k ∧ LPath C lbl1 (s.lbl k) m k := by
      intro k hk hk0
      obtain ⟨m, hm, hpth⟩ := h.conn k hk hk0
      exact ⟨m, hm, hpth.mono (fun j hj => (hstab j (by rw [hj]; exact hk0)).trans hj)⟩
    by_cases e : s.lbl i = 0
    · have hic : i = cur := by
        by_contra hne'
        rw [lblo i hne'] at h0; exact h0 e
      subst hic
      rcases hnz h0 with h1 | ⟨j, h2, h3, h4⟩
      · exact absurd e h1
      · rw [hws0o j (hne j h2)] at h3
        have hjn := hC.nbs _ hcur j h2
        obtain ⟨m, hm, hpth⟩ := hext j hjn (hLnz j hjn h3)
        rw [h4] at hm hpth
        exact ⟨m, hm, .step hpth (hN.sym _ hcur j h2) rfl⟩
    · rw [hstab i e]
      exact hext i hi e
  · rw [List.nodup_append]
    refine ⟨h.nodup, hTnd, ?_⟩
    rintro x hx y hy rfl
    exact (h.push x hx).2 (hTmem x hy).2.1
  · intro i hi
    rcases List.mem_append.mp hi with hi | hi
    · exact ⟨(h.push i hi).1, fun hw => (h.push i hi).2 ((ws2K i).mp hw).1⟩
    · exact ⟨hTlt i hi, fun hw => ((ws2K i).mp hw).2 hi⟩
  · intro i hi hm
    simp only
    by_cases hT : i ∈ T
    · exact ws2T i hT
    · have hab : i ∈ a ++ b := (List.mem_append.mp hi).resolve_right hT
      have e : i ≠ cur := by rintro rfl; exact hnd'.2 hab
      rw [ws2o i e hT]
      exact h.qm i ((hmem' i e).mpr hab) hm
  · intro hiso i hi hw
    simp only at hw ⊢
    have hext : ∀ k < C.n, s.ws k = stLabeled t →
        ∃ m, mk m = s.lbl k ∧ WPath C lbl1 ws2 (s.lbl k) m k := by
      intro k hk hwk
      obtain ⟨m, hm, hpth⟩ := h.pconn hiso k hk hwk
      exact ⟨m, hm, (hpth.mono (fun j hj hl hw' => by
        have := hpers hiso j hj hw'; exact ⟨this.1.trans hl, this.2⟩) hC.nbs).2⟩
    rcases ws2L i hw with ⟨rfl, h1⟩ | ⟨e, h1⟩
    · by_cases hm : mk i = 0
      · have hsq : s.ws i = stQueued t := h.qm i (by simp) hm
        have hl0 : s.lbl i = 0 := by
          rcases h.stat i hi with h2 | h2 | h2 | h2
          · exact h2.2.1
          · exact h2.2.1
          · exact (hq0 hsq h2.1).elim
          · exact (hS.qw (hsq.symm.trans h2.1)).elim
        rcases hnz hcnz with h2 | ⟨j, h2, h3, h4⟩
        · exact absurd hl0 h2
        · rw [hws0o j (hne j h2)] at h3
          obtain ⟨m, hm', hpth⟩ := hext j (hC.nbs _ hcur j h2) h3
          rw [h4] at hm' hpth
          exact ⟨m, hm', .step hpth (hN.sym _ hcur j h2) rfl hw⟩
      · have hli := h.keep _ hi hm
        have : lbl1 i = mk i := by rw [hold (by rw [hli]; exact hm), hli]
        exact ⟨i, this.symm, .base hi rfl hw⟩
    · rw [lblo i e]
      exact hext i hi h1
  · intro hiso i hi hw
    simp only at hw ⊢
    by_cases e : i = cur
    · subst e
      rw [ws2c] at hw
      obtain ⟨h1, j, h2, h3, h4⟩ := hline hw
      rw [hws0o j (hne j h2)] at h3
      have hm : mk i = 0 := by
        by_contra hm
        have := hmark i hi hm (hiso i hi hm)
        rw [ws2c] at this
        exact hw0 hw this
      have hsq : s.ws i = stQueued t := h.qm i (by simp) hm
      have hl0 : s.lbl i = 0 := by
        rcases h.stat i hi with h2 | h2 | h2 | h2
        · exact h2.2.1
        · exact h2.2.1
        · exact (hq0 hsq h2.1).elim
        · exact (hS.qw (hsq.symm.trans h2.1)).elim
      rcases hnz h1 with h5 | ⟨k, h5, h6, h7⟩
      · exact absurd hl0 h5
      · rw [hws0o k (hne k h5)] at h6
        have pj := hpers hiso j (hC.nbs _ hcur j h2) h3
        have pk := hpers hiso k (hC.nbs _ hcur k h5) h6
        exact ⟨j, h2, k, h5, pj.2, pk.2, by rw [pj.1, pk.1, h7]; exact h4⟩
    · have hT : i ∉ T := fun hT => hS.qw ((ws2T i hT).symm.trans hw)
      rw [ws2o i e hT] at hw
      obtain ⟨j, h2, k, h3, h4, h5, h6⟩ := h.why2 hiso i hi hw
      have pj := hpers hiso j (hC.nbs _ hi j h2) h4
      have pk := hpers hiso k (hC.nbs _ hi k h3) h5
      exact ⟨j, h2, k, h3, pj.2, pk.2, by rw [pj.1, pk.1]; exact h6⟩
  · have := length_filter_countP C (fun i => decide (s.ws i = stCandidate t)) T hTnd
      (fun i hi => ⟨hTlt i hi, by simpa using (hTmem i hi).2.1⟩)
    have e : (fun i => decide (s.ws i = stCandidate t) && decide (i ∉ T)) =
        fun i => decide (ws2 i = stCandidate t) := by
      funext i
      rw [← Bool.decide_and]
      exact decide_eq_decide.mpr (ws2K i).symm
    rw [e] at this
    simp only [wsCand, List.length_append, List.length_cons] at *
    omega

theorem wsLoop_inv {C : FloodCfg} (hC : C.Ok) (hN : C.Nice) (hS : StatOk t) {mk : Nat → Nat}
    (fuel : Nat) : ∀ {s : WsSt t} {l : List Nat}, WInv C mk s l →
    l.length + wsCand C s < fuel → ∃ s', wsLoop C fuel s = some s' ∧ WInv C mk s' [] := by
  induction fuel with
  | zero => intro s l _ h; omega
  | succ fuel ih =>
    intro s l h hf
    unfold wsLoop
    by_cases hl : l = []
    · subst hl
      rw [if_pos ((hqRel_isEmpty C.P s.hq _ h.rel).mpr rfl)]
      exact ⟨s, rfl, h⟩
    · rw [if_neg (by rw [hqRel_isEmpty C.P s.hq _ h.rel]; simpa [FloodCfg.ent] using hl)]
      obtain ⟨s1, l1, h1, h2, h3⟩ := wsStep_inv hC hN hS h hl
      obtain ⟨s2, h4, h5⟩ := ih h2 (by omega)
      exact ⟨s2, by rw [h1]; exact h4, h5⟩

theorem wsRun_spec {C : FloodCfg} (hC : C.Ok) (hN : C.Nice) (hS : StatOk t) (lbl : Nat → Nat) :
    ∃ s : WsSt t, wsRun t C lbl = some s ∧ WInv C lbl s [] := by
  obtain ⟨q, h1, h2⟩ := markerInit_spec hC lbl
  have hmem : ∀ i, i ∈ ((List.range C.n).filter fun i => lbl i ≠ 0) ↔ i < C.n ∧ lbl i ≠ 0 := by
    intro i; rw [List.mem_filter, List.mem_range]; simp
  have hinv : WInv C lbl (⟨lbl, fun i => if lbl i ≠ 0 then stLabeled t else stCandidate t, q,
      (List.range C.n).filter fun i => lbl i ≠ 0⟩ : WsSt t)
      ((List.range C.n).filter fun i => lbl i ≠ 0) := by
    refine ⟨h2, List.nodup_range.filter _, fun i hi => ((hmem i).mp hi).1, fun i hi => ?_,
      fun _ _ _ => rfl, fun i hi hw => ?_, fun i hi hw hn => ?_, fun i hi hn hw => ?_, fun i hi hw => ?_,
      fun i hi h0 => ⟨i, rfl, .base hi rfl⟩, List.nodup_range.filter _, fun i hi => ?_, fun i hi h0 => ?_,
      fun i hi h0 _ => ?_, fun _ i hi hw => ⟨i, rfl, .base hi rfl hw⟩, fun _ i hi hw => ?_⟩
    · rw [hmem]
      by_cases h0 : lbl i = 0 <;> simp [h0, hi]
    · by_cases h0 : lbl i = 0
      · simp only [h0, ne_eq, not_true, if_false] at hw; exact (hS.qk hw.symm).elim
      · simp only [h0, ne_eq, not_false_eq_true, if_true] at hw; exact (hS.lq hw).elim
    · by_cases h0 : lbl i = 0
      · simp only [h0, ne_eq, not_true, if_false] at hw; exact (hS.lk hw.symm).elim
      · exact absurd ((hmem i).mpr ⟨hi, h0⟩) hn
    · by_cases h0 : lbl i = 0
      · simp only [h0, ne_eq, not_true, if_false] at hw; exact (hS.lk hw.symm).elim
      · exact absurd ((hmem i).mpr ⟨hi, h0⟩) hn
    · by_cases h0 : lbl i = 0
      · simp only [h0, ne_eq, not_true, if_false] at hw; exact (hS.kw hw).elim
      · simp only [h0, ne_eq, not_false_eq_true, if_true] at hw; exact (hS.lw hw).elim
    · have := (hmem i).mp hi
      refine ⟨this.1, ?_⟩
      simp only [ne_eq, this.2, not_false_eq_true, if_true]; exact hS.lk
    · exact absurd h0 ((hmem i).mp hi).2
    · simp only [ne_eq, h0, not_false_eq_true, if_true]
    · by_cases h0 : lbl i = 0
      · simp only [h0, ne_eq, not_true, if_false] at hw; exact (hS.kw hw).elim
      · simp only [h0, ne_eq, not_false_eq_true, if_true] at hw; exact (hS.lw hw).elim
  obtain ⟨s, h3, h4⟩ := wsLoop_inv hC hN hS (C.n + 1) hinv (by
    have := filter_countP C.n lbl
    have e : wsCand C (⟨lbl, fun i => if lbl i ≠ 0 then stLabeled t else stCandidate t, q,
      (List.range C.n).filter fun i => lbl i ≠ 0⟩ : WsSt t) =
      (List.range C.n).countP (fun i => lbl i = 0) := by
      unfold wsCand
      apply List.countP_congr
      intro i _
      by_cases h0 : lbl i = 0
      · simp [h0]
      · simp [h0, hS.lk]
    rw [e]
    omega)
  exact ⟨s, by unfold wsRun; rw [h1]; exact h3, h4⟩

end Smil
