import Verif.FastLabel
import Verif.LabelLemmas

/-!
# Fast labelling: the passes

Helper lemmas for `PropsFastLabel`.
-/

namespace Smil

open Relation

/-- Invariant of one propagation, whatever the labels before: `V` are the pixels labelled so far. -/
structure FlBInv (C : LabCfg) (lab i : Nat) (out0 : Nat → Nat) (V : List Nat) (out : Nat → Nat) :
    Prop where
  nodup : V.Nodup
  lt : ∀ j ∈ V, j < C.n
  reach : ∀ j ∈ V, ReflTransGen C.R i j
  seed : i ∈ V
  val : ∀ j, out j = if j ∈ V then lab else out0 j

theorem FlBInv.visits {C : LabCfg} {lab i : Nat} {out0 : Nat → Nat}
    (hlt : ∀ i < C.n, ∀ j ∈ C.nbs i, j < C.n) {cur : Nat} (l : List Nat)
    (hl : ∀ nb ∈ l, nb ∈ C.nbs cur) : ∀ {V : List Nat} {out : Nat → Nat} (q : List Nat),
    FlBInv C lab i out0 V out → cur ∈ V →
    ∃ W, FlBInv C lab i out0 (V ++ W) (l.foldl (labVisit C lab cur) (out, q)).1 ∧
      (l.foldl (labVisit C lab cur) (out, q)).2 = q ++ W ∧
      ∀ nb ∈ l, C.R cur nb → (l.foldl (labVisit C lab cur) (out, q)).1 nb = lab := by
  induction l with
  | nil => intro V out q h _; exact ⟨[], by simpa using h, by simp, by simp⟩
  | cons nb l ih =>
    intro V out q h hc
    have hl' : ∀ x ∈ l, x ∈ C.nbs cur := fun x hx => hl x (List.mem_cons_of_mem _ hx)
    rw [List.foldl_cons]
    by_cases hv : out nb ≠ lab ∧ C.cmp nb cur = true
    · have e : labVisit C lab cur (out, q) nb = (Function.update out nb lab, q ++ [nb]) := by
        unfold labVisit; rw [if_pos hv]
      rw [e]
      have hnV : nb ∉ V := fun hm => hv.1 (by rw [h.val, if_pos hm])
      have hR : C.R cur nb := ⟨hl nb List.mem_cons_self, hv.2⟩
      have h' : FlBInv C lab i out0 (V ++ [nb]) (Function.update out nb lab) := by
        refine ⟨?_, ?_, ?_, ?_, ?_⟩
        · exact List.nodup_append.mpr ⟨h.nodup, by simp, fun a ha b hb => by
            rw [List.mem_singleton] at hb; subst hb; rintro rfl; exact hnV ha⟩
        · intro j hj
          rcases List.mem_append.mp hj with hj | hj
          · exact h.lt j hj
          · rw [List.mem_singleton] at hj; subst hj
            exact hlt _ (h.lt _ hc) _ hR.1
        · intro j hj
          rcases List.mem_append.mp hj with hj | hj
          · exact h.reach j hj
          · rw [List.mem_singleton] at hj; subst hj
            exact (h.reach _ hc).tail hR
        · exact List.mem_append_left _ h.seed
        · intro j
          by_cases ej : j = nb
          · subst ej; simp
          · rw [Function.update_of_ne ej, h.val]
            simp [ej]
      obtain ⟨W, h1, h2, h3⟩ := ih hl' (q ++ [nb]) h' (List.mem_append_left _ hc)
      refine ⟨nb :: W, by simpa using h1, by simpa using h2, ?_⟩
      intro x hx hRx
      rcases List.mem_cons.mp hx with rfl | hx
      · rw [h1.val, if_pos (by simp)]
      · exact h3 x hx hRx
    · have e : labVisit C lab cur (out, q) nb = (out, q) := by unfold labVisit; rw [if_neg hv]
      rw [e]
      obtain ⟨W, h1, h2, h3⟩ := ih hl' q h hc
      refine ⟨W, h1, h2, ?_⟩
      intro x hx hRx
      rcases List.mem_cons.mp hx with rfl | hx
      · have hx : out x = lab := by
          by_contra hne; exact hv ⟨hne, hRx.2⟩
        rw [h1.val]
        by_cases hm : x ∈ V ++ W
        · rw [if_pos hm]
        · rw [if_neg hm]
          rw [h.val, if_neg fun h => hm (List.mem_append_left _ h)] at hx
          exact hx
      · exact h3 x hx hRx

theorem labBfs_any {C : LabCfg} {lab i : Nat} {out0 : Nat → Nat}
    (hlt : ∀ i < C.n, ∀ j ∈ C.nbs i, j < C.n) : ∀ (fuel : Nat) (D q : List Nat)
    (out : Nat → Nat), FlBInv C lab i out0 (D ++ q) out → C.n + 1 ≤ fuel + D.length →
    (∀ j ∈ D, ∀ k, C.R j k → out k = lab) →
    ∃ o V, labBfs C lab fuel out q = some o ∧ FlBInv C lab i out0 V o ∧
      ∀ j ∈ V, ∀ k, C.R j k → o k = lab := by
  intro fuel
  induction fuel with
  | zero =>
    intro D q out h hf _
    have := nodup_lt_length h.nodup h.lt
    rw [List.length_append] at this; omega
  | succ fuel ih =>
    intro D q out h hf hcl
    cases q with
    | nil => exact ⟨out, D, rfl, by simpa using h, hcl⟩
    | cons cur q =>
      have hc : cur ∈ D ++ cur :: q := by simp
      obtain ⟨W, h1, h2, h3⟩ := h.visits hlt (C.nbs cur) (fun _ h => h) (cur :: q) hc
      unfold labBfs
      simp only
      rw [h2]
      have e : D ++ cur :: q ++ W = (D ++ [cur]) ++ (q ++ W) := by simp
      rw [e] at h1
      refine ih (D ++ [cur]) (q ++ W) _ h1 (by simp; omega) ?_
      intro j hj k hk
      rcases List.mem_append.mp hj with hj | hj
      · have h4 := hcl j hj k hk
        rw [h1.val]
        split
        · rfl
        · rename_i hm
          rw [h.val, if_neg] at h4
          · exact h4
          · intro h5; exact hm (by rw [← e]; exact List.mem_append_left _ h5)
      · rw [List.mem_singleton] at hj; subst hj
        exact h3 k hk.1 hk

/-- One propagation from `i`. -/
theorem labBfs_from {C : LabCfg} {lab i : Nat} (out : Nat → Nat) (hi : i < C.n)
    (hlt : ∀ i < C.n, ∀ j ∈ C.nbs i, j < C.n) :
    ∃ o V, labBfs C lab (C.n + 1) (Function.update out i lab) [i] = some o ∧ FlBInv C lab i out V o ∧
      ∀ j ∈ V, ∀ k, C.R j k → o k = lab := by
  refine labBfs_any hlt (C.n + 1) [] [i] _ ⟨by simp, ?_, ?_, by simp, ?_⟩ (by simp) (by simp)
  · intro j hj; simp at hj; rw [hj]; exact hi
  · intro j hj; simp at hj; rw [hj]
  · intro j
    by_cases e : j = i
    · rw [e]; simp
    · rw [Function.update_of_ne e]; simp [e]

/-- What the first pass relies on: `C` is its propagation, `L` the one of `label`. -/
structure FlOk (C L : LabCfg) (w : Nat) (res : Nat → Bool) : Prop where
  n : L.n = C.n
  nbs : L.nbs = C.nbs
  keep : L.keep = C.keep
  top : L.top = C.top
  lt : ∀ i < C.n, ∀ j ∈ C.nbs i, j < C.n
  cmpC : ∀ i < C.n, C.keep i = true → ∀ j ∈ C.nbs i,
    (C.cmp j i = true ↔ res i = true ∧ C.keep j = true)
  cmpL : ∀ i < C.n, C.keep i = true → ∀ j ∈ C.nbs i, (L.cmp j i = true ↔ C.keep j = true)
  res_keep : ∀ i < C.n, res i = true → C.keep i = true
  start : ∀ i < C.n, C.keep i = true → (i % w = 0 ∨ C.keep (i - 1) = false) → res i = true
  run : ∀ i, i + 1 < C.n → (i + 1) % w ≠ 0 → C.keep i = true → C.keep (i + 1) = true →
    i + 1 ∈ C.nbs i
  topo : ∀ k < C.n, res k = true → (k % w = 0 ∨ C.keep (k - 1) = false) → ¬ L.First k →
    ∃ m < k, res m = true ∧ ReflTransGen (fun i j => j ∈ C.nbs i ∧ res i = true ∧ res j = true) m k
  sym : ∀ i < L.n, ∀ j, ReflTransGen L.R i j → ReflTransGen L.R j i

section
variable {C L : LabCfg} {w : Nat} {res : Nat → Bool}

theorem FlOk.stay (h : FlOk C L w res) {i j : Nat} (hi : i < C.n) (hk : C.keep i = true)
    (hr : ReflTransGen L.R i j) : j < C.n ∧ C.keep j = true := by
  induction hr with
  | refl => exact ⟨hi, hk⟩
  | tail _ hjk ih =>
    obtain ⟨h1, h2⟩ := ih
    have hm := hjk.1
    rw [h.nbs] at hm
    exact ⟨h.lt _ h1 _ hm, (h.cmpL _ h1 h2 _ hm).mp hjk.2⟩

theorem FlOk.edge (h : FlOk C L w res) {i j : Nat} (hi : i < C.n) (hk : C.keep i = true)
    (hj : j ∈ C.nbs i) (hkj : C.keep j = true) : ReflTransGen L.R i j :=
  .single ⟨by rw [h.nbs]; exact hj, (h.cmpL _ hi hk _ hj).mpr hkj⟩

/-- The propagation of the first pass stays in the component. -/
theorem FlOk.reachL (h : FlOk C L w res) {i j : Nat} (hi : i < C.n) (hk : C.keep i = true)
    (hr : ReflTransGen C.R i j) : ReflTransGen L.R i j := by
  induction hr with
  | refl => exact .refl
  | tail _ hjk ih =>
    obtain ⟨h1, h2⟩ := h.stay hi hk ih
    exact ih.trans (h.edge h1 h2 hjk.1 ((h.cmpC _ h1 h2 _ hjk.1).mp hjk.2).2)

theorem rank_first {f n : Nat} (hf : f < n) (h : L.First f) : 1 ≤ L.rank (f + 1) := by
  rw [LabCfg.rank_succ_pos h]; omega

/-- The labels of `label`. -/
structure FlRef (C L : LabCfg) (g : Nat → Nat) : Prop where
  pos : ∀ j < C.n, C.keep j = true → g j ≠ 0
  zero : ∀ j < C.n, C.keep j = false → g j = 0
  same : ∀ i < C.n, C.keep i = true → ∀ j, ReflTransGen L.R i j → g j = g i
  first : ∀ f < C.n, L.First f → g f = labNo C.top (L.rank (f + 1))

theorem FlOk.ref (h : FlOk C L w res) {s : LabSt} (hs : LOut L L.n s) : FlRef C L s.out := by
  have key : ∀ j < C.n, C.keep j = true → ∃ f, L.First f ∧ f < L.n ∧ ReflTransGen L.R f j ∧
      s.out j = labNo L.top (L.rank (f + 1)) := by
    intro j hj hk
    obtain ⟨f, hf, hr, hmin⟩ := LabCfg.exists_first (C := L) (i := j)
      ⟨j, by rw [h.keep]; exact hk, .refl⟩
    have hfn : f < L.n := by
      have := hmin j (by rw [h.keep]; exact hk) .refl
      rw [h.n]; omega
    exact ⟨f, hf, hfn, hr, hs.hit f hfn hf j hr⟩
  refine ⟨?_, ?_, ?_, ?_⟩
  · intro j hj hk
    obtain ⟨f, hf, hfn, hr, e⟩ := key j hj hk
    rw [e, LabCfg.rank_succ_pos hf]
    have := labNo_pos L.top (L.rank f)
    omega
  · intro j hj hk
    refine hs.miss j fun f hf hff hr => ?_
    have := (h.stay (h.n ▸ hf) (by rw [← h.keep]; exact hff.1) hr).2
    rw [hk] at this; cases this
  · intro i hi hk j hr
    obtain ⟨f, hf, hfn, hr', e⟩ := key i hi hk
    rw [e, hs.hit f hfn hf j (hr'.trans hr)]
  · intro f hf hff
    rw [← h.top]
    exact hs.hit f (h.n.symm ▸ hf) hff f .refl

/-- The state of the first pass before pixel `k`. -/
structure FlInv (C L : LabCfg) (g : Nat → Nat) (res : Nat → Bool) (k : Nat) (s : FlSt) : Prop where
  real : s.real = L.rank k
  labels : s.labels = labNo C.top (L.rank k)
  val : ∀ j, s.out j ≠ 0 → j < C.n ∧ C.keep j = true ∧ s.out j = g j
  seen : ∀ j, s.out j ≠ 0 → ∃ f < k, C.keep f = true ∧ ReflTransGen L.R f j
  done : ∀ j < k, res j = true → s.out j ≠ 0
  closed : ∀ j j', res j = true → s.out j ≠ 0 → j' ∈ C.nbs j → res j' = true → s.out j' ≠ 0
  run : s.run = true ↔ 0 < k ∧ C.keep (k - 1) = true
  cur : s.run = true → s.cur = g (k - 1)

theorem FlInv.step (h : FlOk C L w res) {g : Nat → Nat} (hg : FlRef C L g) {k : Nat} (hk : k < C.n)
    {s : FlSt} (hs : FlInv C L g res k s) :
    ∃ s', flPixel C w res s k = some s' ∧ FlInv C L g res (k + 1) s' := by
  have hfk : L.First k → C.keep k = true := fun hf => by rw [← h.keep]; exact hf.1
  have notFirst : ∀ f < k, C.keep f = true → ReflTransGen L.R f k → ¬ L.First k := by
    intro f hf hkf hr hF
    exact hF.2 f hf (by rw [h.keep]; exact hkf) hr
  have hrank : ¬ L.First k → L.rank (k + 1) = L.rank k := LabCfg.rank_succ_neg
  have hseen : ∀ j, s.out j ≠ 0 → ∃ f < k + 1, C.keep f = true ∧ ReflTransGen L.R f j := by
    intro j hj
    obtain ⟨f, hf, h1, h2⟩ := hs.seen j hj
    exact ⟨f, by omega, h1, h2⟩
  -- the previous pixel, when the run goes on
  have hprev : (if k % w = 0 then false else s.run) = true → C.keep k = true →
      g (k - 1) = g k ∧ s.cur = g k ∧ ¬ L.First k := by
    intro hr hkk
    by_cases h0 : k % w = 0
    · rw [if_pos h0] at hr; cases hr
    rw [if_neg h0] at hr
    obtain ⟨h1, h2⟩ := hs.run.mp hr
    have hm := h.run (k - 1) (by omega) (by rw [show k - 1 + 1 = k by omega]; exact h0) h2
      (by rw [show k - 1 + 1 = k by omega]; exact hkk)
    rw [show k - 1 + 1 = k by omega] at hm
    have he := h.edge (by omega) h2 hm hkk
    have := hg.same (k - 1) (by omega) h2 k he
    exact ⟨this.symm, by rw [hs.cur hr, this], notFirst (k - 1) (by omega) h2 he⟩
  have hstart : (if k % w = 0 then false else s.run) = false → C.keep k = true →
      (k % w = 0 ∨ C.keep (k - 1) = false) ∧ res k = true := by
    intro hr hkk
    have : k % w = 0 ∨ C.keep (k - 1) = false := by
      by_cases h0 : k % w = 0
      · exact .inl h0
      · rw [if_neg h0] at hr
        right
        by_contra hne
        have hk0 : 0 < k := by
          rcases Nat.eq_zero_or_pos k with e | e
          · subst e; simp at h0
          · exact e
        rw [hs.run.mpr ⟨hk0, by simpa using hne⟩] at hr
        cases hr
    exact ⟨this, h.start k hk hkk this⟩
  unfold flPixel
  generalize hrun : (if k % w = 0 then false else s.run) = run at *
  by_cases hres : res k = true
  · have hkk := h.res_keep k hk hres
    rw [if_pos hres]
    by_cases h0 : s.out k = 0
    · rw [if_pos h0]
      have hnew : run = false → L.First k := by
        intro hr
        by_contra hF
        obtain ⟨m, hm, hrm, hp⟩ := h.topo k hk hres (hstart hr hkk).1 hF
        have : ∀ {j}, ReflTransGen (fun i j => j ∈ C.nbs i ∧ res i = true ∧ res j = true) m j →
            s.out j ≠ 0 := by
          intro j hj
          induction hj with
          | refl => exact hs.done m hm hrm
          | tail _ hjk ih => exact hs.closed _ _ hjk.2.1 ih hjk.1 hjk.2.2
        exact this hp h0
      have hcur : (if run = true then s.cur else if run = true then s.labels else
          nextLab C.top s.labels) = g k := by
        cases hr : run with
        | true => simp only [if_true]; exact (hprev (by rw [hr]) hkk).2.1
        | false =>
          have hF := hnew hr
          simp only [Bool.false_eq_true, if_false]
          rw [hg.first k hk hF, LabCfg.rank_succ_pos hF, hs.labels]; rfl
      simp only
      rw [hcur]
      obtain ⟨o, V, ho, hV, hcl⟩ := labBfs_from (lab := g k) s.out hk h.lt
      rw [ho]
      refine ⟨_, rfl, ?_⟩
      have hgk := hg.pos k hk hkk
      have hVk : ∀ j ∈ V, ReflTransGen L.R k j := fun j hj => h.reachL hk hkk (hV.reach j hj)
      refine ⟨?_, ?_, ?_, ?_, ?_, ?_, ?_, ?_⟩
      · cases hr : run with
        | true => simp only [if_true]; rw [hrank (hprev (by rw [hr]) hkk).2.2, hs.real]
        | false =>
          simp only [Bool.false_eq_true, if_false]
          rw [LabCfg.rank_succ_pos (hnew hr), hs.real]
      · cases hr : run with
        | true => simp only [if_true]; rw [hrank (hprev (by rw [hr]) hkk).2.2, hs.labels]
        | false =>
          simp only [Bool.false_eq_true, if_false]
          rw [LabCfg.rank_succ_pos (hnew hr), hs.labels]; rfl
      · intro j hj
        simp only at hj ⊢
        rw [hV.val] at hj ⊢
        by_cases hm : j ∈ V
        · rw [if_pos hm]
          exact ⟨hV.lt j hm, (h.stay hk hkk (hVk j hm)).2, (hg.same k hk hkk j (hVk j hm)).symm⟩
        · rw [if_neg hm] at hj ⊢; exact hs.val j hj
      · intro j hj
        simp only at hj
        rw [hV.val] at hj
        by_cases hm : j ∈ V
        · exact ⟨k, by omega, hkk, hVk j hm⟩
        · rw [if_neg hm] at hj; exact hseen j hj
      · intro j hj hrj
        simp only
        rw [hV.val]
        split
        · exact hgk
        · rename_i hm
          have : j ≠ k := fun e => hm (e ▸ hV.seed)
          exact hs.done j (by omega) hrj
      · intro j j' hrj hj hm hrj'
        simp only at hj ⊢
        by_cases hjV : j ∈ V
        · have hj1 := h.stay hk hkk (hVk j hjV)
          have : o j' = g k := hcl j hjV j' ⟨hm, (h.cmpC j hj1.1 hj1.2 j' hm).mpr
            ⟨hrj, h.res_keep j' (h.lt j hj1.1 j' hm) hrj'⟩⟩
          rw [this]; exact hgk
        · rw [hV.val, if_neg hjV] at hj
          have := hs.closed j j' hrj hj hm hrj'
          rw [hV.val]
          split
          · exact hgk
          · exact this
      · simp [hkk]
      · intro _; simp
    · rw [if_neg h0]
      have hv := hs.val k h0
      have hF : ¬ L.First k := by
        obtain ⟨f, hf, h1, h2⟩ := hs.seen k h0
        exact notFirst f hf h1 h2
      refine ⟨_, rfl, ?_, ?_, hs.val, hseen, ?_, hs.closed, ?_, ?_⟩
      · simp only; rw [hrank hF]; exact hs.real
      · simp only; rw [hrank hF]; exact hs.labels
      · intro j hj hrj
        by_cases e : j = k
        · rw [e]; exact h0
        · exact hs.done j (by omega) hrj
      · simp [hkk]
      · intro _; simpa using hv.2.2
  · rw [if_neg hres]
    have hdone : ∀ j < k + 1, res j = true → s.out j ≠ 0 := by
      intro j hj hrj
      by_cases e : j = k
      · rw [e] at hrj; exact absurd hrj hres
      · exact hs.done j (by omega) hrj
    cases hkk : C.keep k with
    | false =>
      have hF : ¬ L.First k := fun hF => by rw [hfk hF] at hkk; cases hkk
      refine ⟨_, rfl, ?_, ?_, hs.val, hseen, hdone, hs.closed, ?_, ?_⟩
      · simp only; rw [hrank hF]; exact hs.real
      · simp only; rw [hrank hF]; exact hs.labels
      · simp [hkk]
      · simp
    | true =>
      have hr : run = true := by
        cases hr : run with
        | true => rfl
        | false => exact absurd (hstart hr hkk).2 hres
      have hp := hprev hr hkk
      refine ⟨_, rfl, ?_, ?_, hs.val, hseen, hdone, hs.closed, ?_, ?_⟩
      · simp only; rw [hrank hp.2.2]; exact hs.real
      · simp only; rw [hrank hp.2.2]; exact hs.labels
      · simp [hkk, hr]
      · intro _; simpa using hp.2.1

/-- The first pass labels the pixels of the residue, and nothing but the labels of `label`. -/
theorem flRun_spec (h : FlOk C L w res) {g : Nat → Nat} (hg : FlRef C L g) :
    ∃ s, flRun C w res = some s ∧ FlInv C L g res C.n s := by
  have : ∀ m, m ≤ C.n → ∃ s, (List.range m).foldlM (flPixel C w res) ⟨fun _ => 0, 0, 0, 0, false⟩ =
      some s ∧ FlInv C L g res m s := by
    intro m
    induction m with
    | zero =>
      intro _
      refine ⟨_, rfl, rfl, rfl, ?_, ?_, ?_, ?_, ?_, ?_⟩ <;> simp
    | succ m ih =>
      intro hm
      obtain ⟨s, h1, h2⟩ := ih (by omega)
      obtain ⟨s', h3, h4⟩ := h2.step h hg (by omega)
      refine ⟨s', ?_, h4⟩
      rw [List.range_succ, List.foldlM_append, h1]
      simp [h3]
  exact this C.n le_rfl

end

section
variable {t : PT} {buf : Nat → Px t} {g : Nat → Nat}

/-- The state of a line of the second pass after `v` pixels. -/
theorem flLine_fold {w b : Nat} (out : Nat → Nat)
    (hz : out b = g b)
    (heq : ∀ v, v + 1 < w → buf (b + v + 1) = buf (b + v) → g (b + v + 1) = g (b + v))
    (hne : ∀ v, v + 1 < w → buf (b + v + 1) ≠ buf (b + v) → out (b + v + 1) = g (b + v + 1)) :
    ∀ m, m + 1 ≤ w → ∃ o, (List.range m).foldl (fun (s : Px t × Nat × (Nat → Nat)) v =>
      if (fun a b => decide (a = b)) (buf (b + v + 1)) s.1 = true then
        (s.1, s.2.1, Function.update s.2.2 (b + v + 1) s.2.1)
      else (buf (b + v + 1), s.2.2 (b + v + 1), s.2.2)) (buf b, out b, out) =
        (buf (b + m), g (b + m), o) ∧ (∀ v ≤ m, o (b + v) = g (b + v)) ∧
      ∀ i, (i < b ∨ b + m < i) → o i = out i := by
  intro m
  induction m with
  | zero =>
    intro _
    refine ⟨out, by simp [hz], ?_, fun _ _ => rfl⟩
    intro v hv
    have : v = 0 := by omega
    subst this; exact hz
  | succ m ih =>
    intro hm
    obtain ⟨o, h1, h2, h3⟩ := ih (by omega)
    rw [List.range_succ, List.foldl_append, h1]
    simp only [List.foldl_cons, List.foldl_nil, decide_eq_true_eq]
    by_cases e : buf (b + m + 1) = buf (b + m)
    · rw [if_pos e]
      have hg := heq m (by omega) e
      refine ⟨_, by rw [← e, ← hg]; rfl, ?_, ?_⟩
      · intro v hv
        by_cases ev : v = m + 1
        · subst ev
          rw [show b + (m + 1) = b + m + 1 from rfl, Function.update_self, hg]
        · rw [Function.update_of_ne (by omega)]
          exact h2 v (by omega)
      · intro i hi
        rw [Function.update_of_ne (by omega)]
        exact h3 i (by omega)
    · rw [if_neg e]
      have ho : o (b + m + 1) = g (b + m + 1) := by
        rw [h3 _ (by omega), hne m (by omega) e]
      refine ⟨o, by rw [ho]; rfl, ?_, ?_⟩
      · intro v hv
        by_cases ev : v = m + 1
        · subst ev; exact ho
        · exact h2 v (by omega)
      · intro i hi; exact h3 i (by omega)

theorem flLine_spec {w b : Nat} (out : Nat → Nat) (hw : 0 < w) (hz : out b = g b)
    (heq : ∀ v, v + 1 < w → buf (b + v + 1) = buf (b + v) → g (b + v + 1) = g (b + v))
    (hne : ∀ v, v + 1 < w → buf (b + v + 1) ≠ buf (b + v) → out (b + v + 1) = g (b + v + 1)) :
    (∀ v < w, flLine (fun a b => decide (a = b)) buf w b out (b + v) = g (b + v)) ∧
      ∀ i, (i < b ∨ b + w ≤ i) → flLine (fun a b => decide (a = b)) buf w b out i = out i := by
  obtain ⟨o, h1, h2, h3⟩ := flLine_fold (buf := buf) out hz heq hne (w - 1) (by omega)
  unfold flLine
  rw [h1]
  exact ⟨fun v hv => h2 v (by omega), fun i hi => h3 i (by omega)⟩

/-- The second pass on an image of one slice. -/
theorem flLines_spec {im : Img (Px t)} (out : Nat → Nat) (hd : im.dims.d = 1) (hw : 0 < im.dims.w)
    (hz : ∀ l < im.dims.h, out (l * im.dims.w) = g (l * im.dims.w))
    (heq : ∀ i, i + 1 < im.dims.count → (i + 1) % im.dims.w ≠ 0 → im.buf (i + 1) = im.buf i →
      g (i + 1) = g i)
    (hne : ∀ i, i + 1 < im.dims.count → (i + 1) % im.dims.w ≠ 0 → im.buf (i + 1) ≠ im.buf i →
      out (i + 1) = g (i + 1)) :
    ∃ o, flLines (fun a b => decide (a = b)) im out = some o ∧ ∀ i < im.dims.count, o i = g i := by
  have hc : im.dims.count = im.dims.h * im.dims.w := by unfold Dims.count; rw [hd]; ring
  have hin : ∀ l v, l < im.dims.h → v < im.dims.w → l * im.dims.w + v < im.dims.count := by
    intro l v hl hv
    rw [hc]
    calc l * im.dims.w + v < (l + 1) * im.dims.w := by rw [Nat.succ_mul]; omega
      _ ≤ im.dims.h * im.dims.w := Nat.mul_le_mul_right _ hl
  have hmod : ∀ l v, v + 1 < im.dims.w → (l * im.dims.w + v + 1) % im.dims.w ≠ 0 := by
    intro l v hv
    rw [Nat.add_assoc, Nat.mul_comm, Nat.mul_add_mod, Nat.mod_eq_of_lt hv]; omega
  have key : ∀ m, m ≤ im.dims.h → ∃ o, (List.range m).foldlM (fun o l =>
      if l + 0 * im.dims.d < im.dims.h * im.dims.d then
        some (flLine (fun a b => decide (a = b)) im.buf im.dims.w ((l + 0 * im.dims.d) * im.dims.w) o)
      else none) out = some o ∧ (∀ i < m * im.dims.w, o i = g i) ∧
        ∀ i, m * im.dims.w ≤ i → o i = out i := by
    intro m
    induction m with
    | zero => intro _; exact ⟨out, rfl, by simp, fun _ _ => rfl⟩
    | succ m ih =>
      intro hm
      obtain ⟨o, h1, h2, h3⟩ := ih (by omega)
      rw [List.range_succ, List.foldlM_append, h1]
      obtain ⟨h4, h5⟩ := flLine_spec (buf := im.buf) (g := g) (w := im.dims.w)
        (b := m * im.dims.w) o hw (by rw [h3 _ le_rfl]; exact hz m (by omega))
        (fun v hv he => heq _ (hin m (v + 1) (by omega) hv) (hmod m v hv) he)
        (fun v hv he => by
          rw [h3 _ (by omega)]; exact hne _ (hin m (v + 1) (by omega) hv) (hmod m v hv) he)
      refine ⟨flLine (fun a b => decide (a = b)) im.buf im.dims.w (m * im.dims.w) o, ?_, ?_, ?_⟩
      · rw [hd]
        simp only [Nat.zero_mul, Nat.add_zero, Nat.mul_one]
        simp [show m < im.dims.h by omega]
      · intro i hi
        rw [Nat.succ_mul] at hi
        by_cases hlt : i < m * im.dims.w
        · rw [h5 i (.inl hlt)]; exact h2 i hlt
        · have := h4 (i - m * im.dims.w) (by omega)
          rwa [show m * im.dims.w + (i - m * im.dims.w) = i by omega] at this
      · intro i hi
        rw [Nat.succ_mul] at hi
        rw [h5 i (.inr hi)]
        exact h3 i (by omega)
  obtain ⟨o, h1, h2, -⟩ := key im.dims.h le_rfl
  refine ⟨o, ?_, fun i hi => h2 i (by rw [← hc]; exact hi)⟩
  unfold flLines
  rw [hd] at h1 ⊢
  simp only [List.range_one, List.foldlM_cons, List.foldlM_nil]
  rw [h1]; rfl

end

end Smil
