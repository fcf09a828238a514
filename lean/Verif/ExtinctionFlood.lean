import Verif.ExtinctionLemmas

/-!
# Invariants of extinction flooding
-/

namespace Smil

/-- A merge keeps the labels that were together together, and joins the two labels. -/
theorem mergeOne_joins {K : ExtKind} {L top eb : Nat} {T : ExtTab} {ins : List (Nat × Nat)}
    (h : ExtReach K L eb top T ins) {a b : Nat} (ha : 1 ≤ a ∧ a ≤ L) (hb : 1 ≤ b ∧ b ≤ L) :
    ∃ T', T.mergeOne K L eb (a, b) = some T' ∧ ExtReach K L eb top T' ins ∧ T'.level = T.level ∧
      (∀ i j, T.equ i = T.equ j → T'.equ i = T'.equ j) ∧ T'.equ a = T'.equ b := by
  by_cases hne : T.equ a = T.equ b
  · exact ⟨T, mergeOne_same ha.2 hb.2 hne, h, rfl, fun _ _ h => h, hne⟩
  obtain ⟨T1, e, d, g0, g1, _, gq, _, _, _, _, _, gl, _⟩ := mergeOne_spec (eb := eb) h.inv ha hb hne
  refine ⟨T1, g0, h.merge ha hb g0, gl, fun i j hij => by rw [gq, gq, hij], ?_⟩
  rw [gq, gq]
  rcases g1 with ⟨rfl, rfl⟩ | ⟨rfl, rfl⟩
  · rw [if_neg hne, if_pos rfl]
  · rw [if_pos rfl, if_neg (fun x => hne x.symm)]

/-- Values and labels of the processed pixels. -/
def entries (C : FloodCfg) (lbl : Nat → Nat) (ins : List Nat) : List (Nat × Nat) :=
  ins.map fun i => (C.lev i, lbl i)

/-- Invariant of the flooding. `ins`: the pixels processed so far, `cur`: the pixel being processed. -/
structure XInv (X : ExtCfg) (mk : Nat → Nat) (cur : Option Nat) (M : Nat) (s : ExtSt)
    (l ins : List Nat) : Prop where
  fl : FInv X.C mk cur M s.bas l
  tab : ExtReach X.K X.L X.eb X.top s.tab (entries X.C s.bas.lbl ins)
  pend : s.pend = []
  le : ∀ i < X.C.n, s.bas.lbl i ≤ X.L
  fin : ∀ i, s.fin i = true ↔ i ∈ ins
  perm : (ins ++ (cur.toList ++ l)).Perm s.bas.pushed
  all : ∀ i < X.C.n, s.bas.lbl i ≠ 0 → i ∈ s.bas.pushed
  con : ∀ p ∈ ins, ∀ q ∈ ins, q ∈ X.C.nbs p → s.tab.equ (s.bas.lbl p) = s.tab.equ (s.bas.lbl q)

theorem XInv.mem {X : ExtCfg} {mk : Nat → Nat} {cur : Option Nat} {M : Nat} {s : ExtSt} {l ins : List Nat}
    (h : XInv X mk cur M s l ins) {i : Nat} (hi : i ∈ ins) : i < X.C.n ∧ s.bas.lbl i ≠ 0 :=
  h.fl.push i (h.perm.subset (by simp [hi]))

theorem entries_congr {C : FloodCfg} {f g : Nat → Nat} {ins : List Nat} (h : ∀ i ∈ ins, f i = g i) :
    entries C f ins = entries C g ins := by
  apply List.map_congr_left
  intro i hi; rw [h i hi]

theorem extVisit_inv {X : ExtCfg} (hC : X.C.Ok) {mk : Nat → Nat} {cur M : Nat} {s : ExtSt}
    {l ins : List Nat} (h : XInv X mk (some cur) M s l ins) (hcur : cur < X.C.n) (hlab : s.bas.lbl cur ≠ 0)
    (hM : X.C.lev cur ≤ M) (nb : Nat) (hnb : nb ∈ X.C.nbs cur) :
    ∃ s' l', extVisit X cur s nb = some s' ∧ XInv X mk (some cur) M s' l' ins ∧
      basVisit X.C cur s.bas nb = some s'.bas ∧ s'.bas.lbl nb ≠ 0 ∧ s'.last = s.last ∧
      s'.tab.level = s.tab.level ∧
      (∀ j, s.bas.lbl j ≠ 0 → s'.bas.lbl j = s.bas.lbl j) ∧
      (nb ∈ ins → s'.tab.equ (s'.bas.lbl cur) = s'.tab.equ (s'.bas.lbl nb)) ∧
      (∀ i j, s.tab.equ i = s.tab.equ j → s'.tab.equ i = s'.tab.equ j) ∧
      l'.length + unlab X.C s'.bas = l.length + unlab X.C s.bas := by
  have hlt := hC.nbs cur hcur nb hnb
  obtain ⟨b', l', h1, h2, h3, h4, h5, new, h6, h7⟩ := basVisit_inv hC h.fl hcur hlab hM nb hnb
  by_cases hc : s.bas.lbl nb = 0
  · have h1' := h1
    unfold basVisit at h1'
    rw [if_pos hc, Option.map_eq_some_iff] at h1'
    obtain ⟨q, hq, rfl⟩ := h1'
    have hnin : nb ∉ ins := fun hh => (h.mem hh).2 hc
    have hlbl : ∀ i ∈ ins, Function.update s.bas.lbl nb (s.bas.lbl cur) i = s.bas.lbl i :=
      fun i hi => h4 i (h.mem hi).2
    refine ⟨{ s with bas := ⟨Function.update s.bas.lbl nb (s.bas.lbl cur), q, s.bas.pushed ++ [nb]⟩,
                      fin := Function.update s.fin nb false }, l', ?_, ⟨h2, ?_, h.pend, ?_, ?_, ?_, ?_, ?_⟩,
      h1, h3, rfl, rfl, h4, fun hh => absurd hh hnin, fun _ _ x => x, h5⟩
    · unfold extVisit; simp only [if_pos hc, hq]; rfl
    · simp only
      rw [entries_congr hlbl]; exact h.tab
    · intro i hi
      simp only [Function.update_apply]
      split
      · exact h.le cur hcur
      · exact h.le i hi
    · intro i
      simp only [Function.update_apply]
      by_cases e : i = nb
      · subst e; simp [hnin]
      · rw [if_neg e]; exact h.fin i
    · have hnew : new = [nb] := by simpa using h7.symm
      simp only
      rw [h6, hnew]
      have := h.perm.append_right [nb]
      simpa using this
    · intro i hi hl
      by_cases e : i = nb
      · subst e; simp
      · simp only [Function.update_apply, if_neg e] at hl
        exact List.mem_append_left _ (h.all i hi hl)
    · intro p hp q' hq' hn
      simp only [hlbl p hp, hlbl q' hq']
      exact h.con p hp q' hq' hn
  · have h1' := h1
    unfold basVisit at h1'
    rw [if_neg hc] at h1'
    have hb : s.bas = b' := by simpa using h1'
    subst hb
    have hnew : new = [] := by simpa using h7
    have hl' : l' = l := by rw [h6, hnew, List.append_nil]
    subst hl'
    by_cases hf : s.fin nb = true
    · have hcl : 1 ≤ s.bas.lbl cur ∧ s.bas.lbl cur ≤ X.L := ⟨by omega, h.le cur hcur⟩
      have hnl : 1 ≤ s.bas.lbl nb ∧ s.bas.lbl nb ≤ X.L := ⟨by omega, h.le nb hlt⟩
      by_cases he : s.tab.equ (s.bas.lbl nb) = s.tab.equ (s.bas.lbl cur)
      · refine ⟨s, l', ?_, h, h1, hc, rfl, rfl, fun _ _ => rfl, fun _ => he.symm, fun _ _ x => x, rfl⟩
        unfold extVisit
        simp [hc, hf, ExtTab.rd, hcl.2, hnl.2, he]
      · obtain ⟨T', t1, t2, t3, t4, t5⟩ := mergeOne_joins (eb := X.eb) h.tab
          (a := min (s.bas.lbl cur) (s.bas.lbl nb)) (b := max (s.bas.lbl cur) (s.bas.lbl nb))
          (by omega) (by omega)
        have t6 : T'.equ (s.bas.lbl cur) = T'.equ (s.bas.lbl nb) := by
          rcases le_total (s.bas.lbl cur) (s.bas.lbl nb) with g | g
          · rwa [min_eq_left g, max_eq_right g] at t5
          · rw [min_eq_right g, max_eq_left g] at t5; exact t5.symm
        refine ⟨{ s with tab := T', pend := [] }, l', ?_,
          ⟨h.fl, t2, rfl, h.le, h.fin, h.perm, h.all, fun p hp q hq hn => t4 _ _ (h.con p hp q hq hn)⟩,
          h1, hc, rfl, t3, fun _ _ => rfl, fun _ => t6, t4, rfl⟩
        unfold extVisit
        simp [hc, hf, ExtTab.rd, hcl.2, hnl.2, he, ExtSt.merges, h.pend, t1]
    · refine ⟨s, l', ?_, h, h1, hc, rfl, rfl, fun _ _ => rfl, fun hh => absurd ((h.fin nb).mpr hh) hf,
        fun _ _ x => x, rfl⟩
      unfold extVisit
      simp [hc, hf]

theorem extVisits_inv {X : ExtCfg} (hC : X.C.Ok) {mk : Nat → Nat} {cur M : Nat} (hcur : cur < X.C.n)
    (hM : X.C.lev cur ≤ M) (js : List Nat) : ∀ {s : ExtSt} {l ins : List Nat},
    XInv X mk (some cur) M s l ins → s.bas.lbl cur ≠ 0 → (∀ j ∈ js, j ∈ X.C.nbs cur) →
    ∃ s' l', js.foldlM (extVisit X cur) s = some s' ∧ XInv X mk (some cur) M s' l' ins ∧
      js.foldlM (basVisit X.C cur) s.bas = some s'.bas ∧ (∀ j ∈ js, s'.bas.lbl j ≠ 0) ∧ s'.last = s.last ∧
      s'.tab.level = s.tab.level ∧
      (∀ j, s.bas.lbl j ≠ 0 → s'.bas.lbl j = s.bas.lbl j) ∧
      (∀ j ∈ js, j ∈ ins → s'.tab.equ (s'.bas.lbl cur) = s'.tab.equ (s'.bas.lbl j)) ∧
      (∀ i j, s.tab.equ i = s.tab.equ j → s'.tab.equ i = s'.tab.equ j) ∧
      l'.length + unlab X.C s'.bas = l.length + unlab X.C s.bas := by
  induction js with
  | nil =>
    intro s l ins h _ _
    exact ⟨s, l, rfl, h, rfl, by simp, rfl, rfl, fun _ _ => rfl, by simp, fun _ _ x => x, rfl⟩
  | cons j js ih =>
    intro s l ins h hlab hj
    obtain ⟨s1, l1, a1, a2, a3, a4, a5, a6, a7, a8, a9, a10⟩ :=
      extVisit_inv hC h hcur hlab hM j (hj j (by simp))
    obtain ⟨s2, l2, b1, b2, b3, b4, b5, b6, b7, b8, b9, b10⟩ := ih a2 (by rw [a7 cur hlab]; exact hlab)
      (fun k hk => hj k (by simp [hk]))
    refine ⟨s2, l2, by simp only [List.foldlM_cons, a1]; exact b1, b2,
      by simp only [List.foldlM_cons, a3]; exact b3, ?_, b5.trans a5, b6.trans a6, fun k hk => ?_, ?_,
      fun x y e => b9 _ _ (a9 _ _ e), b10.trans a10⟩
    · intro k hk
      rcases List.mem_cons.mp hk with rfl | hk
      · rw [b7 _ a4]; exact a4
      · exact b4 k hk
    · have := a7 k hk
      rw [← this]; exact b7 k (by rw [this]; exact hk)
    · intro k hk hki
      rcases List.mem_cons.mp hk with rfl | hk
      · have e1 : s2.bas.lbl cur = s1.bas.lbl cur := b7 cur (by rw [a7 cur hlab]; exact hlab)
        have e2 : s2.bas.lbl k = s1.bas.lbl k := b7 k a4
        rw [e1, e2]; exact b9 _ _ (a8 hki)
      · exact b8 k hk hki

/-- Invariant between two pixels, with the level and the last pixel. -/
structure XInv0 (X : ExtCfg) (mk : Nat → Nat) (M : Nat) (s : ExtSt) (l ins : List Nat) : Prop where
  x : XInv X mk none M s l ins
  level : s.tab.level = M
  att : M = 0 ∨ ∃ i ∈ ins, X.C.lev i = M
  last : (ins = [] ∧ s.last = none) ∨ ∃ i ∈ ins, s.last = some i

theorem extPixel_inv {X : ExtCfg} (hC : X.C.Ok) (htop : ∀ i < X.C.n, X.C.lev i ≤ X.top)
    (hsym : ∀ i < X.C.n, ∀ j ∈ X.C.nbs i, i ∈ X.C.nbs j) {mk : Nat → Nat} {M : Nat} {s : ExtSt}
    {l ins : List Nat} (h : XInv0 X mk M s l ins) (hl : l ≠ []) :
    ∃ cur q s' M' l', s.bas.hq.pop X.C.P = some (cur, q) ∧
      extPixel X { s with bas := { s.bas with hq := q } } cur = some s' ∧
      XInv0 X mk M' s' l' (ins ++ [cur]) ∧ basStep X.C s.bas = some s'.bas ∧
      l'.length + unlab X.C s'.bas + 1 = l.length + unlab X.C s.bas := by
  obtain ⟨cur, q, a, b, hp, rfl, hc1, hc2, _, hmid⟩ := basPop_inv hC h.x.fl hl
  have hperm : (ins ++ (some cur).toList ++ (a ++ b)).Perm s.bas.pushed := by
    refine List.Perm.trans ?_ h.x.perm
    simp only [Option.toList_some, Option.toList_none, List.nil_append, List.append_assoc]
    apply List.Perm.append_left
    simp only [List.singleton_append]
    exact List.perm_middle.symm
  have hcn : cur ∉ ins := by
    have := (hperm.nodup_iff).mpr h.x.fl.nodup
    rw [List.append_assoc, List.nodup_append] at this
    intro hh; exact this.2.2 cur hh cur (by simp) rfl
  -- the change of level
  have hs1 : ∃ s1, extLevel X { s with bas := { s.bas with hq := q } } cur = some s1 ∧
      XInv X mk (some cur) (max M (X.C.lev cur)) s1 (a ++ b) ins ∧ s1.bas = ⟨s.bas.lbl, q, s.bas.pushed⟩ ∧
      s1.tab.level = max M (X.C.lev cur) := by
    unfold extLevel
    by_cases hlev : X.C.lev cur > s.tab.level
    · simp only [if_pos hlev]
      have hr := raiseAll_spec X.K X.L s.tab (X.C.lev cur)
      refine ⟨⟨⟨s.bas.lbl, q, s.bas.pushed⟩, s.tab.raiseAll X.K X.L (X.C.lev cur), s.fin, [], s.last⟩,
        by simp [ExtSt.merges, h.x.pend], ⟨hmid, h.x.tab.raise hlev, rfl, h.x.le, h.x.fin,
        by simpa using hperm, h.x.all, ?_⟩, rfl, ?_⟩
      · simp only [hr.1]; exact h.x.con
      · simp only [hr.2.2.2.2.1]
        rw [h.level] at hlev; omega
    · simp only [if_neg hlev]
      refine ⟨_, rfl, ⟨hmid, h.x.tab, h.x.pend, h.x.le, h.x.fin, by simpa using hperm, h.x.all, h.x.con⟩, rfl, ?_⟩
      simp only; rw [h.level] at hlev ⊢; omega
  obtain ⟨s1, e1, x1, b1, lv1⟩ := hs1
  obtain ⟨s2, l2, e2, x2, v2, n2, la2, lv2, k2, j2, p2, c2⟩ := extVisits_inv hC hc1 (le_max_right _ _)
    (X.C.nbs cur) x1 (by rw [b1]; exact hc2) (fun _ h => h)
  have hcl : s2.bas.lbl cur = s.bas.lbl cur := by rw [k2 cur (by rw [b1]; exact hc2), b1]
  have hle := x2.le cur hc1
  have hins := ExtReach.insert x2.tab (v := X.C.lev cur) (l := s2.bas.lbl cur)
    (by rw [hcl]; omega) hle (by rw [lv2, lv1]; omega) (htop cur hc1)
  refine ⟨cur, q, { s2 with
    tab := s2.tab.insert X.K (X.C.lev cur) (s2.tab.equ (s2.bas.lbl cur))
    fin := Function.update s2.fin cur true
    last := some cur }, max M (X.C.lev cur), l2, hp, ?_, ⟨⟨x2.fl.close n2, ?_, x2.pend, x2.le, ?_, ?_, x2.all,
      ?_⟩, ?_, ?_, ?_⟩, ?_, ?_⟩
  · unfold extPixel
    simp only [Option.bind_eq_bind]
    rw [e1]
    simp only [Option.bind_some]
    rw [e2]
    simp [ExtTab.rd, hle]
  · simpa [entries] using hins
  · intro i
    simp only [Function.update_apply, List.mem_append, List.mem_singleton]
    by_cases e : i = cur
    · simp [e]
    · rw [if_neg e, x2.fin i]; simp [e]
  · simpa using x2.perm
  · have heq : (s2.tab.insert X.K (X.C.lev cur) (s2.tab.equ (s2.bas.lbl cur))).equ = s2.tab.equ := by
      cases X.K <;> rfl
    simp only [heq]
    intro p hpi q' hq' hn
    rw [List.mem_append, List.mem_singleton] at hpi hq'
    rcases hpi with hpi | rfl
    · rcases hq' with hq' | rfl
      · exact x2.con p hpi q' hq' hn
      · exact (j2 p (hsym p (x2.mem hpi).1 q' hn) hpi).symm
    · rcases hq' with hq' | rfl
      · exact j2 q' hn hq'
      · rfl
  · have : (s2.tab.insert X.K (X.C.lev cur) (s2.tab.equ (s2.bas.lbl cur))).level = s2.tab.level := by
      cases X.K <;> rfl
    simp only [this]; rw [lv2, lv1]
  · rcases h.att with hm | ⟨i, hi, hm⟩
    · by_cases hz : X.C.lev cur = 0
      · left; omega
      · right; exact ⟨cur, by simp, by omega⟩
    · right
      rcases le_total M (X.C.lev cur) with g | g
      · exact ⟨cur, by simp, by omega⟩
      · exact ⟨i, by simp [hi], by omega⟩
  · exact Or.inr ⟨cur, by simp, rfl⟩
  · unfold basStep; rw [hp]
    have : (⟨s.bas.lbl, q, s.bas.pushed⟩ : BasSt) = s1.bas := by rw [b1]
    simp only [Option.bind_some, this]; exact v2
  · have : unlab X.C s1.bas = unlab X.C s.bas := by rw [b1]; rfl
    simp only [List.length_append, List.length_cons] at c2 ⊢
    omega

theorem extLoop_inv {X : ExtCfg} (hC : X.C.Ok) (htop : ∀ i < X.C.n, X.C.lev i ≤ X.top)
    (hsym : ∀ i < X.C.n, ∀ j ∈ X.C.nbs i, i ∈ X.C.nbs j) {mk : Nat → Nat} (fuel : Nat) :
    ∀ {M : Nat} {s : ExtSt} {l ins : List Nat}, XInv0 X mk M s l ins →
    l.length + unlab X.C s.bas < fuel → ∃ M' s' ins', extLoop X fuel s = some s' ∧
      basLoop X.C fuel s.bas = some s'.bas ∧ XInv0 X mk M' s' [] ins' ∧ (l ≠ [] → ins' ≠ []) ∧
      (ins ≠ [] → ins' ≠ []) := by
  induction fuel with
  | zero => intro M s l ins _ h; omega
  | succ fuel ih =>
    intro M s l ins h hf
    unfold extLoop basLoop
    by_cases hl : l = []
    · subst hl
      have := (hqRel_isEmpty X.C.P s.bas.hq _ h.x.fl.rel).mpr rfl
      rw [if_pos this, if_pos this]
      exact ⟨M, s, ins, rfl, rfl, h, fun hh => absurd rfl hh, id⟩
    · have : ¬ s.bas.hq.isEmpty = true := by
        rw [hqRel_isEmpty X.C.P s.bas.hq _ h.x.fl.rel]; simpa [FloodCfg.ent] using hl
      rw [if_neg this, if_neg this]
      obtain ⟨cur, q, s1, M1, l1, h1, h2, h3, h4, h5⟩ := extPixel_inv hC htop hsym h hl
      obtain ⟨M2, s2, ins2, g1, g2, g3, g4, g5⟩ := ih h3 (by omega)
      refine ⟨M2, s2, ins2, ?_, ?_, g3, fun _ => g5 (by simp), fun _ => g5 (by simp)⟩
      · rw [h1]; simp only [Option.bind_some]; rw [h2]; exact g1
      · rw [h4]; exact g2

theorem le_maxLabel (n : Nat) (mk : Nat → Nat) : ∀ i < n, mk i ≤ maxLabel n mk := by
  unfold maxLabel
  induction n with
  | zero => intro i h; omega
  | succ n ih =>
    intro i hi
    rw [List.range_succ, List.foldl_append]
    simp only [List.foldl_cons, List.foldl_nil]
    by_cases e : i = n
    · subst e; exact le_max_right _ _
    · exact (ih i (by omega)).trans (le_max_left _ _)

theorem maxLabel_att (n : Nat) (mk : Nat → Nat) : maxLabel n mk = 0 ∨ ∃ i < n, mk i = maxLabel n mk := by
  unfold maxLabel
  induction n with
  | zero => left; rfl
  | succ n ih =>
    rw [List.range_succ, List.foldl_append]
    simp only [List.foldl_cons, List.foldl_nil]
    rcases le_total ((List.range n).foldl (fun a i => max a (mk i)) 0) (mk n) with g | g
    · right; exact ⟨n, by omega, by rw [max_eq_right g]⟩
    · rw [max_eq_left g]
      exact ih.imp id fun ⟨i, hi, hj⟩ => ⟨i, by omega, hj⟩

/-- The result of the flooding: that of the plain flooding, and the tables after the processing of all the
labelled pixels. -/
theorem extRun_spec {C : FloodCfg} (hC : C.Ok) (K : ExtKind) (eb top : Nat)
    (htop : ∀ i < C.n, C.lev i ≤ top) (hsym : ∀ i < C.n, ∀ j ∈ C.nbs i, i ∈ C.nbs j) (mk : Nat → Nat)
    (hmk : ∃ i < C.n, mk i ≠ 0) :
    ∃ s T ins i, extRun C K eb top mk = some s ∧ basRun C mk = some s.bas ∧
      ExtReach K (maxLabel C.n mk) eb top T (entries C s.bas.lbl ins) ∧ ins.Nodup ∧
      (∀ j, j ∈ ins ↔ j < C.n ∧ s.bas.lbl j ≠ 0) ∧ i ∈ ins ∧
      (∀ p ∈ ins, ∀ q ∈ ins, q ∈ C.nbs p → T.equ (s.bas.lbl p) = T.equ (s.bas.lbl q)) ∧
      (T.level = 0 ∨ ∃ j ∈ ins, C.lev j = T.level) ∧
      s.tab = T.finalize K eb (T.equ (s.bas.lbl i)) := by
  obtain ⟨q, h1, h2⟩ := markerInit_spec hC mk
  have hmem : ∀ i, i ∈ ((List.range C.n).filter fun i => mk i ≠ 0) ↔ i < C.n ∧ mk i ≠ 0 := by
    intro i; rw [List.mem_filter, List.mem_range]; simp
  have hinv : FInv C mk none 0 ⟨mk, q, (List.range C.n).filter fun i => mk i ≠ 0⟩
      ((List.range C.n).filter fun i => mk i ≠ 0) := by
    refine ⟨h2, fun i hi => (hmem i).mp hi, fun _ _ _ => rfl, fun i hi hl hn => ?_, by omega, fun i hi hl => ?_,
      List.nodup_range.filter _, fun i hi => (hmem i).mp hi⟩
    · exact absurd (List.mem_filter.mpr ⟨List.mem_range.mpr hi, by simpa using hl⟩) hn
    · exact ⟨i, C.lev i, rfl, .base hi (le_refl _), le_max_right _ _, fun m' h' _ hp => hp.le⟩
  have hX : XInv0 ⟨C, K, maxLabel C.n mk, eb, top⟩ mk 0
      ⟨⟨mk, q, (List.range C.n).filter fun i => mk i ≠ 0⟩, ExtTab.init top, fun _ => false, [], none⟩
      ((List.range C.n).filter fun i => mk i ≠ 0) [] := by
    refine ⟨⟨hinv, ExtReach.init, rfl, le_maxLabel C.n mk, by simp, by simp, fun i hi hl => (hmem i).mpr ⟨hi, hl⟩,
      by simp⟩, rfl, Or.inl rfl, Or.inl ⟨rfl, rfl⟩⟩
  obtain ⟨M, s, ins, g1, g2, g3, g4, _⟩ := extLoop_inv (X := ⟨C, K, maxLabel C.n mk, eb, top⟩) hC htop hsym
    (C.n + 1) hX (by
      have := filter_countP C.n mk
      unfold unlab; simp only; omega)
  have hne : ins ≠ [] := g4 (by
    obtain ⟨i, hi⟩ := hmk
    exact List.ne_nil_of_mem ((hmem i).mpr hi))
  obtain ⟨i, hi, hlast⟩ : ∃ i ∈ ins, s.last = some i := by
    rcases g3.last with ⟨h, _⟩ | h
    · exact absurd h hne
    · exact h
  have hperm : ins.Perm s.bas.pushed := by simpa using g3.x.perm
  refine ⟨{ s with tab := s.tab.finalize K eb (s.tab.equ (s.bas.lbl i)), pend := [] }, s.tab, ins, i, ?_, ?_,
    g3.x.tab, hperm.nodup_iff.mpr g3.x.fl.nodup, ?_, hi, g3.x.con, ?_, rfl⟩
  · unfold extRun extRunFrom
    have hle := g3.x.le i (g3.x.mem hi).1
    simp only at hle
    simp only [h1, Option.bind_eq_bind, Option.bind_some, g1, ExtSt.merges, g3.x.pend, List.foldlM_nil,
      Option.pure_def, Option.map_some, hlast, ExtTab.rd, hle, if_true]
  · unfold basRun; rw [h1]; exact g2
  · intro j
    exact ⟨fun hj => g3.x.mem hj, fun ⟨a, b⟩ => hperm.mem_iff.mpr (g3.x.all j a b)⟩
  · rw [g3.level]; exact g3.att

end Smil
