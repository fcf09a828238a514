import Verif.Watershed
import Mathlib.Data.List.Count

/-!
# Correctness of the flooding queue
-/

namespace Smil

/-- A path from `m` to a pixel that stays at levels at most `h`. -/
inductive IPass (C : FloodCfg) (h : Nat) (m : Nat) : Nat → Prop
  | base : m < C.n → C.lev m ≤ h → IPass C h m m
  | step {i j} : IPass C h m i → j ∈ C.nbs i → C.lev j ≤ h → IPass C h m j

structure FloodCfg.Ok (C : FloodCfg) : Prop where
  P : C.P.Ok
  rev : C.P.rev = false
  lev : ∀ i < C.n, C.lev i < C.P.nbr
  nbs : ∀ i < C.n, ∀ j ∈ C.nbs i, j < C.n

theorem IPass.lt {C : FloodCfg} (hC : C.Ok) {h m i : Nat} (hp : IPass C h m i) : i < C.n := by
  induction hp with
  | base h => exact h
  | step _ hj _ ih => exact hC.nbs _ ih _ hj

theorem IPass.mlt {C : FloodCfg} {h m i : Nat} (hp : IPass C h m i) : m < C.n := by
  induction hp with
  | base h => exact h
  | step _ _ _ ih => exact ih

theorem IPass.le {C : FloodCfg} {h m i : Nat} (hp : IPass C h m i) : C.lev i ≤ h := by
  cases hp <;> assumption

theorem IPass.mono {C : FloodCfg} {h h' m i : Nat} (hh : h ≤ h') (hp : IPass C h m i) :
    IPass C h' m i := by
  induction hp with
  | base h1 h2 => exact .base h1 (h2.trans hh)
  | step _ hj hl ih => exact .step ih hj (hl.trans hh)

/-- `lab` is the label of a marker from which `i` can be reached at the least possible height, which
is at most `b`. -/
def Best (C : FloodCfg) (mk : Nat → Nat) (b i lab : Nat) : Prop :=
  ∃ m h, mk m = lab ∧ IPass C h m i ∧ h ≤ b ∧
    ∀ m' h', mk m' ≠ 0 → IPass C h' m' i → h ≤ h'

/-- Queue contents with their levels. -/
def FloodCfg.ent (C : FloodCfg) (l : List Nat) : List (Nat × Nat) := l.map fun i => (C.lev i, i)

/-- Invariant of the flooding. `l`: elements of the queue; `M`: largest level popped so far; `cur`:
the pixel whose neighbours are being visited, if any. -/
structure FInv (C : FloodCfg) (mk : Nat → Nat) (cur : Option Nat) (M : Nat) (s : BasSt)
    (l : List Nat) : Prop where
  rel : HQRel C.P s.hq (C.ent l)
  mem : ∀ i ∈ l, i < C.n ∧ s.lbl i ≠ 0
  keep : ∀ i < C.n, mk i ≠ 0 → s.lbl i = mk i
  done : ∀ i < C.n, s.lbl i ≠ 0 → i ∉ l → cur ≠ some i → ∀ j ∈ C.nbs i, s.lbl j ≠ 0
  high : ∀ i < C.n, s.lbl i = 0 → ∀ m h, mk m ≠ 0 → IPass C h m i → M ≤ h
  best : ∀ i < C.n, s.lbl i ≠ 0 → Best C mk (max M (C.lev i)) i (s.lbl i)
  nodup : s.pushed.Nodup
  push : ∀ i ∈ s.pushed, i < C.n ∧ s.lbl i ≠ 0

/-- Number of unlabelled pixels. -/
def unlab (C : FloodCfg) (s : BasSt) : Nat := (List.range C.n).countP fun i => s.lbl i = 0

theorem countP_update (n nb : Nat) (f : Nat → Nat) (v : Nat) (hnb : nb < n) (h0 : f nb = 0)
    (hv : v ≠ 0) : (List.range n).countP (fun i => decide (f i = 0)) =
      (List.range n).countP (fun i => decide (Function.update f nb v i = 0)) + 1 := by
  have hmem : nb ∈ List.range n := List.mem_range.mpr hnb
  obtain ⟨a, b, hab⟩ := List.append_of_mem hmem
  have hnd : (List.range n).Nodup := List.nodup_range
  rw [hab] at hnd
  rw [hab]
  simp only [List.countP_append, List.countP_cons]
  have e1 : ∀ c : List Nat, nb ∉ c →
      c.countP (fun i => decide (Function.update f nb v i = 0)) =
      c.countP (fun i => decide (f i = 0)) := by
    intro c hcn
    apply List.countP_congr
    intro x hx
    have : x ≠ nb := fun e => hcn (e ▸ hx)
    simp [this]
  have hn1 : nb ∉ a := by
    rw [List.nodup_append] at hnd
    intro hh; exact hnd.2.2 nb hh nb (by simp) rfl
  have hn2 : nb ∉ b := by
    rw [List.nodup_append] at hnd
    exact (List.nodup_cons.mp hnd.2.1).1
  rw [e1 a hn1, e1 b hn2]
  simp [h0, hv]
  omega

theorem basVisit_inv {C : FloodCfg} (hC : C.Ok) {mk : Nat → Nat} {cur M : Nat} {s : BasSt}
    {l : List Nat} (h : FInv C mk (some cur) M s l) (hcur : cur < C.n) (hlab : s.lbl cur ≠ 0)
    (hM : C.lev cur ≤ M) (nb : Nat) (hnb : nb ∈ C.nbs cur) :
    ∃ s' l', basVisit C cur s nb = some s' ∧ FInv C mk (some cur) M s' l' ∧ s'.lbl nb ≠ 0 ∧
      (∀ j, s.lbl j ≠ 0 → s'.lbl j = s.lbl j) ∧ l'.length + unlab C s' = l.length + unlab C s ∧
      ∃ new, l' = l ++ new ∧ s'.pushed = s.pushed ++ new := by
  have hlt := hC.nbs cur hcur nb hnb
  unfold basVisit
  by_cases hc : s.lbl nb = 0
  · rw [if_pos hc]
    obtain ⟨q, hq, hr⟩ := hqRel_push C.P s.hq _ h.rel (C.lev nb) nb (hC.lev nb hlt)
    have hold : ∀ j, s.lbl j ≠ 0 → Function.update s.lbl nb (s.lbl cur) j = s.lbl j := by
      intro j hj
      rw [Function.update_apply, if_neg]
      rintro rfl; exact hj hc
    have hnew : Function.update s.lbl nb (s.lbl cur) nb = s.lbl cur := by simp
    have hcases : ∀ j, j = nb ∨ Function.update s.lbl nb (s.lbl cur) j = s.lbl j := by
      intro j
      by_cases e : j = nb
      · exact Or.inl e
      · right; rw [Function.update_apply, if_neg e]
    have hnz : ∀ j, s.lbl j ≠ 0 → Function.update s.lbl nb (s.lbl cur) j ≠ 0 :=
      fun j hj => by rw [hold j hj]; exact hj
    refine ⟨⟨Function.update s.lbl nb (s.lbl cur), q, s.pushed ++ [nb]⟩, l ++ [nb], by rw [hq]; rfl,
      ⟨?_, ?_, ?_, ?_, ?_, ?_, ?_, ?_⟩, ?_, hold, ?_, [nb], rfl, rfl⟩
    · simpa [FloodCfg.ent] using hr
    · intro i hi
      rcases List.mem_append.mp hi with hi | hi
      · exact ⟨(h.mem i hi).1, hnz i (h.mem i hi).2⟩
      · rw [List.mem_singleton] at hi; subst hi
        exact ⟨hlt, by simpa using hlab⟩
    · intro i hi hm
      have := h.keep i hi hm
      rw [← this]; exact hold i (by rw [this]; exact hm)
    · intro i hi hl hnl hcu j hj
      rw [List.mem_append, List.mem_singleton, not_or] at hnl
      have e := (hcases i).resolve_left hnl.2
      simp only [e] at hl
      exact hnz j (h.done i hi hl hnl.1 hcu j hj)
    · intro i hi hl m hh hm hp
      rcases hcases i with e | e
      · subst e; simp only [hnew] at hl; exact absurd hl hlab
      · simp only [e] at hl; exact h.high i hi hl m hh hm hp
    · intro i hi hl
      rcases hcases i with e | e
      · subst e
        simp only [hnew]
        obtain ⟨m, hh, h1, h2, h3, h4⟩ := h.best cur hcur hlab
        refine ⟨m, max hh (C.lev i), h1, .step (h2.mono (le_max_left _ _)) hnb (le_max_right _ _),
          by omega, fun m' h' hm' hp => ?_⟩
        have h5 := h.high i hi hc m' h' hm' hp
        have h6 := hp.le
        omega
      · simp only [e] at hl ⊢; exact h.best i hi hl
    · rw [List.nodup_append]
      refine ⟨h.nodup, by simp, ?_⟩
      intro a ha b hb
      rw [List.mem_singleton] at hb; subst hb
      rintro rfl
      exact (h.push a ha).2 hc
    · intro i hi
      rcases List.mem_append.mp hi with hi | hi
      · exact ⟨(h.push i hi).1, hnz i (h.push i hi).2⟩
      · rw [List.mem_singleton] at hi; subst hi
        exact ⟨hlt, by simpa using hlab⟩
    · simpa using hlab
    · have := countP_update C.n nb s.lbl (s.lbl cur) hlt hc hlab
      simp only [unlab, List.length_append, List.length_singleton]
      omega
  · rw [if_neg hc]
    exact ⟨s, l, rfl, h, hc, fun _ _ => rfl, rfl, [], by simp, by simp⟩

theorem basVisits_inv {C : FloodCfg} (hC : C.Ok) {mk : Nat → Nat} {cur M : Nat}
    (hcur : cur < C.n) (hM : C.lev cur ≤ M) (js : List Nat) : ∀ {s : BasSt}
    {l : List Nat}, FInv C mk (some cur) M s l → s.lbl cur ≠ 0 → (∀ j ∈ js, j ∈ C.nbs cur) →
    ∃ s' l', js.foldlM (basVisit C cur) s = some s' ∧ FInv C mk (some cur) M s' l' ∧
      (∀ j ∈ js, s'.lbl j ≠ 0) ∧
      (∀ j, s.lbl j ≠ 0 → s'.lbl j = s.lbl j) ∧ l'.length + unlab C s' = l.length + unlab C s ∧
      ∃ new, l' = l ++ new ∧ s'.pushed = s.pushed ++ new := by
  induction js with
  | nil => intro s l h _ _; exact ⟨s, l, rfl, h, by simp, fun _ _ => rfl, rfl, [], by simp, by simp⟩
  | cons j js ih =>
    intro s l h hlab hj
    obtain ⟨s1, l1, h1, h2, h3, h4, h5, n1, k1, k2⟩ := basVisit_inv hC h hcur hlab hM j (hj j (by simp))
    obtain ⟨s2, l2, g1, g2, g3, g4, g5, n2, k3, k4⟩ := ih h2 (by rw [h4 cur hlab]; exact hlab)
      (fun k hk => hj k (by simp [hk]))
    refine ⟨s2, l2, by simp only [List.foldlM_cons, h1]; exact g1, g2, ?_, fun k hk => ?_, g5.trans h5,
      n1 ++ n2, by rw [k3, k1, List.append_assoc], by rw [k4, k2, List.append_assoc]⟩
    · intro k hk
      rcases List.mem_cons.mp hk with rfl | hk
      · rw [g4 _ h3]; exact h3
      · exact g3 k hk
    · have := h4 k hk
      rw [← this]; exact g4 k (by rw [this]; exact hk)

/-- The last labelled pixel on a path that ends at an unlabelled pixel has an unlabelled
neighbour. -/
theorem path_exit {C : FloodCfg} {mk lbl : Nat → Nat} (hC : C.Ok)
    (hk : ∀ i < C.n, mk i ≠ 0 → lbl i = mk i) {m h i : Nat} (hm : mk m ≠ 0) (hp : IPass C h m i)
    (hi : lbl i = 0) : ∃ u j, u < C.n ∧ lbl u ≠ 0 ∧ C.lev u ≤ h ∧ j ∈ C.nbs u ∧ lbl j = 0 := by
  induction hp with
  | base h1 h2 => rw [hk _ h1 hm] at hi; exact absurd hi hm
  | @step u j hp hj hl ih =>
    by_cases hu : lbl u = 0
    · exact ih hu
    · exact ⟨u, j, hp.lt hC, hu, hp.le, hj, hi⟩

/-- A pop from a queue that is not empty. -/
theorem basPop_inv {C : FloodCfg} (hC : C.Ok) {mk : Nat → Nat} {M : Nat} {s : BasSt}
    {l : List Nat} (h : FInv C mk none M s l) (hl : l ≠ []) :
    ∃ cur q a b, s.hq.pop C.P = some (cur, q) ∧ l = a ++ cur :: b ∧ cur < C.n ∧ s.lbl cur ≠ 0 ∧
      (∀ f ∈ l, C.lev cur ≤ C.lev f) ∧
      FInv C mk (some cur) (max M (C.lev cur)) ⟨s.lbl, q, s.pushed⟩ (a ++ b) := by
  obtain ⟨e', l', q', hp, ⟨a', b', hab, rfl, ha, hb⟩, _, hrel⟩ :=
    hqRel_pop C.P hC.P s.hq _ h.rel (by simpa [FloodCfg.ent] using hl)
  unfold FloodCfg.ent at hab
  rw [List.map_eq_append_iff] at hab
  obtain ⟨a, c, rfl, rfl, hc⟩ := hab
  rw [List.map_eq_cons_iff] at hc
  obtain ⟨cur, b, rfl, rfl, rfl⟩ := hc
  rw [hC.rev] at ha hb
  simp only [better_false] at hp ha hb
  have hbest : ∀ f ∈ a ++ cur :: b, C.lev cur ≤ C.lev f := by
    intro f hf
    rcases List.mem_append.mp hf with hf | hf
    · exact le_of_lt (ha (C.lev f, f) (List.mem_map_of_mem hf))
    · rcases List.mem_cons.mp hf with rfl | hf
      · exact le_refl _
      · have := hb (C.lev f, f) (List.mem_map_of_mem hf)
        simp only at this; omega
  have hsub : ∀ f, f ∈ a ++ b → f ∈ a ++ cur :: b := by
    intro f hf
    rcases List.mem_append.mp hf with h | h <;> simp [h]
  have hcur : cur < C.n ∧ s.lbl cur ≠ 0 := h.mem cur (by simp)
  rw [← List.map_append] at hrel
  have hmid : FInv C mk (some cur) (max M (C.lev cur)) ⟨s.lbl, q', s.pushed⟩ (a ++ b) := by
    refine ⟨hrel, fun i hi => h.mem i (hsub i hi), h.keep, ?_, ?_, ?_, h.nodup, h.push⟩
    · intro i hi hl hnl hcu
      refine h.done i hi hl ?_ (by simp)
      intro hmem
      rcases List.mem_append.mp hmem with h1 | h1
      · exact hnl (by simp [h1])
      · rcases List.mem_cons.mp h1 with rfl | h1
        · exact hcu rfl
        · exact hnl (by simp [h1])
    · intro i hi hl m hh hm hp
      refine max_le (h.high i hi hl m hh hm hp) ?_
      obtain ⟨u, j, hu, hul, hule, hj, hj0⟩ := path_exit hC h.keep hm hp hl
      have : u ∈ a ++ cur :: b := by
        by_contra hn
        exact h.done u hu hul hn (by simp) j hj hj0
      exact (hbest u this).trans hule
    · intro i hi hl
      obtain ⟨m, hh, h1, h2, h3, h4⟩ := h.best i hi hl
      exact ⟨m, hh, h1, h2, by omega, h4⟩
  exact ⟨cur, q', a, b, hp, rfl, hcur.1, hcur.2, hbest, hmid⟩

/-- The end of the visit of the neighbours. -/
theorem FInv.close {C : FloodCfg} {mk : Nat → Nat} {cur M : Nat} {s : BasSt} {l : List Nat}
    (h : FInv C mk (some cur) M s l) (hall : ∀ j ∈ C.nbs cur, s.lbl j ≠ 0) : FInv C mk none M s l := by
  refine ⟨h.rel, h.mem, h.keep, ?_, h.high, h.best, h.nodup, h.push⟩
  intro i hi hl hnl _ j hj
  by_cases e : cur = i
  · subst e; exact hall j hj
  · exact h.done i hi hl hnl (by simpa using e) j hj

theorem basStep_inv {C : FloodCfg} (hC : C.Ok) {mk : Nat → Nat} {M : Nat} {s : BasSt}
    {l : List Nat} (h : FInv C mk none M s l) (hl : l ≠ []) :
    ∃ M' s' l', basStep C s = some s' ∧ FInv C mk none M' s' l' ∧
      l'.length + unlab C s' + 1 = l.length + unlab C s := by
  obtain ⟨cur, q', a, b, hp, rfl, hc1, hc2, _, hmid⟩ := basPop_inv hC h hl
  obtain ⟨s2, l2, g1, g2, g3, _, g5, _⟩ := basVisits_inv hC hc1 (le_max_right _ _) (C.nbs cur) hmid
    hc2 (fun _ h => h)
  refine ⟨_, s2, l2, by unfold basStep; rw [hp]; exact g1, g2.close g3, ?_⟩
  rw [g5]; simp [unlab]; omega

theorem basLoop_inv {C : FloodCfg} (hC : C.Ok) {mk : Nat → Nat} (fuel : Nat) :
    ∀ {M : Nat} {s : BasSt} {l : List Nat}, FInv C mk none M s l →
    l.length + unlab C s < fuel → ∃ M' s', basLoop C fuel s = some s' ∧ FInv C mk none M' s' [] := by
  induction fuel with
  | zero => intro M s l _ h; omega
  | succ fuel ih =>
    intro M s l h hf
    unfold basLoop
    by_cases hl : l = []
    · subst hl
      rw [if_pos ((hqRel_isEmpty C.P s.hq _ h.rel).mpr rfl)]
      exact ⟨M, s, rfl, h⟩
    · rw [if_neg (by rw [hqRel_isEmpty C.P s.hq _ h.rel]; simpa [FloodCfg.ent] using hl)]
      obtain ⟨M1, s1, l1, h1, h2, h3⟩ := basStep_inv hC h hl
      obtain ⟨M2, s2, h4, h5⟩ := ih h2 (by omega)
      exact ⟨M2, s2, by rw [h1]; exact h4, h5⟩

theorem markerInit_spec {C : FloodCfg} (hC : C.Ok) (lbl : Nat → Nat) :
    ∃ q, markerInit C lbl = some (q, (List.range C.n).filter fun i => lbl i ≠ 0) ∧
      HQRel C.P q (C.ent ((List.range C.n).filter fun i => lbl i ≠ 0)) := by
  unfold markerInit
  have key : ∀ k ≤ C.n, ∃ q, (List.range k).foldlM (fun s i =>
      if lbl i ≠ 0 then (s.1.push C.P (C.lev i) i).map fun q => (q, s.2 ++ [i]) else some s)
      (HQ.init C.P, ([] : List Nat)) = some (q, (List.range k).filter fun i => lbl i ≠ 0) ∧
      HQRel C.P q (C.ent ((List.range k).filter fun i => lbl i ≠ 0)) := by
    intro k
    induction k with
    | zero => intro _; exact ⟨_, rfl, by simpa [FloodCfg.ent] using hqRel_init C.P hC.P⟩
    | succ k ih =>
      intro hk
      obtain ⟨q, h1, h2⟩ := ih (by omega)
      rw [List.range_succ, List.foldlM_append, h1]
      by_cases h0 : lbl k = 0
      · refine ⟨q, by simp [h0], ?_⟩
        rw [List.filter_append]
        simpa [h0] using h2
      · obtain ⟨q', h3, h4⟩ := hqRel_push C.P q _ h2 (C.lev k) k (hC.lev k (by omega))
        refine ⟨q', by simp [h0, h3], ?_⟩
        rw [List.filter_append]
        simpa [h0, FloodCfg.ent] using h4
  exact key C.n (le_refl _)

theorem filter_countP (n : Nat) (f : Nat → Nat) :
    ((List.range n).filter fun i => f i ≠ 0).length + (List.range n).countP (fun i => f i = 0) = n := by
  rw [← List.countP_eq_length_filter]
  have := List.length_eq_countP_add_countP (fun i => decide (f i ≠ 0)) (l := List.range n)
  rw [List.length_range] at this
  have e : (fun a => decide ¬decide (f a ≠ 0) = true) = fun i => decide (f i = 0) := by
    funext i
    by_cases h : f i = 0 <;> simp [h]
  rw [e] at this
  omega

theorem basRun_spec {C : FloodCfg} (hC : C.Ok) (lbl : Nat → Nat) :
    ∃ s, basRun C lbl = some s ∧ (∀ i < C.n, lbl i ≠ 0 → s.lbl i = lbl i) ∧
      (∀ i < C.n, s.lbl i ≠ 0 → ∃ m h, lbl m = s.lbl i ∧ IPass C h m i ∧
        ∀ m' h', lbl m' ≠ 0 → IPass C h' m' i → h ≤ h') ∧
      (∀ i < C.n, (∃ m h, lbl m ≠ 0 ∧ IPass C h m i) → s.lbl i ≠ 0) ∧
      s.pushed.Nodup ∧ ∀ i ∈ s.pushed, i < C.n := by
  obtain ⟨q, h1, h2⟩ := markerInit_spec hC lbl
  have hinv : FInv C lbl none 0 ⟨lbl, q, (List.range C.n).filter fun i => lbl i ≠ 0⟩
      ((List.range C.n).filter fun i => lbl i ≠ 0) := by
    have hmem : ∀ i, i ∈ ((List.range C.n).filter fun i => lbl i ≠ 0) → i < C.n ∧ lbl i ≠ 0 := by
      intro i hi; rw [List.mem_filter, List.mem_range] at hi
      exact ⟨hi.1, by simpa using hi.2⟩
    refine ⟨h2, hmem, fun _ _ _ => rfl, fun i hi hl hn => ?_, by omega, fun i hi hl => ?_,
      List.nodup_range.filter _, hmem⟩
    · exact absurd (List.mem_filter.mpr ⟨List.mem_range.mpr hi, by simpa using hl⟩) hn
    · exact ⟨i, C.lev i, rfl, .base hi (le_refl _), le_max_right _ _, fun m' h' _ hp => hp.le⟩
  obtain ⟨M, s, h3, h4⟩ := basLoop_inv hC (C.n + 1) hinv (by
    have := filter_countP C.n lbl
    unfold unlab; simp only; omega)
  refine ⟨s, by unfold basRun; rw [h1]; exact h3, h4.keep, fun i hi hl => ?_, ?_, h4.nodup,
    fun i hi => (h4.push i hi).1⟩
  · obtain ⟨m, h, e1, e2, _, e4⟩ := h4.best i hi hl
    exact ⟨m, h, e1, e2, e4⟩
  · rintro i hi ⟨m, h, hm, hp⟩ h0
    obtain ⟨u, j, hu, hul, _, hj, hj0⟩ := path_exit hC h4.keep hm hp h0
    exact h4.done u hu hul (by simp) (by simp) j hj hj0

end Smil
