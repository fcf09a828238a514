import Verif.Label
import Mathlib.Logic.Relation
import Mathlib.Data.List.Nodup
import Mathlib.Data.List.NodupEquivFin
import Mathlib.Data.Fintype.Card

/-!
# The propagation labels exactly the components
-/

namespace Smil
open Relation

/-- One step of the propagation. -/
def LabCfg.R (C : LabCfg) (i j : Nat) : Prop := j ∈ C.nbs i ∧ C.cmp j i = true

theorem nodup_lt_length {l : List Nat} {n : Nat} (h : l.Nodup) (hl : ∀ j ∈ l, j < n) :
    l.length ≤ n := by
  have : l ⊆ List.range n := fun j hj => List.mem_range.mpr (hl j hj)
  have := (List.subperm_of_subset h this).length_le
  simpa using this

/-- Invariant of one propagation from `i`: `V` are the pixels labelled so far. -/
structure LInv (C : LabCfg) (lab i : Nat) (out0 : Nat → Nat) (V : List Nat) (out : Nat → Nat) :
    Prop where
  nodup : V.Nodup
  lt : ∀ j ∈ V, j < C.n
  reach : ∀ j ∈ V, ReflTransGen C.R i j
  seed : i ∈ V
  val : ∀ j, out j = if j ∈ V then lab else out0 j

theorem LInv.visit {C : LabCfg} {lab i : Nat} {out0 : Nat → Nat} {V : List Nat} {out : Nat → Nat}
    (hlt : ∀ i < C.n, ∀ j ∈ C.nbs i, j < C.n)
    (h0 : ∀ j, ReflTransGen C.R i j → out0 j ≠ lab) (h : LInv C lab i out0 V out) {cur nb : Nat}
    (hc : cur ∈ V) (hnb : nb ∈ C.nbs cur) (q : List Nat) :
    ∃ W, LInv C lab i out0 (V ++ W) (labVisit C lab cur (out, q) nb).1 ∧
      (labVisit C lab cur (out, q) nb).2 = q ++ W ∧ (C.R cur nb → nb ∈ V ++ W) := by
  unfold labVisit
  by_cases hv : nb ∈ V
  · have : out nb = lab := by rw [h.val, if_pos hv]
    rw [if_neg (fun hh => hh.1 this)]
    exact ⟨[], by simpa using h, by simp, fun _ => by simpa using hv⟩
  · by_cases hcmp : C.cmp nb cur = true
    · have hr : ReflTransGen C.R i nb := (h.reach cur hc).tail ⟨hnb, hcmp⟩
      have : out nb ≠ lab := by rw [h.val, if_neg hv]; exact h0 nb hr
      rw [if_pos ⟨this, hcmp⟩]
      refine ⟨[nb], ⟨?_, ?_, ?_, ?_, ?_⟩, rfl, fun _ => by simp⟩
      · rw [List.nodup_append]
        refine ⟨h.nodup, by simp, ?_⟩
        intro a ha b hb
        rw [List.mem_singleton] at hb
        rintro rfl; exact hv (hb ▸ ha)
      · intro j hj
        rcases List.mem_append.mp hj with hj | hj
        · exact h.lt j hj
        · rw [List.mem_singleton] at hj; subst hj; exact hlt cur (h.lt cur hc) _ hnb
      · intro j hj
        rcases List.mem_append.mp hj with hj | hj
        · exact h.reach j hj
        · rw [List.mem_singleton] at hj; subst hj; exact hr
      · exact List.mem_append_left _ h.seed
      · intro j
        by_cases hj : j = nb
        · subst hj; simp
        · have e : Function.update out nb lab j = out j := Function.update_of_ne hj _ _
          simp only [e, h.val]; simp [hj]
    · rw [if_neg (fun hh => hcmp hh.2)]
      exact ⟨[], by simpa using h, by simp, fun hh => absurd hh.2 hcmp⟩

theorem LInv.visits {C : LabCfg} {lab i : Nat} {out0 : Nat → Nat}
    (hlt : ∀ i < C.n, ∀ j ∈ C.nbs i, j < C.n)
    (h0 : ∀ j, ReflTransGen C.R i j → out0 j ≠ lab) {cur : Nat} (l : List Nat)
    (hl : ∀ nb ∈ l, nb ∈ C.nbs cur) : ∀ {V : List Nat} {out : Nat → Nat} (q : List Nat),
    LInv C lab i out0 V out → cur ∈ V →
    ∃ W, LInv C lab i out0 (V ++ W) (l.foldl (labVisit C lab cur) (out, q)).1 ∧
      (l.foldl (labVisit C lab cur) (out, q)).2 = q ++ W ∧ ∀ nb ∈ l, C.R cur nb → nb ∈ V ++ W := by
  induction l with
  | nil => intro V out q h _; exact ⟨[], by simpa using h, by simp, by simp⟩
  | cons a l ih =>
    intro V out q h hc
    obtain ⟨W, h1, h2, h3⟩ := h.visit hlt h0 hc (hl a (by simp)) q
    rw [List.foldl_cons]
    generalize labVisit C lab cur (out, q) a = s at *
    obtain ⟨o', q'⟩ := s
    simp only at h1 h2
    subst h2
    obtain ⟨W', g1, g2, g3⟩ := ih (fun nb hnb => hl nb (by simp [hnb])) (q ++ W) h1
      (List.mem_append_left _ hc)
    refine ⟨W ++ W', by rw [← List.append_assoc]; exact g1, by rw [g2, List.append_assoc], ?_⟩
    intro nb hnb hr
    rw [← List.append_assoc]
    rcases List.mem_cons.mp hnb with rfl | hnb
    · exact List.mem_append_left _ (h3 hr)
    · exact g3 nb hnb hr

/-- The propagation terminates and relabels exactly what can be reached from the seed. -/
theorem labBfs_spec {C : LabCfg} {lab i : Nat} {out0 : Nat → Nat}
    (hlt : ∀ i < C.n, ∀ j ∈ C.nbs i, j < C.n)
    (h0 : ∀ j, ReflTransGen C.R i j → out0 j ≠ lab) : ∀ (fuel : Nat) (D q : List Nat)
    (out : Nat → Nat), LInv C lab i out0 (D ++ q) out → C.n + 1 ≤ fuel + D.length →
    (∀ j ∈ D, ∀ k, C.R j k → k ∈ D ++ q) →
    ∃ o, labBfs C lab fuel out q = some o ∧
      (∀ j, ReflTransGen C.R i j → o j = lab) ∧ ∀ j, ¬ ReflTransGen C.R i j → o j = out0 j := by
  intro fuel
  induction fuel with
  | zero =>
    intro D q out h hf _
    have := nodup_lt_length h.nodup h.lt
    rw [List.length_append] at this; omega
  | succ fuel ih =>
    intro D q out h hf hcl
    cases q with
    | nil =>
      refine ⟨out, rfl, ?_, ?_⟩
      · intro j hj
        rw [h.val, if_pos]
        induction hj with
        | refl => exact h.seed
        | tail _ hbc ihj => exact hcl _ (by simpa using ihj) _ hbc
      · intro j hj
        rw [h.val, if_neg]
        intro hm; exact hj (h.reach j hm)
    | cons cur q =>
      have hc : cur ∈ D ++ cur :: q := by simp
      obtain ⟨W, h1, h2, h3⟩ := h.visits hlt h0 (C.nbs cur) (fun _ h => h) (cur :: q) hc
      unfold labBfs
      simp only
      rw [h2]
      have e : D ++ cur :: q ++ W = (D ++ [cur]) ++ (q ++ W) := by simp
      rw [e] at h1 h3
      refine ih (D ++ [cur]) (q ++ W) _ h1 (by simp; omega) ?_
      intro j hj k hk
      rcases List.mem_append.mp hj with hj | hj
      · have := hcl j hj k hk
        rw [← e]; exact List.mem_append_left _ this
      · rw [List.mem_singleton] at hj; subst hj
        exact h3 k hk.1 hk

/-- The label of the `k`-th component. -/
def labNo (top : Nat) : Nat → Nat
  | 0 => 0
  | k + 1 => nextLab top (labNo top k)

theorem labNo_pos (top k : Nat) : 1 ≤ labNo top (k + 1) := by
  unfold labNo nextLab; split <;> omega

theorem labNo_small (top : Nat) : ∀ k, k < top → labNo top k = k
  | 0, _ => rfl
  | k + 1, h => by
    unfold labNo nextLab
    rw [labNo_small top k (by omega), if_neg (by omega)]

theorem labNo_lt (top : Nat) (ht : 2 ≤ top) : ∀ k, labNo top k < top
  | 0 => by unfold labNo; omega
  | k + 1 => by
    have := labNo_lt top ht k
    unfold labNo nextLab; split <;> omega

/-- The labels start again at one: closed form. -/
theorem labNo_eq (top : Nat) (ht : 2 ≤ top) (k : Nat) : labNo top (k + 1) = k % (top - 1) + 1 := by
  induction k with
  | zero =>
    unfold labNo nextLab labNo
    split
    · omega
    · simp
  | succ k ih =>
    rw [labNo, ih, nextLab]
    have hm := Nat.mod_lt k (show 0 < top - 1 by omega)
    by_cases h : k % (top - 1) + 1 + 1 = top
    · rw [if_pos h]
      have : (k + 1) % (top - 1) = 0 := by
        by_cases h2 : top - 1 = 1
        · rw [h2, Nat.mod_one]
        · have h3 : 1 % (top - 1) = 1 := Nat.mod_eq_of_lt (by omega)
          rw [Nat.add_mod_eq_sub, h3]; split <;> omega
      omega
    · rw [if_neg h]
      have : (k + 1) % (top - 1) = k % (top - 1) + 1 := by
        have h3 : 1 % (top - 1) = 1 := Nat.mod_eq_of_lt (by omega)
        rw [Nat.add_mod_eq_sub, h3]; split <;> omega
      omega

/-- `f` is the first pixel, in raster order, that starts a component. -/
def LabCfg.First (C : LabCfg) (f : Nat) : Prop :=
  C.keep f = true ∧ ∀ j < f, C.keep j = true → ¬ ReflTransGen C.R j f

open Classical in
/-- The number of components started before pixel `m`. -/
noncomputable def LabCfg.rank (C : LabCfg) (m : Nat) : Nat :=
  ((List.range m).filter fun f => decide (C.First f)).length

theorem LabCfg.rank_succ_pos {C : LabCfg} {m : Nat} (h : C.First m) :
    C.rank (m + 1) = C.rank m + 1 := by
  unfold rank; rw [List.range_succ, List.filter_append]; simp [h]

theorem LabCfg.rank_succ_neg {C : LabCfg} {m : Nat} (h : ¬ C.First m) :
    C.rank (m + 1) = C.rank m := by
  unfold rank; rw [List.range_succ, List.filter_append]; simp [h]

theorem LabCfg.rank_mono {C : LabCfg} : Monotone C.rank := by
  refine monotone_nat_of_le_succ fun m => ?_
  by_cases h : C.First m
  · rw [rank_succ_pos h]; omega
  · rw [rank_succ_neg h]

theorem LabCfg.rank_surj {C : LabCfg} : ∀ m k, 1 ≤ k → k ≤ C.rank m →
    ∃ f < m, C.First f ∧ C.rank (f + 1) = k
  | 0, k, h1, h2 => by simp [rank] at h2; omega
  | m + 1, k, h1, h2 => by
    by_cases h : C.First m
    · rw [rank_succ_pos h] at h2
      rcases Nat.lt_or_ge (C.rank m) k with h3 | h3
      · exact ⟨m, by omega, h, by rw [rank_succ_pos h]; omega⟩
      · obtain ⟨f, hf, h4⟩ := rank_surj m k h1 h3
        exact ⟨f, by omega, h4⟩
    · rw [rank_succ_neg h] at h2
      obtain ⟨f, hf, h4⟩ := rank_surj m k h1 h2
      exact ⟨f, by omega, h4⟩

theorem LabCfg.exists_first {C : LabCfg} {i : Nat} (hk : ∃ j, C.keep j = true ∧ ReflTransGen C.R j i) :
    ∃ f, C.First f ∧ ReflTransGen C.R f i ∧ ∀ j, C.keep j = true → ReflTransGen C.R j i → f ≤ j := by
  classical
  have hs := Nat.find_spec hk
  refine ⟨Nat.find hk, ⟨hs.1, fun j hj hkj hr => Nat.find_min hk hj ⟨hkj, hr.trans hs.2⟩⟩, hs.2,
    fun j h1 h2 => Nat.find_min' hk ⟨h1, h2⟩⟩

/-- State after the pixels below `m`. -/
structure LOut (C : LabCfg) (m : Nat) (s : LabSt) : Prop where
  real : s.real = C.rank m
  labels : s.labels = labNo C.top (C.rank m)
  hit : ∀ f < m, C.First f → ∀ j, ReflTransGen C.R f j → s.out j = labNo C.top (C.rank (f + 1))
  miss : ∀ j, (∀ f < m, C.First f → ¬ ReflTransGen C.R f j) → s.out j = 0

theorem labPixel_spec {C : LabCfg} (hlt : ∀ i < C.n, ∀ j ∈ C.nbs i, j < C.n)
    (hsym : ∀ i < C.n, ∀ j, ReflTransGen C.R i j → ReflTransGen C.R j i) {m : Nat} (hm : m < C.n) {s : LabSt}
    (h : LOut C m s) : ∃ s', labPixel C s m = some s' ∧ LOut C (m + 1) s' := by
  unfold labPixel
  by_cases hF : C.First m
  · have hk := hF.1
    have hclean : ∀ j, ReflTransGen C.R m j → s.out j = 0 := by
      intro j hj
      refine h.miss j fun f hf hff hr => ?_
      exact hF.2 f hf hff.1 (hr.trans (hsym _ hm _ hj))
    rw [if_neg (by rw [hk, hclean m .refl]; simp)]
    have hl : nextLab C.top s.labels = labNo C.top (C.rank (m + 1)) := by
      rw [h.labels, LabCfg.rank_succ_pos hF]; rfl
    have hpos : 1 ≤ labNo C.top (C.rank (m + 1)) := by
      rw [LabCfg.rank_succ_pos hF]; exact labNo_pos _ _
    simp only [hl]
    generalize labNo C.top (C.rank (m + 1)) = lab at *
    have h0 : ∀ j, ReflTransGen C.R m j → s.out j ≠ lab := fun j hj => by
      rw [hclean j hj]; omega
    obtain ⟨o, ho, h1, h2⟩ := labBfs_spec (lab := lab) hlt h0 (C.n + 1) [] [m]
      (Function.update s.out m lab) ⟨by simp, by simpa using hm, by
        simpa using ReflTransGen.refl, by simp, fun j => by
          by_cases hj : j = m
          · subst hj; simp
          · simp [hj]⟩ (by simp) (by simp)
    rw [ho]
    refine ⟨⟨o, lab, s.real + 1⟩, rfl, ?_, ?_, ?_, ?_⟩
    · simp only [h.real, LabCfg.rank_succ_pos hF]
    · simp only [← hl, h.labels, LabCfg.rank_succ_pos hF]; rfl
    · intro f hf hff j hj
      rcases Nat.lt_or_ge f m with hfm | hfm
      · rw [← h.hit f hfm hff j hj]
        exact h2 j fun hr => hF.2 f hfm hff.1 (hj.trans (hsym _ hm _ hr))
      · obtain rfl : f = m := by omega
        refine (h1 j hj).trans ?_
        rw [← hl, h.labels, LabCfg.rank_succ_pos hF]; rfl
    · intro j hj
      refine (h2 j (hj m (by omega) hF)).trans ?_
      exact h.miss j fun f hf => hj f (by omega)
  · have hskip : C.keep m = false ∨ s.out m ≠ 0 := by
      by_cases hk : C.keep m = true
      · right
        have : ∃ j < m, C.keep j = true ∧ ReflTransGen C.R j m := by
          by_contra hcon
          push Not at hcon
          exact hF ⟨hk, fun j hj hkj => hcon j hj hkj⟩
        obtain ⟨j, hj, hkj, hr⟩ := this
        obtain ⟨f, hf, hfr, hmin⟩ := LabCfg.exists_first (C := C) (i := m) ⟨j, hkj, hr⟩
        have hfm : f < m := lt_of_le_of_lt (hmin j hkj hr) hj
        rw [h.hit f hfm hf m hfr, LabCfg.rank_succ_pos hf]
        have := labNo_pos C.top (C.rank f)
        omega
      · left; simpa using hk
    rw [if_pos hskip]
    refine ⟨s, rfl, ?_, ?_, ?_, ?_⟩
    · rw [LabCfg.rank_succ_neg hF]; exact h.real
    · rw [LabCfg.rank_succ_neg hF]; exact h.labels
    · intro f hf hff
      have : f ≠ m := fun e => hF (e ▸ hff)
      exact h.hit f (by omega) hff
    · intro j hj
      exact h.miss j fun f hf => hj f (by omega)

/-- The whole run, for a symmetric reachability. -/
theorem labRun_spec {C : LabCfg} (hlt : ∀ i < C.n, ∀ j ∈ C.nbs i, j < C.n)
    (hsym : ∀ i < C.n, ∀ j, ReflTransGen C.R i j → ReflTransGen C.R j i) :
    ∃ s, labRun C = some s ∧ LOut C C.n s := by
  have : ∀ m, m ≤ C.n → ∃ s, (List.range m).foldlM (labPixel C) ⟨fun _ => 0, 0, 0⟩ = some s ∧
      LOut C m s := by
    intro m
    induction m with
    | zero =>
      intro _
      exact ⟨_, rfl, by simp [LabCfg.rank], by simp [LabCfg.rank, labNo], by simp, by simp⟩
    | succ m ih =>
      intro hm
      obtain ⟨s, h1, h2⟩ := ih (by omega)
      obtain ⟨s', h3, h4⟩ := labPixel_spec hlt hsym (m := m) (by omega) h2
      refine ⟨s', ?_, h4⟩
      rw [List.range_succ, List.foldlM_append, h1]
      simp [h3]
  exact this C.n le_rfl

/-- The result at one pixel: its label is the number of the component, counted by first pixels. -/
theorem LOut.val {C : LabCfg} {s : LabSt} (h : LOut C C.n s) (i : Nat)
    (hk : ∃ j, C.keep j = true ∧ ReflTransGen C.R j i)
    (hlt : ∀ j, C.keep j = true → ReflTransGen C.R j i → j < C.n) :
    ∃ f, C.First f ∧ f < C.n ∧ ReflTransGen C.R f i ∧
      s.out i = labNo C.top (C.rank (f + 1)) := by
  obtain ⟨f, hf, hr, hmin⟩ := LabCfg.exists_first hk
  obtain ⟨j, hj⟩ := hk
  have := lt_of_le_of_lt (hmin j hj.1 hj.2) (hlt j hj.1 hj.2)
  exact ⟨f, hf, this, hr, h.hit f this hf i hr⟩

end Smil
