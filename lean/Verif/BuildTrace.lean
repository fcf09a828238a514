import Verif.BuildLemmas

/-!
# The pushes made by the reconstruction queue

The functions of `Verif.Build` with a log of the arguments of `hq.push`.
-/

namespace Smil
variable {α : Type}

/-- `buildVisit` with a log. -/
def buildVisitT (C : BuildCfg α) (cur : Nat) (s : BuildSt α × List Nat) (nb : Nat) :
    Option (BuildSt α × List Nat) :=
  (buildVisit C cur s.1 nb).map fun r =>
    (r, if s.1.stat nb = .candidate then s.2 ++ [nb] else s.2)

/-- `buildStep` with a log. -/
def buildStepT (C : BuildCfg α) (s : BuildSt α × List Nat) : Option (BuildSt α × List Nat) :=
  (s.1.hq.pop C.P).bind fun r =>
    (C.nbs r.1).foldlM (buildVisitT C r.1) (⟨s.1.val, Function.update s.1.stat r.1 .final, r.2⟩, s.2)

/-- `buildLoop` with a log. -/
def buildLoopT (C : BuildCfg α) : Nat → BuildSt α × List Nat → Option (BuildSt α × List Nat)
  | 0, _ => none
  | fuel + 1, s => if s.1.hq.isEmpty then some s else (buildStepT C s).bind (buildLoopT C fuel)

/-- `buildRun` with a log, which starts with the pushes of the initialisation. -/
def buildRunT (C : BuildCfg α) (keep : α → Bool) (val : Nat → α) (stat : Nat → HQStat) (n : Nat) :
    Option (BuildSt α × List Nat) :=
  (buildInit C.P C.lev keep val n).bind fun q =>
    buildLoopT C (2 * n + 1) (⟨val, stat, q⟩, (List.range n).filter fun i => keep (val i))

/-- The log `new` after the initialisation has no repetition, and its pixels are no candidates any
more. -/
def TrInv (log0 : List Nat) (s : BuildSt α × List Nat) : Prop :=
  ∃ new, s.2 = log0 ++ new ∧ new.Nodup ∧ ∀ i ∈ new, s.1.stat i ≠ .candidate

theorem visitT_inv {C : BuildCfg α} {cur nb : Nat} {log0 : List Nat} {s : BuildSt α × List Nat}
    (h : TrInv log0 s) {r : BuildSt α} (hr : buildVisit C cur s.1 nb = some r) :
    ∃ log, buildVisitT C cur s nb = some (r, log) ∧ TrInv log0 (r, log) := by
  refine ⟨_, by unfold buildVisitT; rw [hr]; rfl, ?_⟩
  obtain ⟨new, h1, h2, h3⟩ := h
  unfold buildVisit at hr
  by_cases hc : s.1.stat nb = .candidate
  · rw [if_pos hc] at hr
    simp only [Option.map_eq_some_iff] at hr
    obtain ⟨q, _, rfl⟩ := hr
    simp only [if_pos hc]
    refine ⟨new ++ [nb], by rw [h1, List.append_assoc], ?_, ?_⟩
    · rw [List.nodup_append]
      refine ⟨h2, by simp, ?_⟩
      rintro a ha b hb rfl
      rw [List.mem_singleton] at hb; subst hb
      exact h3 _ ha hc
    · intro i hi
      simp only [Function.update_apply]
      split
      · simp
      · rcases List.mem_append.mp hi with hi | hi
        · exact h3 i hi
        · rw [List.mem_singleton] at hi; contradiction
  · rw [if_neg hc] at hr
    cases hr
    simp only [if_neg hc]
    exact ⟨new, h1, h2, h3⟩

theorem visitsT_inv {C : BuildCfg α} {cur : Nat} {log0 : List Nat} (js : List Nat) :
    ∀ {s : BuildSt α × List Nat} {r : BuildSt α}, TrInv log0 s →
    js.foldlM (buildVisit C cur) s.1 = some r →
    ∃ log, js.foldlM (buildVisitT C cur) s = some (r, log) ∧ TrInv log0 (r, log) := by
  induction js with
  | nil => intro s r h hr; cases hr; exact ⟨s.2, rfl, h⟩
  | cons j js ih =>
    intro s r h hr
    rw [List.foldlM_cons] at hr
    cases hv : buildVisit C cur s.1 j with
    | none => rw [hv] at hr; cases hr
    | some r1 =>
      rw [hv] at hr
      obtain ⟨log, h1, h2⟩ := visitT_inv h hv
      obtain ⟨log', h3, h4⟩ := ih (s := (r1, log)) h2 hr
      exact ⟨log', by rw [List.foldlM_cons, h1]; exact h3, h4⟩

theorem stepT_inv {C : BuildCfg α} {log0 : List Nat} {s : BuildSt α × List Nat} {r : BuildSt α}
    (h : TrInv log0 s) (hr : buildStep C s.1 = some r) :
    ∃ log, buildStepT C s = some (r, log) ∧ TrInv log0 (r, log) := by
  unfold buildStep at hr
  unfold buildStepT
  cases hp : s.1.hq.pop C.P with
  | none => rw [hp] at hr; cases hr
  | some x =>
    rw [hp] at hr
    refine visitsT_inv (C.nbs x.1)
      (s := (⟨s.1.val, Function.update s.1.stat x.1 .final, x.2⟩, s.2)) ?_ hr
    obtain ⟨new, h1, h2, h3⟩ := h
    refine ⟨new, h1, h2, fun i hi => ?_⟩
    simp only [Function.update_apply]
    split
    · simp
    · exact h3 i hi

theorem loopT_inv {C : BuildCfg α} {log0 : List Nat} (fuel : Nat) :
    ∀ {s : BuildSt α × List Nat} {r : BuildSt α}, TrInv log0 s → buildLoop C fuel s.1 = some r →
    ∃ log, buildLoopT C fuel s = some (r, log) ∧ TrInv log0 (r, log) := by
  induction fuel with
  | zero => intro s r _ hr; cases hr
  | succ fuel ih =>
    intro s r h hr
    unfold buildLoop at hr
    unfold buildLoopT
    by_cases he : s.1.hq.isEmpty = true
    · rw [if_pos he] at hr ⊢; cases hr; exact ⟨s.2, rfl, h⟩
    · rw [if_neg he] at hr ⊢
      cases hs : buildStep C s.1 with
      | none => rw [hs] at hr; cases hr
      | some r1 =>
        rw [hs] at hr
        obtain ⟨log, h1, h2⟩ := stepT_inv h hs
        obtain ⟨log', h3, h4⟩ := ih (s := (r1, log)) h2 hr
        exact ⟨log', by rw [h1]; exact h3, h4⟩

/-- The log of a run contains each pixel at most twice. -/
theorem buildRunT_spec {C : BuildCfg α} {keep : α → Bool} {val : Nat → α} {stat : Nat → HQStat}
    {n : Nat} {s : BuildSt α} (h : buildRun C keep val stat n = some s) :
    ∃ pushed, buildRunT C keep val stat n = some (s, pushed) ∧ ∀ i, pushed.count i ≤ 2 := by
  unfold buildRun at h
  unfold buildRunT
  cases hi : buildInit C.P C.lev keep val n with
  | none => rw [hi] at h; cases h
  | some q =>
    rw [hi] at h
    obtain ⟨log, h1, new, h2, h3, _⟩ := loopT_inv
      (log0 := (List.range n).filter fun i => keep (val i)) (2 * n + 1)
      (s := (⟨val, stat, q⟩, (List.range n).filter fun i => keep (val i)))
      ⟨[], by simp, by simp, by simp⟩ h
    refine ⟨log, h1, fun i => ?_⟩
    simp only at h2
    rw [h2, List.count_append]
    have a1 := List.nodup_iff_count_le_one.mp (List.nodup_range (n := n) |>.filter fun i => keep (val i)) i
    have a2 := List.nodup_iff_count_le_one.mp h3 i
    omega

end Smil
