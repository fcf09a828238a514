import Mathlib.Logic.Function.Basic
import Mathlib.Data.List.Basic

/-!
# Threads between barriers

A parallel region of the code (`#pragma omp parallel`) is a family of thread programs between two
barriers. A thread program is a list of atomic memory steps (one pixel write each); an execution
is an arbitrary interleaving, given as the list of the thread identifiers in the order in which
they move.
-/

namespace Smil

/-- One atomic step: write at `w` a value computed from the locations `rd`. -/
structure Step (L α : Type) where
  w : L
  rd : List L
  val : (L → α) → α
  dep : ∀ m m' : L → α, (∀ r ∈ rd, m r = m' r) → val m = val m'

variable {L α : Type} [DecidableEq L]

/-- Effect of a step on the memory. -/
def Step.exec (m : L → α) (s : Step L α) : L → α := Function.update m s.w (s.val m)

/-- A thread running alone. -/
def execAll (l : List (Step L α)) (m : L → α) : L → α := l.foldl Step.exec m

/-- An interleaving of the threads: at each turn the chosen thread performs its next step (or
nothing if it has finished). Returns the memory and what remains to be done. -/
def runSched : List Nat → (Nat → List (Step L α)) → (L → α) → (L → α) × (Nat → List (Step L α))
  | [], progs, m => (m, progs)
  | t :: ts, progs, m =>
    match progs t with
    | [] => runSched ts progs m
    | s :: r => runSched ts (Function.update progs t r) (s.exec m)

/-- No thread writes where another one reads or writes. -/
def NoConflict (progs : Nat → List (Step L α)) : Prop :=
  ∀ t u, t ≠ u → ∀ s ∈ progs t, ∀ s' ∈ progs u, s.w ≠ s'.w ∧ s.w ∉ s'.rd

theorem execAll_frame (l : List (Step L α)) (m m' : L → α) (x : L)
    (hx : ∀ s ∈ l, x ∉ s.rd) (hm : ∀ loc, loc ≠ x → m loc = m' loc) (loc : L) (hloc : loc ≠ x) :
    execAll l m loc = execAll l m' loc := by
  induction l generalizing m m' with
  | nil => exact hm loc hloc
  | cons s l ih =>
    refine ih (s.exec m) (s.exec m') (fun s hs => hx s (by simp [hs])) ?_
    intro y hy
    unfold Step.exec
    have : s.val m = s.val m' := s.dep _ _ fun r hr => hm r fun e => hx s (by simp) (e ▸ hr)
    rw [this, Function.update_apply, Function.update_apply, hm y hy]

/-- After any complete interleaving of conflict-free threads, a location written by at most the
thread `t` contains what `t` running alone would have left there. -/
theorem runSched_spec (ts : List Nat) (progs : Nat → List (Step L α)) (m : L → α)
    (hn : NoConflict progs) (hdone : ∀ t, (runSched ts progs m).2 t = []) (t : Nat) (loc : L)
    (hloc : ∀ u, u ≠ t → ∀ s ∈ progs u, s.w ≠ loc) :
    (runSched ts progs m).1 loc = execAll (progs t) m loc := by
  induction ts generalizing progs m with
  | nil =>
    simp only [runSched] at hdone ⊢
    rw [hdone t]; rfl
  | cons t0 ts ih =>
    unfold runSched at hdone ⊢
    split at hdone
    · rename_i h0
      exact ih progs m hn hdone hloc
    · rename_i s r h0
      have hmem : ∀ u, ∀ s' ∈ Function.update progs t0 r u, s' ∈ progs u := by
        intro u s' hs'
        rw [Function.update_apply] at hs'
        split at hs'
        · rename_i e; subst e; rw [h0]; exact List.mem_cons_of_mem _ hs'
        · exact hs'
      have hn' : NoConflict (Function.update progs t0 r) := fun a b hab s hs s' hs' =>
        hn a b hab s (hmem a s hs) s' (hmem b s' hs')
      have := ih (Function.update progs t0 r) (s.exec m) hn' hdone
        (fun u hu s' hs' => hloc u hu s' (hmem u s' hs'))
      rw [this]
      by_cases e : t = t0
      · subst e
        rw [Function.update_self, h0]; rfl
      · rw [Function.update_of_ne e]
        have hs : s ∈ progs t0 := by rw [h0]; simp
        refine execAll_frame _ _ _ s.w ?_ ?_ _ ?_
        · intro s' hs'
          exact (hn t0 t (fun h => e h.symm) s hs s' hs').2
        · intro y hy
          unfold Step.exec
          rw [Function.update_of_ne hy]
        · exact fun h => hloc t0 (fun h => e h.symm) s hs h.symm

/-- Two complete interleavings of conflict-free threads leave the same memory. -/
theorem runSched_confluent (ts ts' : List Nat) (progs : Nat → List (Step L α)) (m : L → α)
    (hn : NoConflict progs) (h : ∀ t, (runSched ts progs m).2 t = [])
    (h' : ∀ t, (runSched ts' progs m).2 t = []) :
    (runSched ts progs m).1 = (runSched ts' progs m).1 := by
  funext loc
  by_cases hw : ∃ t, ∃ s ∈ progs t, s.w = loc
  · obtain ⟨t, s, hs, rfl⟩ := hw
    have : ∀ u, u ≠ t → ∀ s' ∈ progs u, s'.w ≠ s.w := fun u hu s' hs' => (hn u t hu s' hs' s hs).1
    rw [runSched_spec ts progs m hn h t _ this, runSched_spec ts' progs m hn h' t _ this]
  · push Not at hw
    have : ∀ u, u ≠ 0 → ∀ s' ∈ progs u, s'.w ≠ loc := fun u _ s' hs' => hw u s' hs'
    rw [runSched_spec ts progs m hn h 0 _ this, runSched_spec ts' progs m hn h' 0 _ this]

/-- The sequential schedule: thread 0 to the end, then thread 1, and so on. -/
def execThreads (n : Nat) (progs : Nat → List (Step L α)) (m : L → α) : L → α :=
  (List.range n).foldl (fun m t => execAll (progs t) m) m

theorem execAll_append (l l' : List (Step L α)) (m : L → α) :
    execAll (l ++ l') m = execAll l' (execAll l m) := by
  unfold execAll; rw [List.foldl_append]

theorem runSched_append (ts ts' : List Nat) (progs : Nat → List (Step L α)) (m : L → α) :
    runSched (ts ++ ts') progs m = runSched ts' (runSched ts progs m).2 (runSched ts progs m).1 := by
  induction ts generalizing progs m with
  | nil => rfl
  | cons t ts ih =>
    rw [List.cons_append]
    simp only [runSched]
    split
    · exact ih _ _
    · exact ih _ _

theorem runSched_replicate (t : Nat) (l : List (Step L α)) (progs : Nat → List (Step L α)) (m : L → α)
    (h : progs t = l) :
    runSched (List.replicate l.length t) progs m = (execAll l m, Function.update progs t []) := by
  induction l generalizing progs m with
  | nil =>
    simp only [List.length_nil, List.replicate_zero, runSched, execAll, List.foldl_nil]
    congr 1
    funext u
    rw [Function.update_apply]; split
    · rename_i e; rw [e, h]
    · rfl
  | cons s l ih =>
    rw [List.length_cons, List.replicate_succ]
    unfold runSched
    rw [h]
    simp only
    rw [ih (Function.update progs t l) (s.exec m) (Function.update_self ..)]
    rw [Function.update_idem]
    rfl

/-- The sequential schedule is one of the interleavings, and it is complete. -/
theorem execThreads_sched (n : Nat) (progs : Nat → List (Step L α)) (m : L → α)
    (hn : ∀ t, n ≤ t → progs t = []) :
    ∃ ts, (runSched ts progs m).1 = execThreads n progs m ∧
      ∀ t, (runSched ts progs m).2 t = [] := by
  have main : ∀ k, ∃ ts, (runSched ts progs m).1 = execThreads k progs m ∧
      ∀ t, (runSched ts progs m).2 t = if t < k then [] else progs t := by
    intro k
    induction k with
    | zero => exact ⟨[], rfl, fun t => by simp [runSched]⟩
    | succ k ih =>
      obtain ⟨ts, h1, h2⟩ := ih
      refine ⟨ts ++ List.replicate (progs k).length k, ?_, ?_⟩
      · rw [runSched_append, runSched_replicate k (progs k) _ _ (by rw [h2]; simp), h1]
        unfold execThreads
        rw [List.range_succ, List.foldl_append]; rfl
      · intro t
        rw [runSched_append, runSched_replicate k (progs k) _ _ (by rw [h2]; simp)]
        simp only [Function.update_apply, h2]
        split_ifs <;> first | rfl | omega
  obtain ⟨ts, h1, h2⟩ := main n
  refine ⟨ts, h1, fun t => ?_⟩
  rw [h2]; split
  · rfl
  · exact hn t (by omega)

end Smil
