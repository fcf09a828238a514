import Verif.HierarQLemmas

/-!
# C34: the hierarchical queue is a stable priority queue
-/

namespace Smil
variable {τ : Type}

/-- Specification of histories: the queue is a list in the order of insertion, a removal takes the
first of the elements of best level. -/
inductive PQRun (nbr : Nat) (rev : Bool) :
    List (HQOp τ) → List (Nat × τ) → List τ → List (Nat × τ) → Prop
  | nil (l) : PQRun nbr rev [] l [] l
  | push {lev x ops l o l'} : lev < nbr → PQRun nbr rev ops (l ++ [(lev, x)]) o l' →
      PQRun nbr rev (.push lev x :: ops) l o l'
  | pop {e ops l l1 o l'} : IsPop rev l e l1 → PQRun nbr rev ops l1 o l' →
      PQRun nbr rev (.pop :: ops) l (e.2 :: o) l'

/-- A history is legal when levels are in range and no removal happens on an empty queue. -/
def legal (nbr : Nat) : List (HQOp τ) → Nat → Prop
  | [], _ => True
  | .push l _ :: ops, n => l < nbr ∧ legal nbr ops (n + 1)
  | .pop :: ops, n => 0 < n ∧ legal nbr ops (n - 1)

theorem run_spec (P : HQParam) (hP : P.Ok) (ops : List (HQOp τ)) (q : HQ τ) (l : List (Nat × τ))
    (h : HQRel P q l) (hl : legal P.nbr ops l.length) :
    ∃ o q' l', HQ.run P ops q = some (o, q') ∧ PQRun P.nbr P.rev ops l o l' ∧ HQRel P q' l' := by
  induction ops generalizing q l with
  | nil => exact ⟨[], q, l, rfl, .nil l, h⟩
  | cons op ops ih =>
    cases op with
    | push lev x =>
      obtain ⟨q1, h1, h2⟩ := hqRel_push P q l h lev x hl.1
      obtain ⟨o, q', l', h3, h4, h5⟩ := ih q1 _ h2 (by simpa using hl.2)
      exact ⟨o, q', l', by simp [HQ.run, h1, h3], .push hl.1 h4, h5⟩
    | pop =>
      have hne : l ≠ [] := by rintro rfl; exact absurd hl.1 (by simp)
      obtain ⟨e, l1, q1, h1, h2, _, h3⟩ := hqRel_pop P hP q l h hne
      have hlen : l1.length = l.length - 1 := by
        obtain ⟨a, b, rfl, rfl, _⟩ := h2; simp
      obtain ⟨o, q', l', h4, h5, h6⟩ := ih q1 l1 h3 (by rw [hlen]; exact hl.2)
      exact ⟨e.2 :: o, q', l', by simp [HQ.run, h1, h4], .pop h2 h5, h6⟩

/-- **C34**: over every legal history of pushes and pops (levels in range, pops on non-empty
queues), for unsigned types and both orders, every pop returns the element of best level that was
pushed first, and the size counts the elements. (partial: unsigned types, see
`C34_signed_bug`.) -/
theorem C34_refinement_partial (t : PT) (rev : Bool) (hs : t.signed = false) (hb : t.bits ≤ 64)
    (ops : List (HQOp τ)) (hl : legal (hqParam t rev).nbr ops 0) :
    ∃ o q' l', HQ.run (hqParam t rev) ops (HQ.init (hqParam t rev)) = some (o, q') ∧
      PQRun (hqParam t rev).nbr rev ops [] o l' ∧ q'.size = l'.length ∧
      (q'.isEmpty = true ↔ l' = []) := by
  have hP := hqParam_ok t rev hs hb
  obtain ⟨o, q', l', h1, h2, h3⟩ := run_spec _ hP ops _ [] (hqRel_init _ hP) hl
  exact ⟨o, q', l', h1, h2, h3.size, hqRel_isEmpty _ _ _ h3⟩

/-- **C34**: the specification determines the outputs. -/
theorem C34_deterministic (nbr : Nat) (rev : Bool) (ops : List (HQOp τ)) (l o o' l1 l1' : _)
    (h : PQRun nbr rev ops l o l1) (h' : PQRun nbr rev ops l o' l1') : o = o' ∧ l1 = l1' := by
  have uniq : ∀ (l : List (Nat × τ)) e l1 e' l1', IsPop rev l e l1 → IsPop rev l e' l1' →
      e = e' ∧ l1 = l1' := by
    rintro l e l1 e' l1' ⟨a, b, rfl, rfl, h1, h2⟩ ⟨a', b', h3, rfl, h4, h5⟩
    have irr : ∀ x y, better rev x y → ¬ better rev y x := by
      intro x y
      cases rev <;> simp only [better_true, better_false] <;> omega
    rw [List.append_eq_append_iff] at h3
    rcases h3 with ⟨c, hc1, hc2⟩ | ⟨c, hc1, hc2⟩
    · cases c with
      | nil =>
        simp only [List.nil_append, List.cons.injEq] at hc2
        simp only [List.append_nil] at hc1
        exact ⟨hc2.1, by rw [hc1, hc2.2]⟩
      | cons x c =>
        simp only [List.cons_append, List.cons.injEq] at hc2
        obtain ⟨rfl, rfl⟩ := hc2
        have := h4 e (by rw [hc1]; simp)
        exact absurd this (h2 e' (by simp))
    · cases c with
      | nil =>
        simp only [List.nil_append, List.cons.injEq] at hc2
        simp only [List.append_nil] at hc1
        exact ⟨hc2.1.symm, by rw [hc1, hc2.2]⟩
      | cons x c =>
        simp only [List.cons_append, List.cons.injEq] at hc2
        obtain ⟨rfl, rfl⟩ := hc2
        have := h1 e' (by rw [hc1]; simp)
        exact absurd this (h5 e (by simp))
  induction h generalizing o' with
  | nil l => cases h'; exact ⟨rfl, rfl⟩
  | push hlt _ ih => cases h' with | push _ h' => exact ih _ h'
  | pop hp _ ih =>
    cases h' with
    | pop hp' h' =>
      obtain ⟨rfl, rfl⟩ := uniq _ _ _ _ _ hp hp'
      obtain ⟨rfl, h⟩ := ih _ h'
      exact ⟨rfl, h⟩

/-- **C34**: an illegal removal is undefined, it never invents an element. -/
theorem C34_pop_empty (P : HQParam) (q : HQ τ) (h : HQRel P q []) : q.pop P = none :=
  hqRel_pop_empty P q h

/-- On signed types the queue is broken in both orders: with the normal order the first pop looks
at the level of 127 (the largest value, not the largest level); in reverse order the search for
the next level stops at that level. Both end in `front()` of an empty queue. -/
theorem C34_signed_bug :
    legal (hqParam INT8 false).nbr [.push 133 1, .pop] 0 ∧
    HQ.run (hqParam INT8 false) [.push 133 1, .pop] (HQ.init (hqParam INT8 false)) = none ∧
    legal (hqParam INT8 true).nbr [.push 133 1, .push 28 2, .pop, .pop] 0 ∧
    HQ.run (hqParam INT8 true) [.push 133 1, .push 28 2, .pop, .pop] (HQ.init (hqParam INT8 true)) =
      none := by
  refine ⟨⟨by decide, by decide, trivial⟩, by rfl,
    ⟨by decide, by decide, by decide, by decide, trivial⟩, by rfl⟩

/-- Specification of FIFO histories with a capacity: `some x` pushes, `none` takes the oldest. -/
inductive FifoRun (cap : Nat) : List (Option τ) → List τ → List τ → List τ → Prop
  | nil (l) : FifoRun cap [] l [] l
  | push {x ops l o l'} : l.length < cap → FifoRun cap ops (l ++ [x]) o l' →
      FifoRun cap (some x :: ops) l o l'
  | pop {x ops l o l'} : FifoRun cap ops l o l' → FifoRun cap (none :: ops) (x :: l) (x :: o) l'

/-- **C34**: the preallocated FIFO behaves as a queue over every history that never holds more
than `max(n + 1, 8)` elements, whatever the number of pushes: the buffer is compacted when its end
is reached. -/
theorem C34_fifo (raw : Nat → τ) (n : Nat) (ops : List (Option τ)) (o l' : List τ)
    (h : FifoRun (max (n + 1) 8) ops [] o l') :
    ∃ q', Fifo.run ops (Fifo.init raw n) = some (o, q') ∧ q'.size = l'.length := by
  have main : ∀ cap ops l (o l' : List τ), FifoRun cap ops l o l' → ∀ q : Fifo τ, FifoRel q l →
      q.realSize = cap → ∃ q', Fifo.run ops q = some (o, q') ∧ q'.size = l'.length := by
    intro cap ops l o l' h
    induction h with
    | nil l => intro q hq _; exact ⟨q, rfl, hq.size⟩
    | push hlt _ ih =>
      rename_i x _ _ _ _ _
      intro q hq hc
      obtain ⟨q1, h1, h2, h3⟩ := (fifoRel_push q _ hq x).1 (hc ▸ hlt)
      obtain ⟨q', h4, h5⟩ := ih q1 h2 (h3.trans hc)
      exact ⟨q', by simp [Fifo.run, h1, h4], h5⟩
    | pop _ ih =>
      intro q hq hc
      obtain ⟨h0, q1, h1, h2, h3⟩ := fifoRel_pop q _ _ hq
      obtain ⟨q', h4, h5⟩ := ih q1 h2 (h3.trans hc)
      exact ⟨q', by simp [Fifo.run, h0, h1, h4], h5⟩
  exact main _ _ _ _ _ h _ (fifoRel_init raw n) rfl

/-- **C34**: pushing on a full preallocated FIFO writes behind the buffer. -/
theorem C34_fifo_overflow (q : Fifo τ) (l : List τ) (h : FifoRel q l) (v : τ)
    (hf : l.length = q.realSize) : q.push v = none :=
  (fifoRel_push q l h v).2 (by omega)

/-! ### Examples -/

/-- A legal history with a better level pushed while another one is active, and its outputs. -/
example : legal (hqParam UINT8 false).nbr
      [.push 7 'a', .push 7 'b', .pop, .push 3 'c', .push 9 'd', .pop, .pop, .pop] 0 ∧
    ((HQ.run (hqParam UINT8 false)
      [.push 7 'a', .push 7 'b', .pop, .push 3 'c', .push 9 'd', .pop, .pop, .pop]
      (HQ.init (hqParam UINT8 false))).map Prod.fst) = some ['a', 'c', 'b', 'd'] :=
  ⟨⟨by decide, by decide, by decide, by decide, by decide, by decide, by decide, by decide, trivial⟩,
    by decide +kernel⟩

/-- A FIFO history longer than the buffer. -/
example : FifoRun (max (2 + 1) 8) [some 1, some 2, none, some 3, none] [] [1, 2] [3] :=
  .push (by decide) (.push (by decide) (.pop (.push (by decide) (.pop (.nil _)))))

end Smil
