import Verif.HierarQ

/-!
# The hierarchical queue refines a stable priority queue: lemmas
-/

namespace Smil
variable {τ : Type}

/-- `a` is a strictly better level than `b`. -/
def better (rev : Bool) (a b : Nat) : Prop := if rev = true then b < a else a < b

theorem better_true (a b : Nat) : better true a b ↔ b < a := by simp [better]
theorem better_false (a b : Nat) : better false a b ↔ a < b := by simp [better]

/-- Specification of a removal: the queue is the list of its elements in the order of insertion;
`e` is the first of the elements of best level. -/
def IsPop (rev : Bool) (l : List (Nat × τ)) (e : Nat × τ) (l' : List (Nat × τ)) : Prop :=
  ∃ a b, l = a ++ e :: b ∧ l' = a ++ b ∧ (∀ f ∈ a, better rev e.1 f.1) ∧
    ∀ f ∈ b, ¬ better rev f.1 e.1

/-- The queue `q` holds the elements `l` (in order of insertion). -/
structure HQRel (P : HQParam) (q : HQ τ) (l : List (Nat × τ)) : Prop where
  stk : ∀ i, q.stk i = (l.filter fun e => e.1 = i).map Prod.snd
  tok : ∀ i, q.tokenNbr i = (q.stk i).length
  size : q.size = l.length
  lt : ∀ e ∈ l, e.1 < P.nbr
  best : ∀ e ∈ l, ¬ better P.rev e.1 q.higherLevel
  att : l ≠ [] → ∃ e ∈ l, e.1 = q.higherLevel
  empty : l = [] → if P.rev = true then q.higherLevel = 0 else P.nbr ≤ q.higherLevel + 1

/-- What the code needs of the constants: the largest value is the last level (unsigned types). -/
def HQParam.Ok (P : HQParam) : Prop := P.gmax + 1 = P.nbr ∧ P.nbr ≤ 2 ^ 64

theorem hqParam_ok (t : PT) (rev : Bool) (hs : t.signed = false) (hb : t.bits ≤ 64) :
    (hqParam t rev).Ok := by
  unfold HQParam.Ok hqParam PT.card PT.lo PT.hi
  simp only [hs]
  have h := Nat.one_le_two_pow (n := t.bits)
  have h2 : (2 : Nat) ^ t.bits ≤ 2 ^ 64 := Nat.pow_le_pow_right (by norm_num) hb
  generalize 2 ^ t.bits = n at *
  constructor
  · simp; omega
  · simp; omega

theorem hqLevel_lt {t : PT} (rev : Bool) (a : Px t) : hqLevel a < (hqParam t rev).nbr := by
  unfold hqLevel hqParam PT.card
  have := a.lo_le; have := a.le_hi
  simp only
  omega

theorem hqLevel_lt_iff {t : PT} (a b : Px t) : hqLevel a < hqLevel b ↔ a < b := by
  unfold hqLevel
  rw [Px.lt_iff]
  have := a.lo_le; have := b.lo_le
  omega

theorem hqRel_init (P : HQParam) (hP : P.Ok) : HQRel P (HQ.init P : HQ τ) [] := by
  refine ⟨fun _ => rfl, fun _ => rfl, rfl, by simp, by simp, by simp, fun _ => ?_⟩
  unfold HQ.init
  have := hP.1
  cases P.rev
  · simp; omega
  · simp

theorem hqRel_push (P : HQParam) (q : HQ τ) (l : List (Nat × τ)) (h : HQRel P q l)
    (lev : Nat) (x : τ) (hl : lev < P.nbr) :
    ∃ q', q.push P lev x = some q' ∧ HQRel P q' (l ++ [(lev, x)]) := by
  refine ⟨_, by unfold HQ.push; rw [if_pos hl], ?_⟩
  refine ⟨?_, ?_, by simp [h.size], ?_, ?_, ?_, by simp⟩
  · intro i
    simp only [Function.update_apply]
    rw [List.filter_append, List.map_append, ← h.stk i]
    split
    · rename_i e; subst e; simp
    · rename_i e; simp [Ne.symm e]
  · intro i
    simp only [Function.update_apply]
    split
    · simp [h.tok]
    · exact h.tok i
  · intro e he
    rcases List.mem_append.mp he with he | he
    · exact h.lt e he
    · rw [List.mem_singleton] at he; subst he; exact hl
  · intro e he
    simp only
    have hemp := h.empty
    have hb := h.best
    cases hr : P.rev
    · simp only [better_false, hr, Bool.false_eq_true, if_false] at *
      rcases List.mem_append.mp he with he | he
      · have := hb e he
        split <;> omega
      · rw [List.mem_singleton] at he; subst he
        simp only
        split <;> omega
    · simp only [better_true, hr, if_true] at *
      rcases List.mem_append.mp he with he | he
      · have := hb e he
        split <;> omega
      · rw [List.mem_singleton] at he; subst he
        simp only
        split <;> omega
  · intro _
    simp only
    have hemp := h.empty
    have hatt := h.att
    by_cases hll : l = []
    · subst hll
      refine ⟨(lev, x), by simp, ?_⟩
      cases hr : P.rev
      · simp only [hr, Bool.false_eq_true, if_false, forall_const] at *
        split <;> omega
      · simp only [hr, if_true, forall_const] at *
        split <;> omega
    · obtain ⟨e, he, hee⟩ := hatt hll
      have key : ∀ c : Prop, [Decidable c] → ∃ f ∈ l ++ [(lev, x)],
          f.1 = if c then lev else q.higherLevel := by
        intro c _
        by_cases hc : c
        · exact ⟨(lev, x), by simp, by simp [hc]⟩
        · exact ⟨e, by simp [he], by simp [hc, hee]⟩
      cases P.rev
      · simpa using key (lev < q.higherLevel)
      · simpa using key (lev > q.higherLevel)

theorem scanUp_spec (tok : Nat → Nat) (k i j : Nat) (hj : i ≤ j ∧ j < i + k) (ht : 0 < tok j) :
    ∃ m, HQ.scanUp tok i k = some m ∧ i ≤ m ∧ m ≤ j ∧ 0 < tok m ∧ ∀ n, i ≤ n → n < m → tok n = 0 := by
  induction k generalizing i with
  | zero => omega
  | succ k ih =>
    unfold HQ.scanUp
    by_cases h : tok i > 0
    · exact ⟨i, by rw [if_pos h], by omega, by omega, h, by omega⟩
    · have hij : i ≠ j := by rintro rfl; omega
      obtain ⟨m, h1, h2, h3, h4, h5⟩ := ih (i + 1) (by omega)
      refine ⟨m, by rw [if_neg h]; exact h1, by omega, h3, h4, fun n hn hm => ?_⟩
      by_cases e : n = i
      · subst e; omega
      · exact h5 n (by omega) hm

theorem scanDown_spec (gmax : Nat) (tok : Nat → Nat) (n j : Nat) (hn : n ≤ gmax) (hj : j < n)
    (ht : 0 < tok j) :
    ∃ m, HQ.scanDown gmax tok n = some (some m) ∧ j ≤ m ∧ m < n ∧ 0 < tok m ∧
      ∀ i, m < i → i < n → tok i = 0 := by
  induction n with
  | zero => omega
  | succ n ih =>
    unfold HQ.scanDown
    rw [if_neg (by omega)]
    by_cases h : tok n > 0
    · exact ⟨n, by rw [if_pos h], by omega, by omega, h, by omega⟩
    · have hij : n ≠ j := by rintro rfl; omega
      obtain ⟨m, h1, h2, h3, h4, h5⟩ := ih (by omega) (by omega)
      refine ⟨m, by rw [if_neg h]; exact h1, h2, by omega, h4, fun i hi hm => ?_⟩
      by_cases e : i = n
      · subst e; omega
      · exact h5 i hi (by omega)

/-- The first element of a list satisfying a predicate. -/
theorem split_first (p : Nat × τ → Bool) (l : List (Nat × τ)) (e : Nat × τ) (rest : List (Nat × τ))
    (h : l.filter p = e :: rest) :
    ∃ a b, l = a ++ e :: b ∧ (∀ f ∈ a, p f = false) ∧ b.filter p = rest ∧ p e = true := by
  induction l with
  | nil => simp at h
  | cons f l ih =>
    by_cases hf : p f = true
    · rw [List.filter_cons_of_pos hf] at h
      cases h
      exact ⟨[], l, rfl, by simp, rfl, hf⟩
    · rw [List.filter_cons_of_neg hf] at h
      obtain ⟨a, b, h1, h2, h3, h4⟩ := ih h
      refine ⟨f :: a, b, by rw [h1]; rfl, ?_, h3, h4⟩
      intro g hg
      rcases List.mem_cons.mp hg with rfl | hg
      · simpa using hf
      · exact h2 g hg

theorem hqRel_pop (P : HQParam) (hP : P.Ok) (q : HQ τ) (l : List (Nat × τ)) (h : HQRel P q l)
    (hl : l ≠ []) :
    ∃ e l' q', q.pop P = some (e.2, q') ∧ IsPop P.rev l e l' ∧ e.1 = q.higherLevel ∧
      HQRel P q' l' := by
  obtain ⟨e0, he0, hh0⟩ := h.att hl
  have hlt : q.higherLevel < P.nbr := hh0 ▸ h.lt e0 he0
  have hst := h.stk q.higherLevel
  have hmem : e0 ∈ l.filter fun e => e.1 = q.higherLevel := by
    rw [List.mem_filter]; exact ⟨he0, by simpa using hh0⟩
  obtain ⟨e, rest, hf⟩ : ∃ e rest, (l.filter fun e => e.1 = q.higherLevel) = e :: rest := by
    cases hc : l.filter fun e => e.1 = q.higherLevel with
    | nil => rw [hc] at hmem; simp at hmem
    | cons a b => exact ⟨a, b, rfl⟩
  obtain ⟨a, b, hab, ha, hb, hee⟩ := split_first _ _ _ _ hf
  rw [hf] at hst
  simp only [List.map_cons] at hst
  have hee : e.1 = q.higherLevel := by simpa using hee
  have ha : ∀ f ∈ a, f.1 ≠ q.higherLevel := fun f hf => by simpa using ha f hf
  have hbest := h.best
  have hpop : IsPop P.rev l e (a ++ b) := by
    refine ⟨a, b, hab, rfl, fun f hf => ?_, fun f hf => ?_⟩
    · have h1 := hbest f (by rw [hab]; simp [hf])
      have h2 := ha f hf
      rw [hee]
      cases hr : P.rev
      · rw [hr, better_false] at h1; rw [better_false]; omega
      · rw [hr, better_true] at h1; rw [better_true]; omega
    · rw [hee]; exact hbest f (by rw [hab]; simp [hf])
  have hstk : ∀ i, Function.update q.stk q.higherLevel (rest.map Prod.snd) i =
      ((a ++ b).filter fun e => e.1 = i).map Prod.snd := by
    intro i
    rw [Function.update_apply]
    split
    · rename_i e'; subst e'
      rw [List.filter_append, hb]
      have : a.filter (fun e => decide (e.1 = q.higherLevel)) = [] := by
        rw [List.filter_eq_nil_iff]; intro f hf; simpa using ha f hf
      rw [this, List.nil_append]
    · rename_i e'
      rw [h.stk i, hab, List.filter_append, List.filter_append, List.filter_cons_of_neg]
      simp only [decide_eq_true_eq]; rw [hee]; exact Ne.symm e'
  have htok : q.tokenNbr q.higherLevel = rest.length + 1 := by rw [h.tok, hst]; simp
  have htok' : ∀ k, k = rest.length → ∀ i, Function.update q.tokenNbr q.higherLevel k i =
      (Function.update q.stk q.higherLevel (rest.map Prod.snd) i).length := by
    intro k hk i
    simp only [Function.update_apply]
    split
    · simp [hk]
    · exact h.tok i
  have hsz : q.size - 1 = (a ++ b).length := by
    rw [h.size, hab]; simp
  have hlt' : ∀ f ∈ a ++ b, f.1 < P.nbr := by
    intro f hf
    apply h.lt f; rw [hab]
    rcases List.mem_append.mp hf with h | h <;> simp [h]
  have hbest' : ∀ f ∈ a ++ b, ¬ better P.rev f.1 q.higherLevel := by
    intro f hf
    apply hbest f; rw [hab]
    rcases List.mem_append.mp hf with h | h <;> simp [h]
  unfold HQ.pop
  rw [if_pos hlt, hst]
  simp only
  by_cases h1 : q.tokenNbr q.higherLevel > 1
  · rw [if_pos h1]
    refine ⟨e, a ++ b, _, rfl, hpop, hee, ?_⟩
    refine ⟨hstk, htok' _ (by omega), hsz, hlt', hbest', fun _ => ?_, ?_⟩
    · have : rest ≠ [] := by rintro rfl; simp at htok; omega
      obtain ⟨f, hf⟩ := List.exists_mem_of_ne_nil _ this
      rw [← hb, List.mem_filter] at hf
      exact ⟨f, by simp [hf.1], by simpa using hf.2⟩
    · intro hn
      have : rest ≠ [] := by rintro rfl; simp at htok; omega
      obtain ⟨f, hf⟩ := List.exists_mem_of_ne_nil _ this
      rw [← hb, List.mem_filter] at hf
      rw [List.append_eq_nil_iff] at hn
      rw [hn.2] at hf; simp at hf
  · rw [if_neg h1]
    have hrest : rest = [] := by
      cases rest with
      | nil => rfl
      | cons _ _ => simp at htok; omega
    subst hrest
    have hne : ∀ f ∈ a ++ b, f.1 ≠ q.higherLevel := by
      intro f hf
      rcases List.mem_append.mp hf with h | h
      · exact ha f h
      · intro hc
        rw [List.filter_eq_nil_iff] at hb
        exact hb f h (by simpa using hc)
    have htokpos : ∀ i, 0 < Function.update q.tokenNbr q.higherLevel 0 i ↔ ∃ f ∈ a ++ b, f.1 = i := by
      intro i
      rw [htok' 0 (by simp) i, hstk i, List.length_map, List.length_pos_iff]
      constructor
      · intro hn
        obtain ⟨f, hf⟩ := List.exists_mem_of_ne_nil _ hn
        rw [List.mem_filter] at hf
        exact ⟨f, hf.1, by simpa using hf.2⟩
      · rintro ⟨f, hf, hi⟩ hn
        rw [List.filter_eq_nil_iff] at hn
        exact hn f hf (by simpa using hi)
    by_cases h2 : q.size - 1 > 0
    · rw [if_pos h2]
      have hnn : a ++ b ≠ [] := by
        intro hc; rw [hc] at hsz; simp at hsz; omega
      obtain ⟨g, hg⟩ := List.exists_mem_of_ne_nil _ hnn
      have hgt := (htokpos g.1).mpr ⟨g, hg, rfl⟩
      have hgb := hbest' g hg
      have hgn := hne g hg
      unfold HQ.findNew
      cases hr : P.rev
      · simp only [Bool.false_eq_true, if_false, Option.map_some]
        rw [hr] at hgb; rw [better_false] at hgb
        obtain ⟨m, hm1, hm2, hm3, hm4, hm5⟩ := scanUp_spec
          (Function.update q.tokenNbr q.higherLevel 0) (P.nbr - (q.higherLevel + 1))
          (q.higherLevel + 1) g.1 (by have := hlt' g hg; omega) hgt
        refine ⟨e, a ++ b, _, rfl, hr ▸ hpop, hee, ?_⟩
        rw [hm1]
        simp only [Option.getD_some]
        refine ⟨hstk, htok' 0 (by simp), hsz, hlt', fun f hf => ?_, fun _ => ?_, fun hc => absurd hc hnn⟩
        · rw [hr, better_false]
          have h3 := hbest' f hf
          rw [hr, better_false] at h3
          have h4 := hne f hf
          intro hc
          have := hm5 f.1 (by omega) hc
          have := (htokpos f.1).mpr ⟨f, hf, rfl⟩
          omega
        · exact (htokpos m).mp hm4
      · simp only [if_true]
        rw [hr] at hgb; rw [better_true] at hgb
        have := hP.1
        obtain ⟨m, hm1, hm2, hm3, hm4, hm5⟩ := scanDown_spec P.gmax
          (Function.update q.tokenNbr q.higherLevel 0) q.higherLevel g.1 (by omega) (by omega) hgt
        rw [hm1]
        refine ⟨e, a ++ b, _, rfl, hr ▸ hpop, hee, ?_⟩
        simp only [Option.getD_some]
        refine ⟨hstk, htok' 0 (by simp), hsz, hlt', fun f hf => ?_, fun _ => ?_, fun hc => absurd hc hnn⟩
        · rw [hr, better_true]
          have h3 := hbest' f hf
          rw [hr, better_true] at h3
          have h4 := hne f hf
          intro hc
          have := hm5 f.1 hc (by omega)
          have := (htokpos f.1).mpr ⟨f, hf, rfl⟩
          omega
        · exact (htokpos m).mp hm4
    · rw [if_neg h2]
      have hnn : a ++ b = [] := by
        rw [← List.length_eq_zero_iff]; omega
      refine ⟨e, a ++ b, _, rfl, hpop, hee, ?_⟩
      refine ⟨hstk, htok' 0 (by simp), hsz, hlt', ?_, fun hc => absurd hnn hc, fun _ => ?_⟩
      · rw [hnn]; simp
      · have := hP.2
        cases P.rev
        · simp; omega
        · simp

theorem hqRel_isEmpty (P : HQParam) (q : HQ τ) (l : List (Nat × τ)) (h : HQRel P q l) :
    q.isEmpty = true ↔ l = [] := by
  unfold HQ.isEmpty
  rw [h.size]
  simp

/-- Popping an empty queue is undefined: no element is invented. -/
theorem hqRel_pop_empty (P : HQParam) (q : HQ τ) (h : HQRel P q []) : q.pop P = none := by
  unfold HQ.pop
  split
  · rw [h.stk]; simp
  · rfl

/-! ### The preallocated FIFO -/

/-- The FIFO holds the list `l`. -/
structure FifoRel (q : Fifo τ) (l : List τ) : Prop where
  size : q.size = l.length
  last : q.first + q.size = q.last
  le : q.last ≤ q.realSize
  data : ∀ i (h : i < l.length), q.data (q.first + i) = l[i]

theorem fifoRel_init (raw : Nat → τ) (n : Nat) : FifoRel (Fifo.init raw n) [] :=
  ⟨rfl, rfl, by simp [Fifo.init], by simp⟩

theorem fifoRel_swap (q : Fifo τ) (l : List τ) (h : FifoRel q l) : FifoRel q.swap l := by
  have h2 := h.last
  have h3 := h.le
  refine ⟨h.size, by simp [Fifo.swap], ?_, fun i hi => ?_⟩
  · simp only [Fifo.swap]; omega
  · simp only [Fifo.swap]
    have := h.size
    rw [if_pos (by omega), ← h.data i hi]
    congr 1; omega

theorem fifoRel_push (q : Fifo τ) (l : List τ) (h : FifoRel q l) (v : τ) :
    (l.length < q.realSize → ∃ q', q.push v = some q' ∧ FifoRel q' (l ++ [v]) ∧
      q'.realSize = q.realSize) ∧
    (¬ l.length < q.realSize → q.push v = none) := by
  have key : ∀ r : Fifo τ, FifoRel r l → r.realSize = q.realSize → r.last < r.realSize →
      FifoRel ⟨Function.update r.data r.last v, r.size + 1, r.realSize, r.first, r.last + 1⟩
        (l ++ [v]) := by
    intro r hr _ hlt
    have h1 := hr.size
    have h2 := hr.last
    refine ⟨by simp [h1], by simp only; omega, by simp only; omega, fun i hi => ?_⟩
    simp only [Function.update_apply]
    simp only [List.length_append, List.length_singleton] at hi
    by_cases hil : i < l.length
    · rw [if_neg (by omega), List.getElem_append_left hil, hr.data i hil]
    · have : i = l.length := by omega
      subst this
      rw [if_pos (by omega)]; simp
  have h1 := h.size
  have h2 := h.last
  have h3 := h.le
  unfold Fifo.push
  by_cases hc : q.last = q.realSize
  · simp only [if_pos hc]
    have hs := fifoRel_swap q l h
    have e1 : q.swap.last = q.size := rfl
    have e2 : q.swap.realSize = q.realSize := rfl
    constructor
    · intro hlt
      rw [if_pos (by omega)]
      exact ⟨_, rfl, key _ hs rfl (by omega), rfl⟩
    · intro hlt
      rw [if_neg (by omega)]
  · simp only [if_neg hc]
    constructor
    · intro hlt
      rw [if_pos (by omega)]
      exact ⟨_, rfl, key _ h rfl (by omega), rfl⟩
    · intro hlt
      omega

theorem fifoRel_pop (q : Fifo τ) (x : τ) (l : List τ) (h : FifoRel q (x :: l)) :
    q.front = some x ∧ ∃ q', q.pop = some q' ∧ FifoRel q' l ∧ q'.realSize = q.realSize := by
  have h1 := h.size
  have h2 := h.last
  simp only [List.length_cons] at h1
  constructor
  · unfold Fifo.front
    rw [if_neg (by omega)]
    have := h.data 0 (by simp)
    simpa using this
  · refine ⟨⟨q.data, q.size - 1, q.realSize, q.first + 1, q.last⟩,
      by unfold Fifo.pop; rw [if_neg (by omega)], ?_, rfl⟩
    refine ⟨by simp only; omega, by simp only; omega, h.le, fun i hi => ?_⟩
    have := h.data (i + 1) (by simpa using hi)
    simp only [List.getElem_cons_succ] at this
    rw [← this]; simp only; congr 1; omega

end Smil
