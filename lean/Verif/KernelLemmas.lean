import Verif.Kernels
import Mathlib.Tactic.SplitIfs

/-! # Line-level semantics of the kernels -/

namespace Smil
variable {α : Type}

/-- Line-level effect of an operation. -/
def LOp.den (f : α → α → α) (border : α) (w : Nat) (m : KMem α) : LOp → KMem α
  | .copy a o => fun p => if p.1 = o ∧ p.2 < w then m (a, p.2) else m p
  | .zip a b o => fun p => if p.1 = o ∧ p.2 < w then f (m (a, p.2)) (m (b, p.2)) else m p
  | .shift a dx o => fun p => if p.1 = o ∧ p.2 < w then
      (if 0 ≤ (p.2 : Int) - dx ∧ (p.2 : Int) - dx < w then m (a, ((p.2 : Int) - dx).toNat) else border)
      else m p

/-- Line written by an operation. -/
def LOp.out : LOp → LId
  | .copy _ o => o
  | .zip _ _ o => o
  | .shift _ _ o => o

/-- Lines read by an operation. -/
def LOp.ins : LOp → List LId
  | .copy a _ => [a]
  | .zip a b _ => [a, b]
  | .shift a _ _ => [a]

/-- A shift moves to another line, by at most the length of the line. -/
def LOp.ok (w : Nat) : LOp → Prop
  | .shift a dx o => a ≠ o ∧ -(w : Int) ≤ dx ∧ dx ≤ w
  | _ => True

theorem execAll_map_range (n : Nat) (st : Nat → Step Loc α) (m : KMem α)
    (hinj : ∀ i j, i < n → j < n → i ≠ j → (st i).w ≠ (st j).w)
    (hrd : ∀ i j, i < n → j < n → i ≠ j → (st j).w ∉ (st i).rd) :
    (∀ i, i < n → execAll ((List.range n).map st) m (st i).w = (st i).val m) ∧
    ∀ loc, (∀ i, i < n → (st i).w ≠ loc) → execAll ((List.range n).map st) m loc = m loc := by
  induction n with
  | zero => exact ⟨fun i hi => absurd hi (by omega), fun loc _ => rfl⟩
  | succ n ih =>
    obtain ⟨ih1, ih2⟩ := ih (fun i j hi hj => hinj i j (by omega) (by omega))
      (fun i j hi hj => hrd i j (by omega) (by omega))
    have e : execAll ((List.range (n + 1)).map st) m =
        (st n).exec (execAll ((List.range n).map st) m) := by
      rw [List.range_succ, List.map_append, execAll_append]; rfl
    rw [e]
    constructor
    · intro i hi
      unfold Step.exec
      by_cases hin : i = n
      · subst hin
        rw [Function.update_self]
        refine (st i).dep _ _ fun r hr => ?_
        exact ih2 r fun j hj => fun e => hrd i j (by omega) (by omega) (by omega) (e ▸ hr)
      · rw [Function.update_of_ne (hinj i n (by omega) (by omega) hin), ih1 i (by omega)]
    · intro loc hloc
      unfold Step.exec
      rw [Function.update_of_ne (fun h => hloc n (by omega) h.symm), ih2 loc fun i hi => hloc i (by omega)]

theorem LOp.steps_den (f : α → α → α) (border : α) (w : Nat) (op : LOp) (hok : op.ok w)
    (m : KMem α) : execAll (op.steps f border w) m = op.den f border w m := by
  funext loc
  obtain ⟨id, i⟩ := loc
  cases op with
  | copy a o =>
    obtain ⟨h1, h2⟩ := execAll_map_range w (fun i => Step.cp (α := α) (o, i) (a, i)) m
      (by intro i j _ _ hij h; exact hij (Prod.mk.inj h).2)
      (by
        intro i j _ _ hij h
        simp only [Step.cp, List.mem_singleton, Prod.mk.injEq] at h
        exact hij h.2.symm)
    simp only [LOp.steps, LOp.den]
    split
    · rename_i h; obtain ⟨rfl, h⟩ := h; exact h1 i h
    · rename_i h
      refine h2 _ fun j hj e => h ?_
      obtain ⟨rfl, rfl⟩ := Prod.mk.inj e
      exact ⟨rfl, hj⟩
  | zip a b o =>
    obtain ⟨h1, h2⟩ := execAll_map_range w (fun i => Step.op f (o, i) (a, i) (b, i)) m
      (by intro i j _ _ hij h; exact hij (Prod.mk.inj h).2)
      (by
        intro i j _ _ hij h
        simp only [Step.op, List.mem_cons, List.not_mem_nil, or_false, Prod.mk.injEq] at h
        rcases h with h | h <;> exact hij h.2.symm)
    simp only [LOp.steps, LOp.den]
    split
    · rename_i h; obtain ⟨rfl, h⟩ := h; exact h1 i h
    · rename_i h
      refine h2 _ fun j hj e => h ?_
      obtain ⟨rfl, rfl⟩ := Prod.mk.inj e
      exact ⟨rfl, hj⟩
  | shift a dx o =>
    obtain ⟨hao, hd1, hd2⟩ := hok
    simp only [LOp.steps]
    by_cases hdx : 0 ≤ dx
    · rw [if_pos hdx, execAll_append]
      obtain ⟨c1, c2⟩ := execAll_map_range dx.toNat (fun i => Step.cst border (o, i)) m
        (by intro i j _ _ hij h; exact hij (Prod.mk.inj h).2)
        (by intro i j _ _ hij h; simp [Step.cst] at h)
      generalize hm1 : execAll ((List.range dx.toNat).map fun i => Step.cst border (o, i)) m = m1 at *
      obtain ⟨h1, h2⟩ := execAll_map_range (w - dx.toNat)
        (fun j => Step.cp (α := α) (o, j + dx.toNat) (a, j)) m1
        (by
          intro i j _ _ hij h
          have h2 : i + dx.toNat = j + dx.toNat := (Prod.mk.inj h).2
          exact hij (by omega))
        (by
          intro i j _ _ hij h
          simp only [Step.cp, List.mem_singleton, Prod.mk.injEq] at h
          exact hao h.1.symm)
      simp only [LOp.den]
      by_cases hid : id = o ∧ i < w
      · obtain ⟨rfl, hi⟩ := hid
        rw [if_pos ⟨rfl, hi⟩]
        by_cases hlt : i < dx.toNat
        · rw [if_neg (by omega), h2 (id, i)]
          · exact c1 i hlt
          · intro j hj e
            have h2 : j + dx.toNat = i := (Prod.mk.inj e).2
            omega
        · rw [if_pos (by omega)]
          have := h1 (i - dx.toNat) (by omega)
          simp only [Step.cp] at this
          have e1 : i - dx.toNat + dx.toNat = i := by omega
          rw [e1] at this
          have e2 : ((i : Int) - dx).toNat = i - dx.toNat := by omega
          rw [e2]
          refine this.trans (c2 _ ?_)
          intro j hj e
          exact hao (Prod.mk.inj e).1.symm
      · rw [if_neg hid, h2 (id, i), c2 (id, i)]
        · intro j hj e
          obtain ⟨rfl, rfl⟩ := Prod.mk.inj e
          exact hid ⟨rfl, by omega⟩
        · intro j hj e
          obtain ⟨rfl, rfl⟩ := Prod.mk.inj e
          exact hid ⟨rfl, by omega⟩
    · rw [if_neg hdx, execAll_append]
      obtain ⟨c1, c2⟩ := execAll_map_range (w - (-dx).toNat)
        (fun j => Step.cp (α := α) (o, j) (a, j + (-dx).toNat)) m
        (by
          intro i j _ _ hij h
          exact hij (Prod.mk.inj h).2)
        (by
          intro i j _ _ hij h
          simp only [Step.cp, List.mem_singleton, Prod.mk.injEq] at h
          exact hao h.1.symm)
      generalize hm1 : execAll ((List.range (w - (-dx).toNat)).map
        fun j => Step.cp (α := α) (o, j) (a, j + (-dx).toNat)) m = m1 at *
      obtain ⟨h1, h2⟩ := execAll_map_range (-dx).toNat
        (fun i => Step.cst border (o, w - (-dx).toNat + i)) m1
        (by
          intro i j _ _ hij h
          have h2 : w - (-dx).toNat + i = w - (-dx).toNat + j := (Prod.mk.inj h).2
          omega)
        (by intro i j _ _ hij h; simp [Step.cst] at h)
      simp only [LOp.den]
      by_cases hid : id = o ∧ i < w
      · obtain ⟨rfl, hi⟩ := hid
        rw [if_pos ⟨rfl, hi⟩]
        by_cases hlt : i < w - (-dx).toNat
        · rw [if_pos (by omega), h2 (id, i)]
          · have := c1 i hlt
            simp only [Step.cp] at this
            rw [this]
            congr 2; omega
          · intro j hj e
            have h2 : w - (-dx).toNat + j = i := (Prod.mk.inj e).2
            omega
        · rw [if_neg (by omega)]
          have := h1 (i - (w - (-dx).toNat)) (by omega)
          simp only [Step.cst] at this
          have e1 : w - (-dx).toNat + (i - (w - (-dx).toNat)) = i := by omega
          rw [e1] at this
          exact this
      · rw [if_neg hid, h2 (id, i), c2 (id, i)]
        · intro j hj e
          obtain ⟨rfl, rfl⟩ := Prod.mk.inj e
          exact hid ⟨rfl, by omega⟩
        · intro j hj e
          obtain ⟨rfl, rfl⟩ := Prod.mk.inj e
          exact hid ⟨rfl, by omega⟩

/-- Line-level effect of a thread program. -/
def denAll (f : α → α → α) (border : α) (w : Nat) (l : List LOp) (m : KMem α) : KMem α :=
  l.foldl (LOp.den f border w) m

theorem lsteps_den (f : α → α → α) (border : α) (w : Nat) (l : List LOp) (hok : ∀ op ∈ l, op.ok w)
    (m : KMem α) : execAll (lsteps f border w l) m = denAll f border w l m := by
  induction l generalizing m with
  | nil => rfl
  | cons op l ih =>
    have e : lsteps f border w (op :: l) = op.steps f border w ++ lsteps f border w l := rfl
    rw [e, execAll_append, LOp.steps_den f border w op (hok op (by simp)),
      ih (fun o ho => hok o (by simp [ho]))]
    rfl

theorem denAll_append (f : α → α → α) (border : α) (w : Nat) (l l' : List LOp) (m : KMem α) :
    denAll f border w (l ++ l') m = denAll f border w l' (denAll f border w l m) := by
  unfold denAll; rw [List.foldl_append]

theorem denAll_cons (f : α → α → α) (border : α) (w : Nat) (op : LOp) (l : List LOp) (m : KMem α) :
    denAll f border w (op :: l) m = denAll f border w l (op.den f border w m) := rfl

theorem denAll_nil (f : α → α → α) (border : α) (w : Nat) (m : KMem α) :
    denAll f border w [] m = m := rfl

theorem steps_w (f : α → α → α) (border : α) (w : Nat) (op : LOp) (s : Step Loc α)
    (hs : s ∈ op.steps f border w) : s.w.1 = op.out := by
  cases op with
  | copy a o => simp only [LOp.steps, List.mem_map] at hs; obtain ⟨i, _, rfl⟩ := hs; rfl
  | zip a b o => simp only [LOp.steps, List.mem_map] at hs; obtain ⟨i, _, rfl⟩ := hs; rfl
  | shift a dx o =>
    simp only [LOp.steps] at hs
    split at hs <;> simp only [List.mem_append, List.mem_map] at hs <;>
      rcases hs with ⟨i, _, rfl⟩ | ⟨i, _, rfl⟩ <;> rfl

theorem steps_rd (f : α → α → α) (border : α) (w : Nat) (op : LOp) (s : Step Loc α)
    (hs : s ∈ op.steps f border w) : ∀ r ∈ s.rd, r.1 ∈ op.ins := by
  cases op with
  | copy a o =>
    simp only [LOp.steps, List.mem_map] at hs; obtain ⟨i, _, rfl⟩ := hs
    simp [Step.cp, LOp.ins]
  | zip a b o =>
    simp only [LOp.steps, List.mem_map] at hs; obtain ⟨i, _, rfl⟩ := hs
    simp [Step.op, LOp.ins]
  | shift a dx o =>
    simp only [LOp.steps] at hs
    split at hs <;> simp only [List.mem_append, List.mem_map] at hs <;>
      rcases hs with ⟨i, _, rfl⟩ | ⟨i, _, rfl⟩ <;> simp [Step.cp, Step.cst, LOp.ins]

/-- No thread of the phase writes a line that another one reads or writes. -/
def LineFree (ph : Phase) : Prop :=
  ∀ t u, t ≠ u → ∀ op ∈ ph t, ∀ op' ∈ ph u, op.out ≠ op'.out ∧ op.out ∉ op'.ins

/-- All shifts of the phase are legal. -/
def PhaseOK (w : Nat) (ph : Phase) : Prop := ∀ t, ∀ op ∈ ph t, op.ok w

theorem LineFree.noConflict (f : α → α → α) (border : α) (w : Nat) (ph : Phase) (h : LineFree ph) :
    NoConflict (fun t => lsteps f border w (ph t)) := by
  intro t u htu s hs s' hs'
  simp only [lsteps, List.mem_flatMap] at hs hs'
  obtain ⟨op, hop, hs⟩ := hs
  obtain ⟨op', hop', hs'⟩ := hs'
  obtain ⟨h1, h2⟩ := h t u htu op hop op' hop'
  have e := steps_w f border w op s hs
  have e' := steps_w f border w op' s' hs'
  constructor
  · intro hh; rw [hh, e'] at e; exact h1 e.symm
  · intro hh
    have := steps_rd f border w op' s' hs' _ hh
    rw [e] at this; exact h2 this

/-- What any execution of a conflict-free phase leaves in a line. -/
theorem PhaseRun.spec (f : α → α → α) (border : α) (w : Nat) (ph : Phase) (m m' : KMem α)
    (hrun : PhaseRun f border w ph m m') (hfree : LineFree ph) (hok : PhaseOK w ph) (t : Nat) (id : LId)
    (hid : ∀ u, u ≠ t → ∀ op ∈ ph u, op.out ≠ id) (i : Nat) :
    m' (id, i) = denAll f border w (ph t) m (id, i) := by
  obtain ⟨ts, h1, h2⟩ := hrun
  rw [← h1, runSched_spec ts _ m (hfree.noConflict f border w) h2 t (id, i), lsteps_den _ _ _ _ (hok t)]
  intro u hu s hs
  simp only [lsteps, List.mem_flatMap] at hs
  obtain ⟨op, hop, hs⟩ := hs
  have := steps_w f border w op s hs
  intro e
  rw [e] at this
  exact hid u hu op hop this.symm

/-- All executions of a conflict-free phase leave the same memory. -/
theorem PhaseRun.unique (f : α → α → α) (border : α) (w : Nat) (ph : Phase) (m m1 m2 : KMem α)
    (h1 : PhaseRun f border w ph m m1) (h2 : PhaseRun f border w ph m m2) (hfree : LineFree ph) :
    m1 = m2 := by
  obtain ⟨ts, a1, a2⟩ := h1
  obtain ⟨ts', b1, b2⟩ := h2
  rw [← a1, ← b1]
  exact runSched_confluent ts ts' _ m (hfree.noConflict f border w) a2 b2

theorem KRun.unique (f : α → α → α) (border : α) (w : Nat) (phs : List Phase) (m m1 m2 : KMem α)
    (hfree : ∀ ph ∈ phs, LineFree ph)
    (h1 : KRun f border w phs m m1) (h2 : KRun f border w phs m m2) : m1 = m2 := by
  induction phs generalizing m with
  | nil => exact h1.symm.trans h2
  | cons ph phs ih =>
    obtain ⟨a, ha, ha'⟩ := h1
    obtain ⟨b, hb, hb'⟩ := h2
    have := PhaseRun.unique f border w ph m a b ha hb (hfree ph (by simp))
    subst this
    exact ih a (fun p hp => hfree p (by simp [hp])) ha' hb'

theorem KRun.append (f : α → α → α) (border : α) (w : Nat) (p q : List Phase) (m m' : KMem α) :
    KRun f border w (p ++ q) m m' ↔ ∃ m1, KRun f border w p m m1 ∧ KRun f border w q m1 m' := by
  induction p generalizing m with
  | nil => simp [KRun]
  | cons ph p ih =>
    simp only [List.cons_append, KRun, ih]
    constructor
    · rintro ⟨a, h1, b, h2, h3⟩; exact ⟨b, ⟨a, h1, h2⟩, h3⟩
    · rintro ⟨b, ⟨a, h1, h2⟩, h3⟩; exact ⟨a, h1, b, h2, h3⟩

/-- The sequential execution is an execution. -/
theorem kExec_run (f : α → α → α) (border : α) (w n : Nat) (phs : List Phase) (m : KMem α)
    (hn : ∀ ph ∈ phs, ∀ t, n ≤ t → ph t = []) : KRun f border w phs m (kExec f border w n phs m) := by
  induction phs generalizing m with
  | nil => rfl
  | cons ph phs ih =>
    refine ⟨_, ?_, ih _ (fun p hp => hn p (by simp [hp]))⟩
    obtain ⟨ts, h1, h2⟩ := execThreads_sched n (fun t => lsteps f border w (ph t)) m
      (fun t ht => by rw [hn ph (by simp) t ht]; rfl)
    exact ⟨ts, h1, h2⟩

/-- An operation leaves the other lines alone. -/
theorem LOp.den_ne (f : α → α → α) (border : α) (w : Nat) (op : LOp) (m : KMem α) (id : LId) (i : Nat)
    (h : op.out ≠ id) : op.den f border w m (id, i) = m (id, i) := by
  cases op <;> simp only [LOp.den, LOp.out] at * <;> rw [if_neg] <;> rintro ⟨rfl, _⟩ <;> exact h rfl

theorem denAll_ne (f : α → α → α) (border : α) (w : Nat) (l : List LOp) (m : KMem α) (id : LId)
    (i : Nat) (h : ∀ op ∈ l, op.out ≠ id) : denAll f border w l m (id, i) = m (id, i) := by
  induction l generalizing m with
  | nil => rfl
  | cons op l ih =>
    rw [denAll_cons, ih _ (fun o ho => h o (by simp [ho])), LOp.den_ne _ _ _ _ _ _ _ (h op (by simp))]

/-- A line that no thread writes is unchanged by a phase. -/
theorem PhaseRun.frame (f : α → α → α) (border : α) (w : Nat) (ph : Phase) (m m' : KMem α)
    (hrun : PhaseRun f border w ph m m') (hfree : LineFree ph) (hok : PhaseOK w ph) (id : LId)
    (hid : ∀ u, ∀ op ∈ ph u, op.out ≠ id) (i : Nat) : m' (id, i) = m (id, i) := by
  rw [PhaseRun.spec f border w ph m m' hrun hfree hok 0 id (fun u _ => hid u),
    denAll_ne _ _ _ _ _ _ _ (hid 0)]

end Smil
