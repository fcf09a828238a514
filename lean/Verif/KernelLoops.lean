import Verif.KernelCross

/-! # The horizontal and depth kernels: parallel loops over lines -/

namespace Smil
variable {α : Type}

/-- A parallel loop: iteration `l < N` is executed by thread `own l`, in increasing order. -/
def loopPhase (N : Nat) (own : Nat → Nat) (body : Nat → Nat → List LOp) : Phase :=
  fun t => (List.range N).flatMap fun l => if own l = t then body l t else []

/-- Iteration `l` writes private buffers and lines of `W l`, reads private buffers and lines of
`R l`. -/
structure LoopLines (w N : Nat) (body : Nat → Nat → List LOp) (W R : Nat → LId → Prop) : Prop where
  lines : ∀ l, l < N → ∀ t, ∀ op ∈ body l t, ((∃ b, op.out = .buf t b) ∨ W l op.out) ∧
    (∀ r ∈ op.ins, (∃ b, r = .buf t b) ∨ R l r) ∧ op.ok w
  wb : ∀ l t b, ¬ W l (.buf t b)
  rb : ∀ l t b, ¬ R l (.buf t b)
  disj : ∀ l l', l < N → l' < N → l ≠ l' → ∀ id, W l id → ¬ W l' id ∧ ¬ R l' id

theorem mem_loopPhase (N : Nat) (own : Nat → Nat) (body : Nat → Nat → List LOp) (t : Nat) (op : LOp) :
    op ∈ loopPhase N own body t ↔ ∃ l, l < N ∧ own l = t ∧ op ∈ body l t := by
  simp only [loopPhase, List.mem_flatMap, List.mem_range]
  constructor
  · rintro ⟨l, hl, h⟩
    split at h <;> [exact ⟨l, hl, ‹_›, h⟩; simp at h]
  · rintro ⟨l, hl, e, h⟩
    exact ⟨l, hl, by rw [if_pos e]; exact h⟩

theorem loopPhase_free (w N : Nat) (own : Nat → Nat) (body : Nat → Nat → List LOp)
    (W R : Nat → LId → Prop) (L : LoopLines w N body W R) :
    LineFree (loopPhase N own body) ∧ PhaseOK w (loopPhase N own body) := by
  constructor
  · intro t u htu op hop op' hop'
    rw [mem_loopPhase] at hop hop'
    obtain ⟨l, hl, e, hop⟩ := hop
    obtain ⟨l', hl', e', hop'⟩ := hop'
    have hne : l ≠ l' := by rintro rfl; exact htu (e.symm.trans e')
    obtain ⟨h1, _, _⟩ := L.lines l hl t op hop
    obtain ⟨h1', h2', _⟩ := L.lines l' hl' u op' hop'
    constructor
    · intro hh
      rcases h1 with ⟨b, h1⟩ | h1 <;> rcases h1' with ⟨b', h1'⟩ | h1'
      · rw [h1, h1'] at hh; simp only [LId.buf.injEq] at hh; exact htu hh.1
      · rw [← hh, h1] at h1'; exact L.wb _ _ _ h1'
      · rw [hh, h1'] at h1; exact L.wb _ _ _ h1
      · rw [← hh] at h1'; exact (L.disj l l' hl hl' hne _ h1).1 h1'
    · intro hh
      rcases h1 with ⟨b, h1⟩ | h1 <;> rcases h2' _ hh with ⟨b', h2'⟩ | h2'
      · rw [h1] at h2'; simp only [LId.buf.injEq] at h2'; exact htu h2'.1
      · rw [h1] at h2'; exact L.rb _ _ _ h2'
      · rw [h2'] at h1; exact L.wb _ _ _ h1
      · exact (L.disj l l' hl hl' hne _ h1).2 h2'
  · intro t op hop
    rw [mem_loopPhase] at hop
    obtain ⟨l, hl, e, hop⟩ := hop
    exact (L.lines l hl t op hop).2.2

theorem loopPhase_spec (f : α → α → α) (border : α) (w N : Nat) (own : Nat → Nat)
    (body : Nat → Nat → List LOp) (W R : Nat → LId → Prop) (L : LoopLines w N body W R)
    (m m' : KMem α) (hrun : PhaseRun f border w (loopPhase N own body) m m') :
    (∀ l, l < N → ∀ id, W l id → ∃ m1 : KMem α, (∀ id x, W l id ∨ R l id → m1 (id, x) = m (id, x)) ∧
      ∀ x, m' (id, x) = denAll f border w (body l (own l)) m1 (id, x)) ∧
    ∀ id x, (∀ t b, id ≠ .buf t b) → (∀ l, l < N → ¬ W l id) → m' (id, x) = m (id, x) := by
  obtain ⟨hfree, hok⟩ := loopPhase_free w N own body W R L
  constructor
  · intro l hl id hid
    have key : ∀ x, m' (id, x) = denAll f border w (loopPhase N own body (own l)) m (id, x) := by
      intro x
      refine PhaseRun.spec f border w _ m m' hrun hfree hok (own l) id ?_ x
      intro u hu op hop e
      rw [mem_loopPhase] at hop
      obtain ⟨l', hl', e', hop⟩ := hop
      rcases (L.lines l' hl' u op hop).1 with ⟨b, h1⟩ | h1
      · rw [e] at h1; rw [h1] at hid; exact L.wb _ _ _ hid
      · rw [e] at h1
        exact (L.disj l l' hl hl' (by rintro rfl; exact hu e'.symm) _ hid).1 h1
    obtain ⟨s, r, hsr⟩ := List.append_of_mem (List.mem_range.mpr hl)
    have hnd : (s ++ l :: r).Nodup := hsr ▸ List.nodup_range
    have hs : ∀ l' ∈ s, l' < N ∧ l' ≠ l := by
      intro l' h
      refine ⟨List.mem_range.mp (hsr ▸ List.mem_append_left _ h), ?_⟩
      rintro rfl
      exact (List.nodup_append.mp hnd).2.2 l' h l' (by simp) rfl
    have hr : ∀ l' ∈ r, l' < N ∧ l' ≠ l := by
      intro l' h
      refine ⟨List.mem_range.mp (hsr ▸ List.mem_append_right _ (List.mem_cons_of_mem _ h)), ?_⟩
      rintro rfl
      exact (List.nodup_cons.mp (List.nodup_append.mp hnd).2.1).1 h
    refine ⟨denAll f border w (s.flatMap fun l' => if own l' = own l then body l' (own l) else []) m,
      ?_, ?_⟩
    · intro id x hid
      apply denAll_ne
      intro op hop e
      simp only [List.mem_flatMap] at hop
      obtain ⟨l', hl', hop⟩ := hop
      split at hop <;> [skip; simp at hop]
      rcases (L.lines l' (hs l' hl').1 _ op hop).1 with ⟨b, h1⟩ | h1
      · rw [e] at h1; rw [h1] at hid
        rcases hid with hid | hid
        · exact L.wb _ _ _ hid
        · exact L.rb _ _ _ hid
      · rw [e] at h1
        have := L.disj l' l (hs l' hl').1 hl (hs l' hl').2 _ h1
        rcases hid with hid | hid
        · exact this.1 hid
        · exact this.2 hid
    · intro x
      rw [key x]
      simp only [loopPhase, hsr, List.flatMap_append, List.flatMap_cons, denAll_append, if_true]
      rw [denAll_ne]
      intro op hop e
      simp only [List.mem_flatMap] at hop
      obtain ⟨l', hl', hop⟩ := hop
      split at hop <;> [skip; simp at hop]
      rcases (L.lines l' (hr l' hl').1 _ op hop).1 with ⟨b, h1⟩ | h1
      · rw [e] at h1; rw [h1] at hid; exact L.wb _ _ _ hid
      · rw [e] at h1
        exact (L.disj l' l (hr l' hl').1 hl (hr l' hl').2 _ h1).1 hid
  · intro id x h1 h2
    refine PhaseRun.frame f border w _ m m' hrun hfree hok id ?_ x
    intro u op hop e
    rw [mem_loopPhase] at hop
    obtain ⟨l, hl, e', hop⟩ := hop
    rcases (L.lines l hl u op hop).1 with ⟨b, h⟩ | h
    · rw [e] at h; exact h1 _ _ h
    · rw [e] at h; exact h2 l hl h

/-! ### Horizontal -/

theorem horizKernel_eq (ks kd : Nat) (D : Dims) (own : Nat → Nat) : horizKernel ks kd D own =
    [loopPhase (D.d * D.h) own fun l t => horizLine ks kd (l / D.h) (l % D.h) t] := rfl

theorem horizLine_loop (w : Nat) (hw : 1 ≤ w) (ks kd : Nat) (D : Dims) :
    LoopLines w (D.d * D.h) (fun l t => horizLine ks kd (l / D.h) (l % D.h) t)
      (fun l id => id = .img kd (l / D.h) (l % D.h)) (fun l id => id = .img ks (l / D.h) (l % D.h)) := by
  refine ⟨?_, ?_, ?_, ?_⟩
  · intro l hl t op hop
    simp only [horizLine, List.mem_cons, List.not_mem_nil, or_false] at hop
    rcases hop with rfl | rfl | rfl | rfl
    · exact ⟨Or.inl ⟨_, rfl⟩, by simp [LOp.ins], by simp [LOp.ok]; omega⟩
    · exact ⟨Or.inl ⟨_, rfl⟩, by simp [LOp.ins], trivial⟩
    · exact ⟨Or.inl ⟨_, rfl⟩, by simp [LOp.ins], by simp [LOp.ok]; omega⟩
    · exact ⟨Or.inr rfl, by simp [LOp.ins], trivial⟩
  · simp
  · simp
  · rintro l l' hl hl' hne id rfl
    have : ¬ (l / D.h = l' / D.h ∧ l % D.h = l' % D.h) := by
      rintro ⟨h1, h2⟩
      apply hne
      rw [← Nat.div_add_mod l D.h, ← Nat.div_add_mod l' D.h, h1, h2]
    simp only [LId.img.injEq, true_and]
    exact ⟨this, fun h => this h.2⟩

theorem horizKernel_spec (f : α → α → α) [Std.Associative f] [Std.Commutative f] (border : α)
    (ks kd : Nat) (D : Dims) (hw : 1 ≤ D.w) (own : Nat → Nat) (m m' : KMem α)
    (hrun : KRun f border D.w (horizKernel ks kd D own) m m') :
    (∀ z y x, z < D.d → y < D.h → x < D.w → m' (.img kd z y, x) =
      twoVal f border D.w (fun i => m (.img ks z y, i)) x) ∧
    ∀ id x, (∀ t b, id ≠ .buf t b) → (∀ z y, z < D.d → id ≠ .img kd z y) → m' (id, x) = m (id, x) := by
  rw [horizKernel_eq] at hrun
  obtain ⟨m1, hrun, rfl⟩ := hrun
  obtain ⟨h1, h2⟩ := loopPhase_spec f border D.w _ own _ _ _ (horizLine_loop D.w hw ks kd D) m m1 hrun
  constructor
  · intro z y x hz hy hx
    have hl : z * D.h + y < D.d * D.h := by
      have : (z + 1) * D.h ≤ D.d * D.h := Nat.mul_le_mul_right _ hz
      rw [Nat.add_mul] at this; omega
    have e1 : (z * D.h + y) / D.h = z := by
      rw [Nat.mul_comm, Nat.mul_add_div (by omega), Nat.div_eq_of_lt hy, Nat.add_zero]
    have e2 : (z * D.h + y) % D.h = y := by
      rw [Nat.mul_comm, Nat.mul_add_mod, Nat.mod_eq_of_lt hy]
    obtain ⟨m2, hm2, hv⟩ := h1 _ hl (.img kd z y) (by rw [e1, e2])
    rw [hv x, e1, e2]
    have hsrc : ∀ i, m2 (.img ks z y, i) = m (.img ks z y, i) := fun i => hm2 _ _ (Or.inr (by rw [e1, e2]))
    generalize own (z * D.h + y) = t
    simp only [horizLine, denAll_cons, denAll_nil]
    rw [den_zip_self _ _ _ _ _ _ _ _ hx, den_shift_self _ _ _ _ _ _ _ _ hx,
      LOp.den_ne _ _ _ _ _ (.buf t 1) _ (by simp [LOp.out]), den_zip_self _ _ _ _ _ _ _ _ hx,
      den_shift_self _ _ _ _ _ _ _ _ hx, LOp.den_ne _ _ _ _ _ (.img ks z y) _ (by simp [LOp.out]), hsrc]
    unfold twoVal
    rw [Std.Commutative.comm (op := f) (shv border D.w (-1) _ x),
      Std.Commutative.comm (op := f) (shv border D.w 1 _ x)]
    congr 1
    · congr 1; exact shv_congr _ _ _ _ _ _ fun j _ => hsrc j
    · apply shv_congr
      intro j _
      rw [LOp.den_ne _ _ _ _ _ _ _ (by simp [LOp.out]), LOp.den_ne _ _ _ _ _ _ _ (by simp [LOp.out]),
        hsrc]
  · intro id x hid hid2
    refine h2 id x hid fun l hl e => ?_
    have hpos : 0 < D.h := by
      rcases Nat.eq_zero_or_pos D.h with h | h
      · rw [h, Nat.mul_zero] at hl; omega
      · exact h
    exact hid2 _ _ ((Nat.div_lt_iff_lt_mul hpos).mpr hl) e

/-! ### Depth -/

theorem depthLoop_lines (ks kd y : Nat) (n z : Nat) (hz : 1 ≤ z) (a b : LId) :
    ∀ op ∈ (depthLoop ks kd y n z a b).1,
      (op.out = a ∨ op.out = b ∨ ∃ j, z ≤ j + 1 ∧ j + 1 < z + n ∧ op.out = .img kd j y) ∧
      (∀ r ∈ op.ins, r = a ∨ r = b ∨ ∃ j, r = .img ks j y) ∧ ∀ w, op.ok w := by
  induction n generalizing z a b with
  | zero => intro op h; simp [depthLoop] at h
  | succ n ih =>
    intro op h
    simp only [depthLoop, List.mem_cons] at h
    rcases h with rfl | rfl | h
    · exact ⟨Or.inr (Or.inl rfl), by simp [LOp.ins], fun _ => trivial⟩
    · exact ⟨Or.inr (Or.inr ⟨z - 1, by omega, by omega, rfl⟩), by simp [LOp.ins], fun _ => trivial⟩
    · obtain ⟨h1, h2, h3⟩ := ih (z + 1) (by omega) b a op h
      refine ⟨?_, ?_, h3⟩
      · rcases h1 with h1 | h1 | ⟨j, h1, h2, h3⟩
        · exact Or.inr (Or.inl h1)
        · exact Or.inl h1
        · exact Or.inr (Or.inr ⟨j, by omega, by omega, h3⟩)
      · intro r hr
        rcases h2 r hr with h1 | h1 | h1
        · exact Or.inr (Or.inl h1)
        · exact Or.inl h1
        · exact Or.inr (Or.inr h1)

theorem depthLoop_names (ks kd y : Nat) (n z : Nat) (a b : LId) :
    (depthLoop ks kd y n z a b).2 = a ∨ (depthLoop ks kd y n z a b).2 = b := by
  induction n generalizing z a b with
  | zero => exact Or.inl rfl
  | succ n ih => exact (ih (z + 1) b a).symm

/-- The value computed along a column of slices. -/
def depthVal (f : α → α → α) (border : α) (d : Nat) (S : Nat → α) (z : Nat) : α :=
  f (f (S z) (if z = 0 then border else S (z - 1))) (if z + 1 = d then border else f (S (z + 1)) (S z))

theorem depthLoop_spec (f : α → α → α) (border : α) (w ks kd y : Nat) (S : Nat → Nat → α)
    (n z : Nat) (hz : 1 ≤ z) (a b : LId) (hab : a ≠ b)
    (ha : ∀ k z y, a ≠ .img k z y) (hb : ∀ k z y, b ≠ .img k z y) (m : KMem α)
    (hS : ∀ j x, z ≤ j + 1 → j < z + n → x < w → m (.img ks j y, x) = S j x)
    (A : Nat → α) (hA : ∀ x, x < w → m (a, x) = A x) :
    let r := depthLoop ks kd y n z a b
    let m' := denAll f border w r.1 m
    (∀ j x, z ≤ j + 1 → j + 1 < z + n → x < w → m' (.img kd j y, x) =
      f (if j + 1 = z then A x else f (S j x) (S (j - 1) x)) (f (S (j + 1) x) (S j x))) ∧
    ∀ x, x < w → m' (r.2, x) = if n = 0 then A x else f (S (z + n - 1) x) (S (z + n - 2) x) := by
  induction n generalizing z a b m A with
  | zero =>
    refine ⟨fun j x h1 h2 => by omega, fun x hx => ?_⟩
    simpa [depthLoop, denAll_nil] using hA x hx
  | succ n ih =>
    simp only [depthLoop, denAll_cons]
    generalize hm1 : LOp.den f border w m (.zip (.img ks z y) (.img ks (z - 1) y) b) = m1
    generalize hm2 : LOp.den f border w m1 (.zip a b (.img kd (z - 1) y)) = m2
    have hb1 : ∀ x, x < w → m1 (b, x) = f (S z x) (S (z - 1) x) := by
      intro x hx
      rw [← hm1, den_zip_self _ _ _ _ _ _ _ _ hx, hS _ _ (by omega) (by omega) hx,
        hS _ _ (by omega) (by omega) hx]
    have hne1 : ∀ id x, b ≠ id → m1 (id, x) = m (id, x) := fun id x h => by
      rw [← hm1]; exact LOp.den_ne _ _ _ _ _ _ _ h
    have hne2 : ∀ id x, LId.img kd (z - 1) y ≠ id → m2 (id, x) = m1 (id, x) := fun id x h => by
      rw [← hm2]; exact LOp.den_ne _ _ _ _ _ _ _ h
    have hD : ∀ x, x < w → m2 (.img kd (z - 1) y, x) = f (A x) (f (S z x) (S (z - 1) x)) := by
      intro x hx
      rw [← hm2, den_zip_self _ _ _ _ _ _ _ _ hx, hb1 x hx, hne1 _ _ hab.symm, hA x hx]
    obtain ⟨c1, c2⟩ := ih (z + 1) (by omega) b a hab.symm hb ha m2
      (by
        intro j x h1 h2 hx
        rw [hne2, hne1 _ _ (hb _ _ _), hS _ _ (by omega) (by omega) hx]
        intro e; simp only [LId.img.injEq] at e; omega)
      (fun x => f (S z x) (S (z - 1) x))
      (by
        intro x hx
        rw [hne2 _ _ (fun e => hb _ _ _ e.symm), hb1 x hx])
    refine ⟨?_, ?_⟩
    · intro j x h1 h2 hx
      by_cases hj : j + 1 = z
      · have hj' : j = z - 1 := by omega
        rw [if_pos hj, hj', denAll_ne, hD x hx]
        · have e : z - 1 + 1 = z := by omega
          rw [e]
        · intro op hop
          rcases (depthLoop_lines ks kd y n (z + 1) (by omega) b a op hop).1 with
            h | h | ⟨k, h1, h2, h⟩
          · rw [h]; exact hb _ _ _
          · rw [h]; exact ha _ _ _
          · rw [h]; intro e; simp only [LId.img.injEq] at e; omega
      · rw [if_neg hj, c1 j x (by omega) (by omega) hx]
        split
        · rename_i hh
          have e : j = z := by omega
          rw [e]
        · rfl
    · intro x hx
      rw [c2 x hx, if_neg (show ¬ n + 1 = 0 by omega)]
      split
      · rename_i hh; subst hh; simp
      · congr 2 <;> omega

theorem depthKernel_eq (ks kd : Nat) (D : Dims) (own : Nat → Nat) : depthKernel ks kd D own =
    [loopPhase D.h own fun y t => depthLine ks kd D.d y t] := rfl

theorem depthLine_loop (w : Nat) (ks kd : Nat) (D : Dims) (hd : 1 ≤ D.d) :
    LoopLines w D.h (fun y t => depthLine ks kd D.d y t)
      (fun y id => ∃ z, z < D.d ∧ id = .img kd z y)
      (fun y id => id = .border ∨ ∃ z, id = .img ks z y) := by
  refine ⟨?_, ?_, ?_, ?_⟩
  · intro y hy t op hop
    have hn := depthLoop_names ks kd y (D.d - 1) 1 (.buf t 0) (.buf t 1)
    simp only [depthLine, List.cons_append, List.mem_cons, List.mem_append, List.not_mem_nil,
      or_false] at hop
    rcases hop with rfl | hop | rfl
    · exact ⟨Or.inl ⟨_, rfl⟩, by simp [LOp.ins], trivial⟩
    · obtain ⟨h1, h2, h3⟩ := depthLoop_lines ks kd y (D.d - 1) 1 (by omega) _ _ op hop
      refine ⟨?_, ?_, h3 w⟩
      · rcases h1 with h | h | ⟨j, k1, k2, h⟩
        · exact Or.inl ⟨_, h⟩
        · exact Or.inl ⟨_, h⟩
        · exact Or.inr ⟨j, by omega, h⟩
      · intro r hr
        rcases h2 r hr with h | h | h
        · exact Or.inl ⟨_, h⟩
        · exact Or.inl ⟨_, h⟩
        · exact Or.inr (Or.inr h)
    · refine ⟨Or.inr ⟨D.d - 1, by omega, rfl⟩, ?_, trivial⟩
      rcases hn with h | h <;> rw [h] <;> simp [LOp.ins]
  · rintro l t b ⟨z, _, h⟩; cases h
  · rintro l t b (h | ⟨z, h⟩) <;> cases h
  · rintro l l' hl hl' hne id ⟨z, hz, rfl⟩
    simp only [LId.img.injEq, reduceCtorEq, false_or, not_exists, not_and]
    refine ⟨fun _ _ _ _ => ?_, fun _ _ _ => ?_⟩ <;> omega

theorem depthKernel_spec (f : α → α → α) [Std.Associative f] [Std.Commutative f]
    [Std.IdempotentOp f] (border : α) (ks kd : Nat) (D : Dims) (hd : 1 ≤ D.d)
    (hunit : ∀ v, f border v = v) (own : Nat → Nat) (m m' : KMem α)
    (hrun : KRun f border D.w (depthKernel ks kd D own) m m')
    (hB : ∀ x, x < D.w → m (.border, x) = border) :
    (∀ z y x, z < D.d → y < D.h → x < D.w → m' (.img kd z y, x) =
      depthVal f border D.d (fun z => m (.img ks z y, x)) z) ∧
    ∀ id x, (∀ t b, id ≠ .buf t b) → (∀ z y, z < D.d → id ≠ .img kd z y) → m' (id, x) = m (id, x) := by
  rw [depthKernel_eq] at hrun
  obtain ⟨m1, hrun, rfl⟩ := hrun
  obtain ⟨h1, h2⟩ := loopPhase_spec f border D.w _ own _ _ _ (depthLine_loop D.w ks kd D hd) m m1 hrun
  constructor
  · intro z y x hz hy hx
    obtain ⟨m2, hm2, hv⟩ := h1 y hy (.img kd z y) ⟨z, hz, rfl⟩
    rw [hv x]
    have hsrc : ∀ z i, m2 (.img ks z y, i) = m (.img ks z y, i) :=
      fun z i => hm2 _ _ (Or.inr (Or.inr ⟨z, rfl⟩))
    have hbor : ∀ i, i < D.w → m2 (.border, i) = border := fun i hi => by
      rw [hm2 _ _ (Or.inr (Or.inl rfl)), hB i hi]
    generalize own y = t
    have hn := depthLoop_names ks kd y (D.d - 1) 1 (.buf t 0) (.buf t 1)
    have hlines := depthLoop_lines ks kd y (D.d - 1) 1 (by omega) (.buf t 0) (.buf t 1)
    simp only [depthLine, List.cons_append, denAll_cons, denAll_append, denAll_nil]
    generalize hm3 : LOp.den f border D.w m2 (.zip .border (.img ks 0 y) (.buf t 0)) = m3
    have hne : ∀ id i, LId.buf t 0 ≠ id → m3 (id, i) = m2 (id, i) := fun id i h => by
      rw [← hm3]; exact LOp.den_ne _ _ _ _ _ _ _ h
    have hA : ∀ i, i < D.w → m3 (.buf t 0, i) = m (.img ks 0 y, i) := fun i hi => by
      rw [← hm3, den_zip_self _ _ _ _ _ _ _ _ hi, hbor i hi, hunit, hsrc]
    obtain ⟨c1, c2⟩ := depthLoop_spec f border D.w ks kd y (fun z i => m (.img ks z y, i)) (D.d - 1) 1
      (by omega) (.buf t 0) (.buf t 1) (by simp) (by simp) (by simp) m3
      (fun j i _ _ _ => by rw [hne _ _ (by simp), hsrc]) (fun i => m (.img ks 0 y, i)) hA
    generalize depthLoop ks kd y (D.d - 1) 1 (.buf t 0) (.buf t 1) = r at *
    obtain ⟨ops, p⟩ := r
    simp only at *
    generalize hm4 : denAll f border D.w ops m3 = m4 at *
    have hcb : ∀ v, f v border = v := fun v => by rw [Std.Commutative.comm (op := f), hunit]
    have hbor4 : m4 (.border, x) = border := by
      rw [← hm4, denAll_ne, hne _ _ (by simp), hbor x hx]
      intro op hop
      rcases (hlines op hop).1 with h | h | ⟨j, _, _, h⟩ <;> rw [h] <;> simp
    by_cases hl : z + 1 = D.d
    · have ez : D.d - 1 = z := by omega
      rw [ez, den_zip_self _ _ _ _ _ _ _ _ hx, hbor4, hunit, c2 x hx]
      unfold depthVal
      rw [if_pos hl, hcb, ez]
      by_cases hz0 : z = 0
      · subst hz0; simp [hcb]
      · rw [if_neg hz0, if_neg hz0]
        congr 4 <;> omega
    · rw [LOp.den_ne _ _ _ _ _ _ _ (by simp only [LOp.out, ne_eq, LId.img.injEq]; omega),
        c1 z x (by omega) (by omega) hx]
      unfold depthVal
      rw [if_neg hl]
      by_cases hz0 : z = 0
      · subst hz0; simp [hcb]
      · rw [if_neg (by omega), if_neg hz0]
  · intro id x hid hid2
    refine h2 id x hid fun l hl => ?_
    rintro ⟨z, hz, e⟩
    exact hid2 _ _ hz e

end Smil
