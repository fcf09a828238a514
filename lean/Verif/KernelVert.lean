import Verif.KernelLemmas

/-! # The vertical, cross, horizontal and depth kernels compute what their loops intend -/

namespace Smil
variable {α : Type}

/-- A line shifted by `dx`, with the border value outside. -/
def shv (border : α) (w : Nat) (dx : Int) (L : Nat → α) (i : Nat) : α :=
  if 0 ≤ (i : Int) - dx ∧ (i : Int) - dx < w then L ((i : Int) - dx).toNat else border

theorem den_copy_self (f : α → α → α) (border : α) (w : Nat) (m : KMem α) (a o : LId) (i : Nat)
    (hi : i < w) : LOp.den f border w m (.copy a o) (o, i) = m (a, i) := by
  simp [LOp.den, hi]

theorem den_zip_self (f : α → α → α) (border : α) (w : Nat) (m : KMem α) (a b o : LId) (i : Nat)
    (hi : i < w) : LOp.den f border w m (.zip a b o) (o, i) = f (m (a, i)) (m (b, i)) := by
  simp [LOp.den, hi]

theorem den_shift_self (f : α → α → α) (border : α) (w : Nat) (m : KMem α) (a : LId) (dx : Int)
    (o : LId) (i : Nat) (hi : i < w) :
    LOp.den f border w m (.shift a dx o) (o, i) = shv border w dx (fun j => m (a, j)) i := by
  simp [LOp.den, hi, shv]

theorem shv_congr (border : α) (w : Nat) (dx : Int) (L L' : Nat → α) (i : Nat)
    (h : ∀ j, j < w → L j = L' j) : shv border w dx L i = shv border w dx L' i := by
  unfold shv; split
  · exact h _ (by omega)
  · rfl

/-! ### Blocks -/

theorem kThreads_pos (nt h : Nat) : 0 < kThreads nt h := by unfold kThreads; omega

/-- What the kernels need of the blocks. -/
structure Blocks (n h : Nat) : Prop where
  size : ∀ t, t < n → 2 ≤ blockSize n h t
  le : ∀ t, t < n → blockFirst n h t + blockSize n h t ≤ h
  disj : ∀ t u, t < u → u < n → blockFirst n h t + blockSize n h t ≤ blockFirst n h u
  cover : ∀ y, y < h → ∃ t, t < n ∧ blockFirst n h t ≤ y ∧ y < blockFirst n h t + blockSize n h t

theorem blocks (nt h : Nat) (hh : 2 ≤ h) : Blocks (kThreads nt h) h := by
  have hn := kThreads_pos nt h
  generalize hN : kThreads nt h = n at hn
  have hq : 2 ≤ h / n := by
    by_cases h1 : n = 1
    · subst h1; simpa using hh
    · have : n ≤ h / 4 := by unfold kThreads at hN; omega
      have h4 : 4 * n ≤ h := by omega
      exact (Nat.le_div_iff_mul_le hn).mpr (by omega)
  have hqn : n * (h / n) ≤ h := Nat.mul_div_le h n
  have hpos : ∀ t, t < n → (t + 1) * (h / n) ≤ n * (h / n) := fun t ht => Nat.mul_le_mul_right _ ht
  refine ⟨?_, ?_, ?_, ?_⟩
  · intro t ht
    have := hpos t ht
    unfold blockSize; split
    · rw [Nat.add_mul] at this
      rw [Nat.mul_comm (h / n) t]; omega
    · exact hq
  · intro t ht
    have := hpos t ht
    rw [Nat.add_mul] at this
    unfold blockSize blockFirst; split
    · rw [Nat.mul_comm (h / n) t]; omega
    · omega
  · intro t u htu hu
    unfold blockSize blockFirst
    rw [if_neg (by omega)]
    have : (t + 1) * (h / n) ≤ u * (h / n) := Nat.mul_le_mul_right _ htu
    rw [Nat.add_mul] at this; omega
  · intro y hy
    by_cases hlast : y / (h / n) < n - 1
    · refine ⟨y / (h / n), by omega, ?_, ?_⟩
      · exact Nat.div_mul_le_self _ _
      · unfold blockSize blockFirst
        rw [if_neg (by omega)]
        have := Nat.lt_div_mul_add (a := y) (b := h / n) (by omega)
        omega
    · refine ⟨n - 1, by omega, ?_, ?_⟩
      · unfold blockFirst
        have : (n - 1) * (h / n) ≤ (y / (h / n)) * (h / n) := Nat.mul_le_mul_right _ (by omega)
        exact this.trans (Nat.div_mul_le_self _ _)
      · unfold blockSize blockFirst
        rw [if_pos rfl, Nat.mul_comm (h / n)]
        have := hpos (n - 1) (by omega)
        rw [Nat.add_mul] at this
        omega

/-! ### Vertical segment -/

theorem vertLoop_lines (ks kd z : Nat) (n i : Nat) (a b : LId) :
    ∀ op ∈ (vertLoop ks kd z n i a b).1,
      (op.out = a ∨ op.out = b ∨ ∃ j, i ≤ j ∧ j < i + n ∧ op.out = .img kd z j) ∧
      (∀ r ∈ op.ins, r = a ∨ r = b ∨ ∃ j, i ≤ j ∧ j ≤ i + n ∧ r = .img ks z j) ∧ ∀ w, op.ok w := by
  induction n generalizing i a b with
  | zero => intro op h; simp [vertLoop] at h
  | succ n ih =>
    intro op h
    simp only [vertLoop, List.mem_cons] at h
    rcases h with rfl | rfl | h
    · refine ⟨Or.inr (Or.inl rfl), ?_, fun _ => trivial⟩
      intro r hr
      simp only [LOp.ins, List.mem_cons, List.not_mem_nil, or_false] at hr
      rcases hr with rfl | rfl
      · exact Or.inr (Or.inr ⟨i, by omega, by omega, rfl⟩)
      · exact Or.inr (Or.inr ⟨i + 1, by omega, by omega, rfl⟩)
    · refine ⟨Or.inr (Or.inr ⟨i, by omega, by omega, rfl⟩), ?_, fun _ => trivial⟩
      intro r hr
      simp only [LOp.ins, List.mem_cons, List.not_mem_nil, or_false] at hr
      rcases hr with rfl | rfl <;> simp
    · obtain ⟨h1, h2, h3⟩ := ih (i + 1) b a op h
      refine ⟨?_, ?_, h3⟩
      · rcases h1 with h1 | h1 | ⟨j, h1, h2, h3⟩
        · exact Or.inr (Or.inl h1)
        · exact Or.inl h1
        · exact Or.inr (Or.inr ⟨j, by omega, by omega, h3⟩)
      · intro r hr
        rcases h2 r hr with h1 | h1 | ⟨j, h1, h2, h3⟩
        · exact Or.inr (Or.inl h1)
        · exact Or.inl h1
        · exact Or.inr (Or.inr ⟨j, by omega, by omega, h3⟩)

theorem vertLoop_names (ks kd z : Nat) (n i : Nat) (a b : LId) :
    ((vertLoop ks kd z n i a b).2 = (a, b) ∨ (vertLoop ks kd z n i a b).2 = (b, a)) := by
  induction n generalizing i a b with
  | zero => exact Or.inl rfl
  | succ n ih =>
    simp only [vertLoop]
    rcases ih (i + 1) b a with h | h
    · exact Or.inr h
    · exact Or.inl h

/-- Loop invariant of the vertical kernel. -/
theorem vertLoop_spec (f : α → α → α) (border : α) (w ks kd z : Nat) (S : Nat → Nat → α)
    (n i : Nat) (hi : 1 ≤ i) (a b : LId) (hab : a ≠ b)
    (ha : ∀ k z y, a ≠ .img k z y) (hb : ∀ k z y, b ≠ .img k z y) (m : KMem α)
    (hS : ∀ j x, i ≤ j → j ≤ i + n → x < w → m (.img ks z j, x) = S j x)
    (hA : ∀ x, x < w → m (a, x) = f (S (i - 1) x) (S i x)) :
    let r := vertLoop ks kd z n i a b
    let m' := denAll f border w r.1 m
    (∀ j x, i ≤ j → j < i + n → x < w →
      m' (.img kd z j, x) = f (f (S (j - 1) x) (S j x)) (f (S j x) (S (j + 1) x))) ∧
    ∀ x, x < w → m' (r.2.1, x) = f (S (i + n - 1) x) (S (i + n) x) := by
  induction n generalizing i a b m with
  | zero =>
    refine ⟨fun j x h1 h2 => by omega, fun x hx => ?_⟩
    exact hA x hx
  | succ n ih =>
    simp only [vertLoop, denAll_cons]
    generalize hm1 : LOp.den f border w m (.zip (.img ks z i) (.img ks z (i + 1)) b) = m1
    generalize hm2 : LOp.den f border w m1 (.zip a b (.img kd z i)) = m2
    have hb1 : ∀ x, x < w → m1 (b, x) = f (S i x) (S (i + 1) x) := by
      intro x hx
      rw [← hm1, den_zip_self _ _ _ _ _ _ _ _ hx, hS _ _ (by omega) (by omega) hx,
        hS _ _ (by omega) (by omega) hx]
    have hne1 : ∀ id x, b ≠ id → m1 (id, x) = m (id, x) := fun id x h => by
      rw [← hm1]; exact LOp.den_ne _ _ _ _ _ _ _ h
    have hne2 : ∀ id x, LId.img kd z i ≠ id → m2 (id, x) = m1 (id, x) := fun id x h => by
      rw [← hm2]; exact LOp.den_ne _ _ _ _ _ _ _ h
    have hD : ∀ x, x < w → m2 (.img kd z i, x) =
        f (f (S (i - 1) x) (S i x)) (f (S i x) (S (i + 1) x)) := by
      intro x hx
      rw [← hm2, den_zip_self _ _ _ _ _ _ _ _ hx, hb1 x hx, hne1 _ _ hab.symm, hA x hx]
    obtain ⟨c1, c2⟩ := ih (i + 1) (by omega) b a hab.symm hb ha m2
      (by
        intro j x h1 h2 hx
        rw [hne2, hne1 _ _ (hb _ _ _), hS _ _ (by omega) (by omega) hx]
        intro e; simp only [LId.img.injEq] at e; omega)
      (by
        intro x hx
        rw [hne2 _ _ (fun e => hb _ _ _ e.symm), hb1 x hx]
        simp)
    refine ⟨?_, ?_⟩
    · intro j x h1 h2 hx
      by_cases hj : j = i
      · subst hj
        rw [denAll_ne, hD x hx]
        intro op hop
        rcases (vertLoop_lines ks kd z n (j + 1) b a op hop).1 with h | h | ⟨k, h1, h2, h⟩
        · rw [h]; exact hb _ _ _
        · rw [h]; exact ha _ _ _
        · rw [h]; intro e; simp only [LId.img.injEq] at e; omega
      · exact c1 j x (by omega) (by omega) hx
    · intro x hx
      rw [c2 x hx]
      have e1 : i + 1 + n - 1 = i + (n + 1) - 1 := by omega
      have e2 : i + 1 + n = i + (n + 1) := by omega
      rw [e1, e2]

/-- The line above line `y` as the kernels see it, and the line below. -/
def lineUp (border : α) (S : Nat → Nat → α) (y : Nat) (x : Nat) : α :=
  if y = 0 then border else S (y - 1) x
/-- See `lineUp`. -/
def lineDn (border : α) (h : Nat) (S : Nat → Nat → α) (y : Nat) (x : Nat) : α :=
  if y + 1 = h then border else S (y + 1) x

/-- The value computed by the vertical kernel; on the first line of a block (`first`) the terms
come in another order. -/
def vertVal (f : α → α → α) (border : α) (h : Nat) (S : Nat → Nat → α) (y x : Nat) : α :=
  f (f (lineUp border S y x) (S y x)) (f (S y x) (lineDn border h S y x))

theorem vertPh2_lines (ks kd z h fl bs t : Nat) (hbs : 2 ≤ bs) :
    ∀ op ∈ vertPh2 ks kd z h fl bs t,
      (op.out = .buf t 0 ∨ op.out = .buf t 1 ∨ ∃ j, fl < j ∧ j < fl + bs ∧ op.out = .img kd z j) ∧
      (∀ r ∈ op.ins, r = .border ∨ r = .buf t 0 ∨ r = .buf t 1 ∨
        ∃ j, fl < j ∧ j ≤ fl + bs ∧ r = .img ks z j) ∧ ∀ w, op.ok w := by
  intro op hop
  have hnames := vertLoop_names ks kd z (bs - 2) (fl + 1) (.buf t 0) (.buf t 1)
  simp only [vertPh2, List.mem_append, List.mem_cons, List.not_mem_nil, or_false] at hop
  generalize hr : vertLoop ks kd z (bs - 2) (fl + 1) (.buf t 0) (.buf t 1) = r at hop hnames
  rcases hop with hop | rfl | rfl
  · rw [← hr] at hop
    obtain ⟨h1, h2, h3⟩ := vertLoop_lines _ _ _ _ _ _ _ op hop
    refine ⟨?_, ?_, h3⟩
    · rcases h1 with h1 | h1 | ⟨j, h1, h2, h3⟩
      · exact Or.inl h1
      · exact Or.inr (Or.inl h1)
      · exact Or.inr (Or.inr ⟨j, by omega, by omega, h3⟩)
    · intro q hq
      rcases h2 q hq with h1 | h1 | ⟨j, h1, h2, h3⟩
      · exact Or.inr (Or.inl h1)
      · exact Or.inr (Or.inr (Or.inl h1))
      · exact Or.inr (Or.inr (Or.inr ⟨j, by omega, by omega, h3⟩))
  · refine ⟨?_, ?_, fun _ => trivial⟩
    · simp only [LOp.out]
      rcases hnames with e | e <;> rw [e] <;> simp
    · intro q hq
      simp only [LOp.ins, List.mem_cons, List.not_mem_nil, or_false] at hq
      rcases hq with rfl | rfl
      · exact Or.inr (Or.inr (Or.inr ⟨_, by omega, by omega, rfl⟩))
      · split
        · exact Or.inl rfl
        · exact Or.inr (Or.inr (Or.inr ⟨_, by omega, by omega, rfl⟩))
  · refine ⟨?_, ?_, fun _ => trivial⟩
    · exact Or.inr (Or.inr ⟨_, by omega, by omega, rfl⟩)
    · intro q hq
      simp only [LOp.ins, List.mem_cons, List.not_mem_nil, or_false] at hq
      rcases hnames with e | e <;> rw [e] at hq <;> rcases hq with rfl | rfl <;> simp

theorem vertPh2_spec (f : α → α → α) (border : α) (w ks kd z h fl bs t : Nat) (S : Nat → Nat → α)
    (hbs : 2 ≤ bs) (hle : fl + bs ≤ h) (m : KMem α)
    (hS : ∀ j x, fl < j → j ≤ fl + bs → j < h → x < w → m (.img ks z j, x) = S j x)
    (hA : ∀ x, x < w → m (.buf t 0, x) = f (S fl x) (S (fl + 1) x))
    (hB : ∀ x, x < w → m (.border, x) = border) (j x : Nat) (h1 : fl < j) (h2 : j < fl + bs)
    (hx : x < w) :
    denAll f border w (vertPh2 ks kd z h fl bs t) m (.img kd z j, x) = vertVal f border h S j x := by
  have hnames := vertLoop_names ks kd z (bs - 2) (fl + 1) (.buf t 0) (.buf t 1)
  have hlines := vertLoop_lines ks kd z (bs - 2) (fl + 1) (.buf t 0) (.buf t 1)
  obtain ⟨c1, c2⟩ := vertLoop_spec f border w ks kd z S (bs - 2) (fl + 1) (by omega) (.buf t 0)
    (.buf t 1) (by simp) (by simp) (by simp) m
    (fun j x a b c => hS j x (by omega) (by omega) (by omega) c)
    (fun x hx => by rw [hA x hx]; simp)
  simp only [vertPh2, denAll_append]
  generalize vertLoop ks kd z (bs - 2) (fl + 1) (.buf t 0) (.buf t 1) = r at *
  obtain ⟨ops, p1, p2⟩ := r
  simp only at *
  have hp : p1 ≠ p2 ∧ (∀ k z y, p2 ≠ .img k z y) ∧ ∀ k z y, p1 ≠ .img k z y := by
    rcases hnames with e | e <;> (obtain ⟨rfl, rfl⟩ := Prod.mk.inj e) <;> simp
  generalize hm1 : denAll f border w ops m = m1 at *
  have hfr : ∀ id x, (∀ op ∈ ops, op.out ≠ id) → m1 (id, x) = m (id, x) := by
    intro id x hh; rw [← hm1]; exact denAll_ne _ _ _ _ _ _ _ hh
  have hlast : ∀ id x, (id ≠ .buf t 0) → (id ≠ .buf t 1) → (∀ j, fl < j → j < fl + bs - 1 →
      id ≠ .img kd z j) → m1 (id, x) = m (id, x) := by
    intro id x i1 i2 i3
    apply hfr
    intro op hop e
    rcases (hlines op hop).1 with h | h | ⟨j, a, b, h⟩
    · exact i1 (e ▸ h)
    · exact i2 (e ▸ h)
    · exact i3 j (by omega) (by omega) (e ▸ h)
  simp only [denAll_cons, denAll_nil]
  have hS1 : m1 (.img ks z (fl + bs - 1), x) = S (fl + bs - 1) x := by
    rw [hlast _ _ (by simp) (by simp), hS _ _ (by omega) (by omega) (by omega) hx]
    intro j a b e; simp only [LId.img.injEq] at e; omega
  by_cases hj : j = fl + bs - 1
  · rw [hj, den_zip_self _ _ _ _ _ _ _ _ hx, den_zip_self _ _ _ _ _ _ _ _ hx,
      LOp.den_ne _ _ _ _ _ _ _ (by exact hp.1.symm), c2 x hx, hS1]
    unfold vertVal lineUp lineDn
    have e1 : fl + 1 + (bs - 2) - 1 = fl + bs - 1 - 1 := by omega
    have e2 : fl + 1 + (bs - 2) = fl + bs - 1 := by omega
    have e3 : fl + bs - 1 + 1 = fl + bs := by omega
    rw [e1, e2, e3, if_neg (show ¬ fl + bs - 1 = 0 by omega)]
    congr 2
    by_cases hb : fl + bs = h
    · rw [if_pos hb, if_pos hb, hlast .border x (by simp) (by simp) (by simp), hB x hx]
    · rw [if_neg hb, if_neg hb, hlast (.img ks z (fl + bs)) x (by simp) (by simp),
        hS _ _ (by omega) (by omega) (by omega) hx]
      intro j a b e; simp only [LId.img.injEq] at e; omega
  · rw [LOp.den_ne _ _ _ _ _ _ _ (by simp only [LOp.out, ne_eq, LId.img.injEq]; omega),
      LOp.den_ne _ _ _ _ _ _ _ (by exact hp.2.1 _ _ _), c1 j x (by omega) (by omega) hx]
    unfold vertVal lineUp lineDn
    rw [if_neg (by omega), if_neg (by omega)]

/-! ### Slices computed block by block in three phases -/

/-- The three phases of a slice: `P1` prepares private buffers, `P2` writes all the lines of the
block except the first one, then the first line is copied from buffer `k`. -/
def blockPhases (P1 P2 : Nat → List LOp) (k kd z h n : Nat) : List Phase :=
  [fun t => if t < n then P1 t else [], fun t => if t < n then P2 t else [],
   fun t => if t < n then [.copy (.buf t k) (.img kd z (blockFirst n h t))] else []]

/-- Lines used by the first phase. -/
def Ph1Lines (w ks z t : Nat) (l : List LOp) : Prop :=
  ∀ op ∈ l, (∃ b, op.out = .buf t b) ∧
    (∀ r ∈ op.ins, r = .border ∨ (∃ b, r = .buf t b) ∨ ∃ y, r = .img ks z y) ∧ op.ok w

/-- Lines used by the second phase. -/
def Ph2Lines (w ks kd z fl bs k t : Nat) (l : List LOp) : Prop :=
  ∀ op ∈ l, ((∃ b, b ≠ k ∧ op.out = .buf t b) ∨ ∃ j, fl < j ∧ j < fl + bs ∧ op.out = .img kd z j) ∧
    (∀ r ∈ op.ins, r = .border ∨ (∃ b, r = .buf t b) ∨ ∃ j, fl < j ∧ j ≤ fl + bs ∧ r = .img ks z j) ∧
    op.ok w

/-- Three-phase slices are free of conflicts and legal. -/
theorem blockPhases_free (w ks kd z h n k : Nat) (B : Blocks n h) (P1 P2 : Nat → List LOp)
    (h1 : ∀ t, t < n → Ph1Lines w ks z t (P1 t))
    (h2 : ∀ t, t < n → Ph2Lines w ks kd z (blockFirst n h t) (blockSize n h t) k t (P2 t)) :
    ∀ ph ∈ blockPhases P1 P2 k kd z h n, LineFree ph ∧ PhaseOK w ph := by
  intro ph hph
  simp only [blockPhases, List.mem_cons, List.not_mem_nil, or_false] at hph
  rcases hph with rfl | rfl | rfl
  · constructor
    · intro t u htu op hop op' hop'
      simp only at hop hop'
      split at hop <;> [rename_i ht; simp at hop]
      split at hop' <;> [rename_i hu; simp at hop']
      obtain ⟨⟨b, e⟩, _, _⟩ := h1 t ht op hop
      obtain ⟨⟨b', e'⟩, hr, _⟩ := h1 u hu op' hop'
      constructor
      · rw [e, e']; simp only [ne_eq, LId.buf.injEq, not_and]; intro h; exact absurd h htu
      · intro hin
        rcases hr _ hin with h | ⟨b, h⟩ | ⟨y, h⟩ <;> rw [e] at h
        · cases h
        · simp only [LId.buf.injEq] at h; exact htu h.1
        · cases h
    · intro t op hop
      simp only at hop
      split at hop <;> [rename_i ht; simp at hop]
      exact (h1 t ht op hop).2.2
  · constructor
    · intro t u htu op hop op' hop'
      simp only at hop hop'
      split at hop <;> [rename_i ht; simp at hop]
      split at hop' <;> [rename_i hu; simp at hop']
      obtain ⟨hw, _, _⟩ := h2 t ht op hop
      obtain ⟨hw', hr, _⟩ := h2 u hu op' hop'
      have hd : blockFirst n h t + blockSize n h t ≤ blockFirst n h u ∨
          blockFirst n h u + blockSize n h u ≤ blockFirst n h t := by
        rcases Nat.lt_or_gt_of_ne htu with hlt | hlt
        · exact Or.inl (B.disj t u hlt hu)
        · exact Or.inr (B.disj u t hlt ht)
      constructor
      · rcases hw with ⟨b, _, e⟩ | ⟨j, a1, a2, e⟩ <;> rcases hw' with ⟨b', _, e'⟩ | ⟨j', a1', a2', e'⟩ <;>
          rw [e, e'] <;> simp only [ne_eq, LId.buf.injEq, LId.img.injEq, reduceCtorEq, not_false_eq_true]
        · omega
        · omega
      · intro hin
        rcases hw with ⟨b, _, e⟩ | ⟨j, a1, a2, e⟩ <;> rw [e] at hin <;>
          rcases hr _ hin with hh | ⟨b, hh⟩ | ⟨y, b1, b2, hh⟩
        · cases hh
        · simp only [LId.buf.injEq] at hh; exact htu hh.1
        · cases hh
        · cases hh
        · cases hh
        · simp only [LId.img.injEq] at hh; omega
    · intro t op hop
      simp only at hop
      split at hop <;> [rename_i ht; simp at hop]
      exact (h2 t ht op hop).2.2
  · constructor
    · intro t u htu op hop op' hop'
      simp only at hop hop'
      split at hop <;> [rename_i ht; simp at hop]
      split at hop' <;> [rename_i hu; simp at hop']
      have hd : blockFirst n h t ≠ blockFirst n h u := by
        have s1 := B.size t ht
        have s2 := B.size u hu
        rcases Nat.lt_or_gt_of_ne htu with hlt | hlt
        · have := B.disj t u hlt hu; omega
        · have := B.disj u t hlt ht; omega
      simp only [List.mem_singleton] at hop hop'
      subst hop; subst hop'
      simp only [LOp.out, LOp.ins, List.mem_singleton, ne_eq, LId.img.injEq, reduceCtorEq,
        not_false_eq_true, and_true]
      omega
    · intro t op hop
      simp only at hop
      split at hop <;> [rename_i ht; simp at hop]
      simp only [List.mem_singleton] at hop
      subst hop; trivial

/-- What a three-phase slice leaves in the output lines, whatever the interleaving. -/
theorem blockPhases_spec (f : α → α → α) (border : α) (w ks kd z h n k : Nat) (B : Blocks n h)
    (P1 P2 : Nat → List LOp) (S V : Nat → Nat → α)
    (h1 : ∀ t, t < n → Ph1Lines w ks z t (P1 t))
    (h2 : ∀ t, t < n → Ph2Lines w ks kd z (blockFirst n h t) (blockSize n h t) k t (P2 t))
    (hV1 : ∀ t, t < n → ∀ m : KMem α, (∀ y x, y < h → x < w → m (.img ks z y, x) = S y x) →
      (∀ x, x < w → m (.border, x) = border) → ∀ x, x < w →
      denAll f border w (P1 t) m (.buf t k, x) = V (blockFirst n h t) x)
    (hV2 : ∀ t, t < n → ∀ m m1 : KMem α, (∀ y x, y < h → x < w → m (.img ks z y, x) = S y x) →
      (∀ x, x < w → m (.border, x) = border) →
      (∀ y x, y < h → x < w → m1 (.img ks z y, x) = S y x) →
      (∀ x, x < w → m1 (.border, x) = border) →
      (∀ b x, m1 (.buf t b, x) = denAll f border w (P1 t) m (.buf t b, x)) →
      ∀ j x, blockFirst n h t < j → j < blockFirst n h t + blockSize n h t → x < w →
      denAll f border w (P2 t) m1 (.img kd z j, x) = V j x)
    (m m' : KMem α) (hrun : KRun f border w (blockPhases P1 P2 k kd z h n) m m')
    (hS : ∀ y x, y < h → x < w → m (.img ks z y, x) = S y x)
    (hB : ∀ x, x < w → m (.border, x) = border) :
    (∀ y x, y < h → x < w → m' (.img kd z y, x) = V y x) ∧
    ∀ id x, (∀ t b, id ≠ .buf t b) → (∀ y, id ≠ .img kd z y) → m' (id, x) = m (id, x) := by
  have hfree := blockPhases_free w ks kd z h n k B P1 P2 h1 h2
  simp only [blockPhases] at hrun hfree
  obtain ⟨m1, r1, m2, r2, m3, r3, rfl⟩ := hrun
  simp only [List.mem_cons, List.not_mem_nil, or_false, forall_eq_or_imp, forall_eq] at hfree
  obtain ⟨⟨f1, o1⟩, ⟨f2, o2⟩, f3, o3⟩ := hfree
  have fr1 : ∀ id x, (∀ t b, id ≠ .buf t b) → m1 (id, x) = m (id, x) := by
    intro id x hid
    refine PhaseRun.frame f border w _ m m1 r1 f1 o1 id ?_ x
    intro u op hop e
    split at hop <;> [rename_i ht; simp at hop]
    obtain ⟨⟨b, e'⟩, _⟩ := h1 u ht op hop
    exact hid u b (e ▸ e')
  have fr2 : ∀ id x, (∀ t b, id ≠ .buf t b) → (∀ y, id ≠ .img kd z y) → m2 (id, x) = m1 (id, x) := by
    intro id x hid hid2
    refine PhaseRun.frame f border w _ m1 m2 r2 f2 o2 id ?_ x
    intro u op hop e
    split at hop <;> [rename_i ht; simp at hop]
    rcases (h2 u ht op hop).1 with ⟨b, _, e'⟩ | ⟨j, _, _, e'⟩
    · exact hid u b (e ▸ e')
    · exact hid2 j (e ▸ e')
  constructor
  · intro y x hy hx
    obtain ⟨t, ht, hy1, hy2⟩ := B.cover y hy
    have hm1S : ∀ y x, y < h → x < w → m1 (.img ks z y, x) = S y x := fun y x hy hx => by
      rw [fr1 _ _ (by simp), hS y x hy hx]
    have hm1B : ∀ x, x < w → m1 (.border, x) = border := fun x hx => by
      rw [fr1 _ _ (by simp), hB x hx]
    have hm1b : ∀ b x, m1 (.buf t b, x) = denAll f border w (P1 t) m (.buf t b, x) := by
      intro b x
      have := PhaseRun.spec f border w _ m m1 r1 f1 o1 t (.buf t b) ?_ x
      · simpa only [if_pos ht] using this
      · intro u hu op hop e
        split at hop <;> [rename_i hu'; simp at hop]
        obtain ⟨⟨b', e'⟩, _⟩ := h1 u hu' op hop
        rw [e] at e'; simp only [LId.buf.injEq] at e'; exact hu e'.1.symm
    by_cases hfirst : y = blockFirst n h t
    · have h3 := PhaseRun.spec f border w _ m2 m3 r3 f3 o3 t (.img kd z y) ?_ x
      · simp only [if_pos ht] at h3
        rw [h3, hfirst, denAll_cons, denAll_nil, den_copy_self _ _ _ _ _ _ _ hx]
        have h4 := PhaseRun.frame f border w _ m1 m2 r2 f2 o2 (.buf t k) ?_ x
        · rw [h4, hm1b, hV1 t ht m hS hB x hx]
        · intro u op hop e
          split at hop <;> [rename_i hu; simp at hop]
          rcases (h2 u hu op hop).1 with ⟨b, hb, e'⟩ | ⟨j, _, _, e'⟩
          · rw [e] at e'; simp only [LId.buf.injEq] at e'; exact hb e'.2.symm
          · rw [e] at e'; cases e'
      · intro u hu op hop e
        split at hop <;> [rename_i hu'; simp at hop]
        simp only [List.mem_singleton] at hop
        subst hop
        simp only [LOp.out, LId.img.injEq, true_and] at e
        have s2 := B.size u hu'
        have s1 := B.size t ht
        rcases Nat.lt_or_gt_of_ne hu with hlt | hlt
        · have := B.disj u t hlt ht; omega
        · have := B.disj t u hlt hu'; omega
    · have h3 := PhaseRun.frame f border w _ m2 m3 r3 f3 o3 (.img kd z y) ?_ x
      · rw [h3]
        have h4 := PhaseRun.spec f border w _ m1 m2 r2 f2 o2 t (.img kd z y) ?_ x
        · simp only [if_pos ht] at h4
          rw [h4, hV2 t ht m m1 hS hB hm1S hm1B hm1b y x (by omega) hy2 hx]
        · intro u hu op hop e
          split at hop <;> [rename_i hu'; simp at hop]
          rcases (h2 u hu' op hop).1 with ⟨b, hb, e'⟩ | ⟨j, a1, a2, e'⟩
          · rw [e] at e'; cases e'
          · rw [e] at e'; simp only [LId.img.injEq, true_and] at e'
            rcases Nat.lt_or_gt_of_ne hu with hlt | hlt
            · have := B.disj u t hlt ht; omega
            · have := B.disj t u hlt hu'; omega
      · intro u op hop e
        split at hop <;> [rename_i hu'; simp at hop]
        simp only [List.mem_singleton] at hop
        subst hop
        simp only [LOp.out, LId.img.injEq, true_and] at e
        by_cases hu : u = t
        · subst hu; omega
        · have s2 := B.size u hu'
          rcases Nat.lt_or_gt_of_ne hu with hlt | hlt
          · have := B.disj u t hlt ht; omega
          · have := B.disj t u hlt hu'; omega
  · intro id x hid hid2
    have h3 := PhaseRun.frame f border w _ m2 m3 r3 f3 o3 id ?_ x
    · rw [h3, fr2 id x hid hid2, fr1 id x hid]
    · intro u op hop e
      split at hop <;> [rename_i hu'; simp at hop]
      simp only [List.mem_singleton] at hop
      subst hop
      exact hid2 _ e.symm

/-! ### The vertical slice -/

theorem vertSlice_eq (ks kd h n z : Nat) : vertSlice ks kd h n z =
    blockPhases (fun t => vertPh1 ks z (blockFirst n h t) t)
      (fun t => vertPh2 ks kd z h (blockFirst n h t) (blockSize n h t) t) 2 kd z h n := rfl

theorem vertPh1_lines (w ks z fl t : Nat) : Ph1Lines w ks z t (vertPh1 ks z fl t) := by
  intro op hop
  simp only [vertPh1, List.mem_cons, List.not_mem_nil, or_false] at hop
  rcases hop with rfl | rfl | rfl | rfl <;> refine ⟨⟨_, rfl⟩, ?_, trivial⟩ <;>
    simp only [LOp.ins, List.mem_cons, List.not_mem_nil, or_false, forall_eq_or_imp, forall_eq] <;>
    (try split) <;> simp

/-- The value on the first line of a block. -/
theorem vertPh1_spec (f : α → α → α) (border : α) (w ks z h fl t : Nat) (S : Nat → Nat → α)
    (hfl : fl + 1 < h) (m : KMem α)
    (hS : ∀ y x, y < h → x < w → m (.img ks z y, x) = S y x)
    (hB : ∀ x, x < w → m (.border, x) = border) (x : Nat) (hx : x < w) :
    denAll f border w (vertPh1 ks z fl t) m (.buf t 0, x) = f (S fl x) (S (fl + 1) x) ∧
    denAll f border w (vertPh1 ks z fl t) m (.buf t 2, x) =
      f (f (S fl x) (S (fl + 1) x)) (f (S fl x) (lineUp border S fl x)) := by
  have h1 := hS fl x (by omega) hx
  have h2 := hS (fl + 1) x (by omega) hx
  have h3 := hB x hx
  simp only [vertPh1, denAll_cons, denAll_nil, LOp.den, lineUp, LId.buf.injEq, reduceCtorEq, hx]
  by_cases hf : fl = 0
  · subst hf; simp [h1, h2, h3]
  · simp [hf, h1, h2, hS (fl - 1) x (by omega) hx]

theorem vertSlice_spec (f : α → α → α) [Std.Associative f] [Std.Commutative f]
    (border : α) (w ks kd z h n : Nat) (B : Blocks n h) (S : Nat → Nat → α)
    (m m' : KMem α) (hrun : KRun f border w (vertSlice ks kd h n z) m m')
    (hS : ∀ y x, y < h → x < w → m (.img ks z y, x) = S y x)
    (hB : ∀ x, x < w → m (.border, x) = border) :
    (∀ y x, y < h → x < w → m' (.img kd z y, x) = vertVal f border h S y x) ∧
    ∀ id x, (∀ t b, id ≠ .buf t b) → (∀ y, id ≠ .img kd z y) → m' (id, x) = m (id, x) := by
  refine blockPhases_spec f border w ks kd z h n 2 B _ _ S (vertVal f border h S)
    (fun t _ => vertPh1_lines _ _ _ _ _) ?_ ?_ ?_ m m' (by rw [← vertSlice_eq]; exact hrun) hS hB
  · intro t ht op hop
    obtain ⟨a, b, c⟩ := vertPh2_lines _ _ _ _ _ _ _ (B.size t ht) op hop
    refine ⟨?_, ?_, c w⟩
    · rcases a with a | a | a
      · exact Or.inl ⟨0, by omega, a⟩
      · exact Or.inl ⟨1, by omega, a⟩
      · exact Or.inr a
    · intro r hr
      rcases b r hr with b | b | b | b
      · exact Or.inl b
      · exact Or.inr (Or.inl ⟨_, b⟩)
      · exact Or.inr (Or.inl ⟨_, b⟩)
      · exact Or.inr (Or.inr b)
  · intro t ht m hS hB x hx
    have s := B.size t ht
    have l := B.le t ht
    rw [(vertPh1_spec f border w ks z h _ t S (by omega) m hS hB x hx).2]
    unfold vertVal lineDn
    rw [if_neg (by omega), Std.Commutative.comm (op := f) (lineUp border S _ x),
      Std.Commutative.comm (op := f) (f _ (lineUp border S _ x))]
  · intro t ht m m1 hS hB hS1 hB1 hb j x hj1 hj2 hx
    have s := B.size t ht
    have l := B.le t ht
    exact vertPh2_spec f border w ks kd z h _ _ t S s l m1 (fun j x _ _ a b => hS1 j x a b)
      (fun x hx => by rw [hb]; exact (vertPh1_spec f border w ks z h _ t S (by omega) m hS hB x hx).1)
      hB1 j x hj1 hj2 hx

end Smil
