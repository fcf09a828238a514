import Verif.KernelVert

/-! # The cross kernel -/

namespace Smil
variable {α : Type}

/-- A line combined with its two neighbours. -/
def twoVal (f : α → α → α) (border : α) (w : Nat) (L : Nat → α) (i : Nat) : α :=
  f (f (L i) (shv border w 1 L i)) (shv border w (-1) L i)

theorem twoVal_congr (f : α → α → α) (border : α) (w : Nat) (L L' : Nat → α) (i : Nat) (hi : i < w)
    (h : ∀ j, j < w → L j = L' j) : twoVal f border w L i = twoVal f border w L' i := by
  unfold twoVal; rw [h i hi, shv_congr border w 1 L L' i h, shv_congr border w (-1) L L' i h]

theorem twoWays_spec (f : α → α → α) (border : α) (w : Nat) (a o tmp : LId) (h1 : a ≠ o)
    (h2 : a ≠ tmp) (h3 : o ≠ tmp) (m : KMem α) (x : Nat) (hx : x < w) :
    denAll f border w (twoWays a o tmp) m (o, x) = twoVal f border w (fun j => m (a, j)) x := by
  simp only [twoWays, denAll_cons, denAll_nil]
  rw [den_zip_self _ _ _ _ _ _ _ _ hx, LOp.den_ne _ _ _ (.shift a (-1) tmp) _ o _ h3.symm,
    den_zip_self _ _ _ _ _ _ _ _ hx, den_shift_self _ _ _ _ _ _ _ _ hx,
    den_shift_self _ _ _ _ _ _ _ _ hx, LOp.den_ne _ _ _ (.shift a 1 tmp) _ a _ h2.symm]
  unfold twoVal
  congr 1
  apply shv_congr
  intro j _
  rw [LOp.den_ne _ _ _ _ _ a _ (by exact h1.symm), LOp.den_ne _ _ _ _ _ a _ (by exact h2.symm)]

theorem twoWays_ne (f : α → α → α) (border : α) (w : Nat) (a o tmp : LId) (m : KMem α) (id : LId)
    (x : Nat) (h1 : o ≠ id) (h2 : tmp ≠ id) :
    denAll f border w (twoWays a o tmp) m (id, x) = m (id, x) := by
  apply denAll_ne
  intro op hop
  simp only [twoWays, List.mem_cons, List.not_mem_nil, or_false] at hop
  rcases hop with rfl | rfl | rfl | rfl <;> simpa [LOp.out]

theorem twoWays_lines (w : Nat) (hw : 1 ≤ w) (a o tmp : LId) (h : a ≠ tmp) :
    ∀ op ∈ twoWays a o tmp, (op.out = o ∨ op.out = tmp) ∧
      (∀ r ∈ op.ins, r = a ∨ r = o ∨ r = tmp) ∧ op.ok w := by
  intro op hop
  simp only [twoWays, List.mem_cons, List.not_mem_nil, or_false] at hop
  rcases hop with rfl | rfl | rfl | rfl
  · exact ⟨Or.inr rfl, by simp [LOp.ins], h, by omega, by omega⟩
  · exact ⟨Or.inl rfl, by simp [LOp.ins], trivial⟩
  · exact ⟨Or.inr rfl, by simp [LOp.ins], h, by omega, by omega⟩
  · exact ⟨Or.inl rfl, by simp [LOp.ins], trivial⟩

theorem crossLoop_names (ks kd z t : Nat) (n i : Nat) (a b c : LId) :
    ∃ x y, (crossLoop ks kd z t n i a b c).2 = (x, y) ∧
      ((x, y) = (a, b) ∨ (x, y) = (b, c) ∨ (x, y) = (c, a)) := by
  induction n generalizing i a b c with
  | zero => exact ⟨a, b, rfl, Or.inl rfl⟩
  | succ n ih =>
    obtain ⟨x, y, h1, h2⟩ := ih (i + 1) b c a
    refine ⟨x, y, h1, ?_⟩
    rcases h2 with h | h | h
    · exact Or.inr (Or.inl h)
    · exact Or.inr (Or.inr h)
    · exact Or.inl h

theorem crossLoop_lines (w : Nat) (hw : 1 ≤ w) (ks kd z t : Nat) (n i : Nat) (hi : 1 ≤ i)
    (a b c : LId) (ha : a ≠ .buf t 4) (hb : b ≠ .buf t 4) (hc : c ≠ .buf t 4) :
    ∀ op ∈ (crossLoop ks kd z t n i a b c).1,
      (op.out = a ∨ op.out = b ∨ op.out = c ∨ op.out = .buf t 3 ∨ op.out = .buf t 4 ∨
        ∃ j, i ≤ j + 1 ∧ j + 1 < i + n ∧ op.out = .img kd z j) ∧
      (∀ r ∈ op.ins, r = a ∨ r = b ∨ r = c ∨ r = .buf t 3 ∨ r = .buf t 4 ∨
        ∃ j, i ≤ j ∧ j < i + n ∧ r = .img ks z j) ∧ op.ok w := by
  induction n generalizing i a b c with
  | zero => intro op h; simp [crossLoop] at h
  | succ n ih =>
    intro op h
    simp only [crossLoop, List.cons_append, List.mem_cons, List.mem_append, List.not_mem_nil,
      or_false] at h
    rcases h with rfl | (h | rfl | rfl) | h
    · refine ⟨Or.inr (Or.inr (Or.inl rfl)), ?_, trivial⟩
      intro r hr
      simp only [LOp.ins, List.mem_singleton] at hr
      exact Or.inr (Or.inr (Or.inr (Or.inr (Or.inr ⟨i, by omega, by omega, hr⟩))))
    · obtain ⟨h1, h2, h3⟩ := twoWays_lines w hw b _ _ hb op h
      refine ⟨?_, ?_, h3⟩
      · rcases h1 with h1 | h1 <;> simp [h1]
      · intro r hr
        rcases h2 r hr with h1 | h1 | h1 <;> simp [h1]
    · exact ⟨by simp [LOp.out], by simp [LOp.ins], trivial⟩
    · refine ⟨?_, by simp [LOp.ins], trivial⟩
      exact Or.inr (Or.inr (Or.inr (Or.inr (Or.inr ⟨i - 1, by omega, by omega, rfl⟩))))
    · obtain ⟨h1, h2, h3⟩ := ih (i + 1) (by omega) b c a hb hc ha op h
      refine ⟨?_, ?_, h3⟩
      · rcases h1 with h1 | h1 | h1 | h1 | h1 | ⟨j, k1, k2, h1⟩
        · simp [h1]
        · simp [h1]
        · simp [h1]
        · simp [h1]
        · simp [h1]
        · exact Or.inr (Or.inr (Or.inr (Or.inr (Or.inr ⟨j, by omega, by omega, h1⟩))))
      · intro r hr
        rcases h2 r hr with h1 | h1 | h1 | h1 | h1 | ⟨j, k1, k2, h1⟩
        · simp [h1]
        · simp [h1]
        · simp [h1]
        · simp [h1]
        · simp [h1]
        · exact Or.inr (Or.inr (Or.inr (Or.inr (Or.inr ⟨j, by omega, by omega, h1⟩))))

/-- Loop invariant of the cross kernel. -/
theorem crossLoop_spec (f : α → α → α) (border : α) (w : Nat) (hw : 1 ≤ w) (ks kd z t : Nat)
    (S : Nat → Nat → α) (n i : Nat) (hi : 2 ≤ i) (a b c : LId) (hab : a ≠ b) (hbc : b ≠ c)
    (hca : c ≠ a)
    (ha : ∀ id, a = id → id ≠ .buf t 3 ∧ id ≠ .buf t 4 ∧ ∀ k z y, id ≠ .img k z y)
    (hb : ∀ id, b = id → id ≠ .buf t 3 ∧ id ≠ .buf t 4 ∧ ∀ k z y, id ≠ .img k z y)
    (hc : ∀ id, c = id → id ≠ .buf t 3 ∧ id ≠ .buf t 4 ∧ ∀ k z y, id ≠ .img k z y)
    (m : KMem α)
    (hS : ∀ j x, i ≤ j → j < i + n → x < w → m (.img ks z j, x) = S j x)
    (hA : ∀ x, x < w → m (a, x) = S (i - 2) x) (hBv : ∀ x, x < w → m (b, x) = S (i - 1) x) :
    let r := crossLoop ks kd z t n i a b c
    let m' := denAll f border w r.1 m
    (∀ j x, i ≤ j + 1 → j + 1 < i + n → x < w → m' (.img kd z j, x) =
      f (twoVal f border w (S j) x) (f (S (j - 1) x) (S (j + 1) x))) ∧
    (∀ x, x < w → m' (r.2.1, x) = S (i + n - 2) x) ∧
    ∀ x, x < w → m' (r.2.2, x) = S (i + n - 1) x := by
  induction n generalizing i a b c m with
  | zero =>
    exact ⟨fun j x h1 h2 => by omega, fun x hx => hA x hx, fun x hx => hBv x hx⟩
  | succ n ih =>
    obtain ⟨ha3, ha4, hai⟩ := ha a rfl
    obtain ⟨hb3, hb4, hbi⟩ := hb b rfl
    obtain ⟨hc3, hc4, hci⟩ := hc c rfl
    simp only [crossLoop, List.cons_append, denAll_append, denAll_cons, denAll_nil]
    generalize hm1 : LOp.den f border w m (.copy (.img ks z i) c) = m1
    generalize hm2 : denAll f border w (twoWays b (.buf t 3) (.buf t 4)) m1 = m2
    generalize hm3 : LOp.den f border w m2 (.zip a c (.buf t 4)) = m3
    generalize hm4 : LOp.den f border w m3 (.zip (.buf t 3) (.buf t 4) (.img kd z (i - 1))) = m4
    have n1 : ∀ id x, c ≠ id → m1 (id, x) = m (id, x) := fun id x h => by
      rw [← hm1]; exact LOp.den_ne _ _ _ _ _ _ _ h
    have n2 : ∀ id x, LId.buf t 3 ≠ id → LId.buf t 4 ≠ id → m2 (id, x) = m1 (id, x) :=
      fun id x h h' => by rw [← hm2]; exact twoWays_ne _ _ _ _ _ _ _ _ _ h h'
    have n3 : ∀ id x, LId.buf t 4 ≠ id → m3 (id, x) = m2 (id, x) := fun id x h => by
      rw [← hm3]; exact LOp.den_ne _ _ _ _ _ _ _ h
    have n4 : ∀ id x, LId.img kd z (i - 1) ≠ id → m4 (id, x) = m3 (id, x) := fun id x h => by
      rw [← hm4]; exact LOp.den_ne _ _ _ _ _ _ _ h
    have vc : ∀ x, x < w → m1 (c, x) = S i x := fun x hx => by
      rw [← hm1, den_copy_self _ _ _ _ _ _ _ hx, hS _ _ (by omega) (by omega) hx]
    have v3 : ∀ x, x < w → m2 (.buf t 3, x) = twoVal f border w (S (i - 1)) x := fun x hx => by
      rw [← hm2, twoWays_spec _ _ _ _ _ _ hb3 hb4 (by simp) _ _ hx]
      exact twoVal_congr _ _ _ _ _ _ hx fun j hj => by rw [n1 _ _ hbc.symm, hBv j hj]
    have hD : ∀ x, x < w → m4 (.img kd z (i - 1), x) =
        f (twoVal f border w (S (i - 1)) x) (f (S (i - 2) x) (S i x)) := fun x hx => by
      rw [← hm4, den_zip_self _ _ _ _ _ _ _ _ hx, n3 _ _ (by simp), v3 x hx, ← hm3,
        den_zip_self _ _ _ _ _ _ _ _ hx, n2 _ _ ha3.symm ha4.symm, n1 _ _ hca, hA x hx,
        n2 _ _ hc3.symm hc4.symm, vc x hx]
    obtain ⟨c1, c2, c3⟩ := ih (i + 1) (by omega) b c a hbc hca hab hb hc ha m4
      (by
        intro j x h1 h2 hx
        rw [n4, n3 _ _ (by simp), n2 _ _ (by simp) (by simp), n1 _ _ (hci _ _ _),
          hS _ _ (by omega) (by omega) hx]
        intro e; simp only [LId.img.injEq] at e; omega)
      (by
        intro x hx
        rw [n4 _ _ (hbi _ _ _).symm, n3 _ _ hb4.symm, n2 _ _ hb3.symm hb4.symm, n1 _ _ hbc.symm,
          hBv x hx]
        congr 1)
      (by
        intro x hx
        rw [n4 _ _ (hci _ _ _).symm, n3 _ _ hc4.symm, n2 _ _ hc3.symm hc4.symm, vc x hx]
        simp)
    refine ⟨?_, ?_, ?_⟩
    · intro j x h1 h2 hx
      by_cases hj : j = i - 1
      · subst hj
        rw [denAll_ne, hD x hx]
        · have e1 : i - 1 - 1 = i - 2 := by omega
          have e2 : i - 1 + 1 = i := by omega
          rw [e1, e2]
        · intro op hop
          rcases (crossLoop_lines w hw ks kd z t n (i + 1) (by omega) b c a hb4 hc4 ha4 op hop).1 with
            h | h | h | h | h | ⟨k, k1, k2, h⟩ <;> rw [h]
          · exact hbi _ _ _
          · exact hci _ _ _
          · exact hai _ _ _
          · simp
          · simp
          · intro e; simp only [LId.img.injEq] at e; omega
      · exact c1 j x (by omega) (by omega) hx
    · intro x hx
      rw [c2 x hx]
      congr 1; omega
    · intro x hx
      rw [c3 x hx]
      congr 1; omega

/-- The value computed by the cross kernel inside a block. -/
def crossVal (f : α → α → α) (border : α) (w h : Nat) (S : Nat → Nat → α) (y x : Nat) : α :=
  f (twoVal f border w (S y) x) (f (lineUp border S y x) (lineDn border h S y x))

theorem crossPh1_lines (w : Nat) (hw : 1 ≤ w) (ks z fl t : Nat) :
    Ph1Lines w ks z t (crossPh1 ks z fl t) := by
  intro op hop
  simp only [crossPh1, List.cons_append, List.mem_cons, List.mem_append, List.not_mem_nil,
    or_false] at hop
  rcases hop with rfl | hop | rfl | rfl | rfl
  · exact ⟨⟨_, rfl⟩, by simp [LOp.ins], trivial⟩
  · obtain ⟨h1, h2, h3⟩ := twoWays_lines w hw (.buf t 0) (.buf t 3) (.buf t 4) (by simp) op hop
    refine ⟨?_, ?_, h3⟩
    · rcases h1 with h | h <;> exact ⟨_, h⟩
    · intro r hr
      rcases h2 r hr with h | h | h <;> exact Or.inr (Or.inl ⟨_, h⟩)
  · exact ⟨⟨_, rfl⟩, by simp [LOp.ins], trivial⟩
  · exact ⟨⟨_, rfl⟩, by simp [LOp.ins], trivial⟩
  · refine ⟨⟨_, rfl⟩, ?_, trivial⟩
    simp only [LOp.ins, List.mem_cons, List.not_mem_nil, or_false, forall_eq_or_imp, forall_eq]
    split <;> simp

theorem crossPh1_spec (f : α → α → α) (border : α) (w : Nat) (ks z h fl t : Nat)
    (S : Nat → Nat → α) (hfl : fl + 1 < h) (m : KMem α)
    (hS : ∀ y x, y < h → x < w → m (.img ks z y, x) = S y x)
    (hB : ∀ x, x < w → m (.border, x) = border) (x : Nat) (hx : x < w) :
    denAll f border w (crossPh1 ks z fl t) m (.buf t 0, x) = S fl x ∧
    denAll f border w (crossPh1 ks z fl t) m (.buf t 1, x) = S (fl + 1) x ∧
    denAll f border w (crossPh1 ks z fl t) m (.buf t 5, x) =
      f (lineUp border S fl x) (f (twoVal f border w (S fl) x) (S (fl + 1) x)) := by
  simp only [crossPh1, List.cons_append, denAll_append, denAll_cons, denAll_nil]
  generalize hm1 : LOp.den f border w m (.copy (.img ks z fl) (.buf t 0)) = m1
  generalize hm2 : denAll f border w (twoWays (.buf t 0) (.buf t 3) (.buf t 4)) m1 = m2
  have n1 : ∀ id x, LId.buf t 0 ≠ id → m1 (id, x) = m (id, x) := fun id x h => by
    rw [← hm1]; exact LOp.den_ne _ _ _ _ _ _ _ h
  have n2 : ∀ id x, LId.buf t 3 ≠ id → LId.buf t 4 ≠ id → m2 (id, x) = m1 (id, x) :=
    fun id x h h' => by rw [← hm2]; exact twoWays_ne _ _ _ _ _ _ _ _ _ h h'
  have v0 : ∀ x, x < w → m1 (.buf t 0, x) = S fl x := fun x hx => by
    rw [← hm1, den_copy_self _ _ _ _ _ _ _ hx, hS _ _ (by omega) hx]
  have v3 : ∀ x, x < w → m2 (.buf t 3, x) = twoVal f border w (S fl) x := fun x hx => by
    rw [← hm2, twoWays_spec _ _ _ _ _ _ (by simp) (by simp) (by simp) _ _ hx]
    exact twoVal_congr _ _ _ _ _ _ hx fun j hj => v0 j hj
  refine ⟨?_, ?_, ?_⟩
  · rw [LOp.den_ne _ _ _ _ _ _ _ (by simp [LOp.out]), LOp.den_ne _ _ _ _ _ _ _ (by simp [LOp.out]),
      LOp.den_ne _ _ _ _ _ _ _ (by simp [LOp.out]), n2 _ _ (by simp) (by simp), v0 x hx]
  · rw [LOp.den_ne _ _ _ _ _ _ _ (by simp [LOp.out]), LOp.den_ne _ _ _ _ _ _ _ (by simp [LOp.out]),
      den_copy_self _ _ _ _ _ _ _ hx, n2 _ _ (by simp) (by simp), n1 _ _ (by simp),
      hS _ _ (by omega) hx]
  · rw [den_zip_self _ _ _ _ _ _ _ _ hx, den_zip_self _ _ _ _ _ _ _ _ hx,
      den_copy_self _ _ _ _ _ _ _ hx, LOp.den_ne _ _ _ _ _ (.buf t 3) _ (by simp [LOp.out]), v3 x hx,
      n2 (.img ks z (fl + 1)) _ (by simp) (by simp), n1 _ _ (by simp), hS (fl + 1) _ (by omega) hx]
    congr 1
    unfold lineUp
    have hlast : ∀ id, (∀ b, id ≠ .buf t b) →
        LOp.den f border w (LOp.den f border w m2 (.copy (.img ks z (fl + 1)) (.buf t 1)))
          (.zip (.buf t 3) (.buf t 1) (.buf t 4)) (id, x) = m (id, x) := by
      intro id hid
      rw [LOp.den_ne _ _ _ _ _ _ _ (by exact (hid _).symm), LOp.den_ne _ _ _ _ _ _ _ (by exact (hid _).symm),
        n2 _ _ (hid _).symm (hid _).symm, n1 _ _ (hid _).symm]
    split
    · rw [hlast _ (by simp), hB x hx]
    · rw [hlast _ (by simp), hS _ _ (by omega) hx]

theorem crossPh2_lines (w : Nat) (hw : 1 ≤ w) (ks kd z h fl bs t : Nat) (hbs : 2 ≤ bs) :
    Ph2Lines w ks kd z fl bs 5 t (crossPh2 ks kd z h fl bs t) := by
  intro op hop
  obtain ⟨x, y, hxy, hn⟩ := crossLoop_names ks kd z t (bs - 2) (fl + 2) (.buf t 0) (.buf t 1) (.buf t 2)
  have hx : ∃ k, k < 3 ∧ x = .buf t k := by
    rcases hn with e | e | e <;> (obtain ⟨rfl, rfl⟩ := Prod.mk.inj e)
    · exact ⟨0, by omega, rfl⟩
    · exact ⟨1, by omega, rfl⟩
    · exact ⟨2, by omega, rfl⟩
  have hy : ∃ k, k < 3 ∧ y = .buf t k := by
    rcases hn with e | e | e <;> (obtain ⟨rfl, rfl⟩ := Prod.mk.inj e)
    · exact ⟨1, by omega, rfl⟩
    · exact ⟨2, by omega, rfl⟩
    · exact ⟨0, by omega, rfl⟩
  obtain ⟨kx, hkx, rfl⟩ := hx
  obtain ⟨ky, hky, rfl⟩ := hy
  simp only [crossPh2, hxy, List.mem_append, List.mem_cons, List.not_mem_nil, or_false] at hop
  rcases hop with (hop | hop) | rfl | rfl
  · obtain ⟨h1, h2, h3⟩ := crossLoop_lines w hw ks kd z t (bs - 2) (fl + 2) (by omega) (.buf t 0)
      (.buf t 1) (.buf t 2) (by simp) (by simp) (by simp) op hop
    refine ⟨?_, ?_, h3⟩
    · rcases h1 with h | h | h | h | h | ⟨j, k1, k2, h⟩
      · exact Or.inl ⟨0, by omega, h⟩
      · exact Or.inl ⟨1, by omega, h⟩
      · exact Or.inl ⟨2, by omega, h⟩
      · exact Or.inl ⟨3, by omega, h⟩
      · exact Or.inl ⟨4, by omega, h⟩
      · exact Or.inr ⟨j, by omega, by omega, h⟩
    · intro r hr
      rcases h2 r hr with h | h | h | h | h | ⟨j, k1, k2, h⟩
      · exact Or.inr (Or.inl ⟨_, h⟩)
      · exact Or.inr (Or.inl ⟨_, h⟩)
      · exact Or.inr (Or.inl ⟨_, h⟩)
      · exact Or.inr (Or.inl ⟨_, h⟩)
      · exact Or.inr (Or.inl ⟨_, h⟩)
      · exact Or.inr (Or.inr ⟨j, by omega, by omega, h⟩)
  · obtain ⟨h1, h2, h3⟩ := twoWays_lines w hw (.buf t ky) (.buf t 3) (.buf t 4)
      (by simp; omega) op hop
    refine ⟨?_, ?_, h3⟩
    · rcases h1 with h | h
      · exact Or.inl ⟨3, by omega, h⟩
      · exact Or.inl ⟨4, by omega, h⟩
    · intro r hr
      rcases h2 r hr with h | h | h <;> exact Or.inr (Or.inl ⟨_, h⟩)
  · exact ⟨Or.inl ⟨3, by omega, rfl⟩, by simp [LOp.ins], trivial⟩
  · refine ⟨Or.inr ⟨fl + bs - 1, by omega, by omega, rfl⟩, ?_, trivial⟩
    intro r hr
    simp only [LOp.ins, List.mem_cons, List.not_mem_nil, or_false] at hr
    rcases hr with rfl | rfl
    · exact Or.inr (Or.inl ⟨_, rfl⟩)
    · split
      · exact Or.inl rfl
      · exact Or.inr (Or.inr ⟨_, by omega, by omega, rfl⟩)

theorem crossPh2_spec (f : α → α → α) [Std.Associative f] [Std.Commutative f] (border : α) (w : Nat)
    (hw : 1 ≤ w) (ks kd z h fl bs t : Nat) (S : Nat → Nat → α)
    (hbs : 2 ≤ bs) (hle : fl + bs ≤ h) (m : KMem α)
    (hS : ∀ j x, fl < j → j ≤ fl + bs → j < h → x < w → m (.img ks z j, x) = S j x)
    (hA : ∀ x, x < w → m (.buf t 0, x) = S fl x) (hA1 : ∀ x, x < w → m (.buf t 1, x) = S (fl + 1) x)
    (hB : ∀ x, x < w → m (.border, x) = border) (j x : Nat) (h1 : fl < j) (h2 : j < fl + bs)
    (hx : x < w) :
    denAll f border w (crossPh2 ks kd z h fl bs t) m (.img kd z j, x) =
      crossVal f border w h S j x := by
  obtain ⟨p1, p2, hxy, hn⟩ :=
    crossLoop_names ks kd z t (bs - 2) (fl + 2) (.buf t 0) (.buf t 1) (.buf t 2)
  have hlines := crossLoop_lines w hw ks kd z t (bs - 2) (fl + 2) (by omega) (.buf t 0) (.buf t 1)
    (.buf t 2) (by simp) (by simp) (by simp)
  obtain ⟨c1, c2, c3⟩ := crossLoop_spec f border w hw ks kd z t S (bs - 2) (fl + 2) (by omega)
    (.buf t 0) (.buf t 1) (.buf t 2) (by simp) (by simp) (by simp) (by simp) (by simp) (by simp) m
    (fun j x a b c => hS j x (by omega) (by omega) (by omega) c)
    (fun x hx => by rw [hA x hx]; simp) (fun x hx => by rw [hA1 x hx]; rfl)
  have hp : p2 ≠ .buf t 3 ∧ p2 ≠ .buf t 4 ∧ p1 ≠ .buf t 3 ∧ p1 ≠ .buf t 4 := by
    rcases hn with e | e | e <;> (obtain ⟨rfl, rfl⟩ := Prod.mk.inj e) <;> simp
  simp only [crossPh2, denAll_append]
  generalize crossLoop ks kd z t (bs - 2) (fl + 2) (.buf t 0) (.buf t 1) (.buf t 2) = r at *
  obtain ⟨ops, q1, q2⟩ := r
  simp only at *
  obtain ⟨rfl, rfl⟩ := Prod.mk.inj hxy
  generalize hm1 : denAll f border w ops m = m1 at *
  have hlast : ∀ id x, (∀ b, id ≠ .buf t b) → (∀ j, fl < j → j < fl + bs - 1 →
      id ≠ .img kd z j) → m1 (id, x) = m (id, x) := by
    intro id x i1 i3
    rw [← hm1]
    apply denAll_ne
    intro op hop e
    rcases (hlines op hop).1 with h | h | h | h | h | ⟨j, a, b, h⟩
    · exact i1 _ (e ▸ h)
    · exact i1 _ (e ▸ h)
    · exact i1 _ (e ▸ h)
    · exact i1 _ (e ▸ h)
    · exact i1 _ (e ▸ h)
    · exact i3 j (by omega) (by omega) (e ▸ h)
  simp only [denAll_cons, denAll_nil]
  by_cases hj : j = fl + bs - 1
  · rw [hj, den_zip_self _ _ _ _ _ _ _ _ hx, den_zip_self _ _ _ _ _ _ _ _ hx,
      twoWays_ne _ _ _ _ _ _ _ _ _ hp.2.2.1.symm hp.2.2.2.symm, c2 x hx,
      twoWays_spec _ _ _ _ _ _ hp.1 hp.2.1 (by simp) _ _ hx,
      twoVal_congr _ _ _ _ _ _ hx (fun j hj => c3 j hj)]
    have hdn : LOp.den f border w (denAll f border w (twoWays q2 (.buf t 3) (.buf t 4)) m1)
        (.zip q1 (.buf t 3) (.buf t 3)) (if fl + bs = h then .border else .img ks z (fl + bs), x) =
        lineDn border h S (fl + bs - 1) x := by
      unfold lineDn
      have e3 : fl + bs - 1 + 1 = fl + bs := by omega
      rw [e3]
      by_cases hb : fl + bs = h
      · rw [if_pos hb, if_pos hb, LOp.den_ne _ _ _ _ _ _ _ (by simp [LOp.out]),
          twoWays_ne _ _ _ _ _ _ _ _ _ (by simp) (by simp), hlast _ _ (by simp) (by simp), hB x hx]
      · rw [if_neg hb, if_neg hb, LOp.den_ne _ _ _ _ _ _ _ (by simp [LOp.out]),
          twoWays_ne _ _ _ _ _ _ _ _ _ (by simp) (by simp), hlast _ _ (by simp),
          hS _ _ (by omega) (by omega) (by omega) hx]
        intro j a b e; simp only [LId.img.injEq] at e; omega
    rw [hdn]
    unfold crossVal lineUp
    have e1 : fl + 2 + (bs - 2) - 2 = fl + bs - 1 - 1 := by omega
    have e2 : fl + 2 + (bs - 2) - 1 = fl + bs - 1 := by omega
    rw [e1, e2, if_neg (show ¬ fl + bs - 1 = 0 by omega),
      Std.Commutative.comm (op := f) (S (fl + bs - 1 - 1) x), Std.Associative.assoc (op := f)]
  · rw [LOp.den_ne _ _ _ _ _ _ _ (by simp only [LOp.out, ne_eq, LId.img.injEq]; omega),
      LOp.den_ne _ _ _ _ _ _ _ (by simp [LOp.out]),
      twoWays_ne _ _ _ _ _ _ _ _ _ (by simp) (by simp), c1 j x (by omega) (by omega) hx]
    unfold crossVal lineUp lineDn
    rw [if_neg (by omega), if_neg (by omega)]

theorem crossSlice_eq (ks kd h n z : Nat) : crossSlice ks kd h n z =
    blockPhases (fun t => crossPh1 ks z (blockFirst n h t) t)
      (fun t => crossPh2 ks kd z h (blockFirst n h t) (blockSize n h t) t) 5 kd z h n := rfl

theorem crossSlice_spec (f : α → α → α) [Std.Associative f] [Std.Commutative f]
    (border : α) (w : Nat) (hw : 1 ≤ w) (ks kd z h n : Nat) (B : Blocks n h) (S : Nat → Nat → α)
    (m m' : KMem α) (hrun : KRun f border w (crossSlice ks kd h n z) m m')
    (hS : ∀ y x, y < h → x < w → m (.img ks z y, x) = S y x)
    (hB : ∀ x, x < w → m (.border, x) = border) :
    (∀ y x, y < h → x < w → m' (.img kd z y, x) = crossVal f border w h S y x) ∧
    ∀ id x, (∀ t b, id ≠ .buf t b) → (∀ y, id ≠ .img kd z y) → m' (id, x) = m (id, x) := by
  refine blockPhases_spec f border w ks kd z h n 5 B _ _ S (crossVal f border w h S)
    (fun t _ => crossPh1_lines w hw _ _ _ _) (fun t ht => crossPh2_lines w hw _ _ _ _ _ _ _ (B.size t ht))
    ?_ ?_ m m' (by rw [← crossSlice_eq]; exact hrun) hS hB
  · intro t ht m hS hB x hx
    have s := B.size t ht
    have l := B.le t ht
    rw [(crossPh1_spec f border w ks z h _ t S (by omega) m hS hB x hx).2.2]
    unfold crossVal lineDn
    rw [if_neg (by omega), ← Std.Associative.assoc (op := f),
      Std.Commutative.comm (op := f) (lineUp border S _ x), Std.Associative.assoc (op := f)]
  · intro t ht m m1 hS hB hS1 hB1 hb j x hj1 hj2 hx
    have s := B.size t ht
    have l := B.le t ht
    exact crossPh2_spec f border w hw ks kd z h _ _ t S s l m1 (fun j x _ _ a b => hS1 j x a b)
      (fun x hx => by rw [hb]; exact (crossPh1_spec f border w ks z h _ t S (by omega) m hS hB x hx).1)
      (fun x hx => by rw [hb]; exact (crossPh1_spec f border w ks z h _ t S (by omega) m hS hB x hx).2.1)
      hB1 j x hj1 hj2 hx

end Smil
