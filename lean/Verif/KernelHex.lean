import Verif.KernelLoops

/-! # The hexagonal kernel (single-threaded) -/

namespace Smil
variable {α : Type}

/-- A line combined with its neighbour at distance `dx`. -/
def stepV (f : α → α → α) (border : α) (w : Nat) (dx : Int) (L : Nat → α) (i : Nat) : α :=
  f (L i) (shv border w dx L i)

theorem stepV_congr (f : α → α → α) (border : α) (w : Nat) (dx : Int) (L L' : Nat → α) (i : Nat)
    (hi : i < w) (h : ∀ j, j < w → L j = L' j) : stepV f border w dx L i = stepV f border w dx L' i := by
  unfold stepV; rw [h i hi, shv_congr border w dx L L' i h]

theorem shifted_spec (f : α → α → α) (border : α) (w : Nat) (a : LId) (dx : Int) (o tmp : LId)
    (h2 : a ≠ tmp) (m : KMem α) (x : Nat) (hx : x < w) :
    denAll f border w (shifted a dx o tmp) m (o, x) = stepV f border w dx (fun j => m (a, j)) x := by
  simp only [shifted, denAll_cons, denAll_nil]
  rw [den_zip_self _ _ _ _ _ _ _ _ hx, den_shift_self _ _ _ _ _ _ _ _ hx,
    LOp.den_ne _ _ _ (.shift a dx tmp) _ a _ h2.symm]
  rfl

theorem shifted_ne (f : α → α → α) (border : α) (w : Nat) (a : LId) (dx : Int) (o tmp : LId)
    (m : KMem α) (id : LId) (x : Nat) (h1 : o ≠ id) (h2 : tmp ≠ id) :
    denAll f border w (shifted a dx o tmp) m (id, x) = m (id, x) := by
  apply denAll_ne
  intro op hop
  simp only [shifted, List.mem_cons, List.not_mem_nil, or_false] at hop
  rcases hop with rfl | rfl <;> simpa [LOp.out]

/-- An operation of the hexagonal slice. -/
def HexLine (w kd s lo hi : Nat) (op : LOp) : Prop :=
  ((∃ b, op.out = .buf 0 b) ∨ ∃ j, lo ≤ j ∧ j < hi ∧ op.out = .img kd s j) ∧ op.ok w

theorem shifted_lines (w : Nat) (hw : 1 ≤ w) (kd s lo hi : Nat) (a : LId) (dx : Int) (i j : Nat)
    (h : a ≠ .buf 0 j) (hdx : dx = 1 ∨ dx = -1) :
    ∀ op ∈ shifted a dx (.buf 0 i) (.buf 0 j), HexLine w kd s lo hi op := by
  intro op hop
  simp only [shifted, List.mem_cons, List.not_mem_nil, or_false] at hop
  rcases hop with rfl | rfl
  · exact ⟨Or.inl ⟨_, rfl⟩, h, by omega, by omega⟩
  · exact ⟨Or.inl ⟨_, rfl⟩, trivial⟩

theorem hexDx_cases (l s : Nat) : hexDx l s = 1 ∨ hexDx l s = -1 := by
  unfold hexDx; split <;> simp

theorem hexLoop_names (ks kd s : Nat) (n l : Nat) (a b c : LId) :
    ∃ x y, (hexLoop ks kd s n l a b c).2 = (x, y) ∧
      ((x, y) = (a, b) ∨ (x, y) = (b, c) ∨ (x, y) = (c, a)) := by
  induction n generalizing l a b c with
  | zero => exact ⟨a, b, rfl, Or.inl rfl⟩
  | succ n ih =>
    obtain ⟨x, y, h1, h2⟩ := ih (l + 1) b c a
    refine ⟨x, y, h1, ?_⟩
    rcases h2 with h | h | h
    · exact Or.inr (Or.inl h)
    · exact Or.inr (Or.inr h)
    · exact Or.inl h

theorem hexLoop_lines (w : Nat) (hw : 1 ≤ w) (ks kd s : Nat) (n l : Nat) (hl : 1 ≤ l) (i j k : Nat)
    (hi : i ≠ 4) (hj : j ≠ 4) (hk : k ≠ 4) :
    ∀ op ∈ (hexLoop ks kd s n l (.buf 0 i) (.buf 0 j) (.buf 0 k)).1,
      HexLine w kd s (l - 1) (l + n - 1) op := by
  induction n generalizing l i j k with
  | zero => intro op h; simp [hexLoop] at h
  | succ n ih =>
    intro op h
    simp only [hexLoop, List.mem_cons, List.mem_append, List.not_mem_nil, or_false] at h
    rcases h with ((h | h) | rfl | rfl) | h
    · exact shifted_lines w hw _ _ _ _ _ _ _ _ (by simp) (hexDx_cases _ _) op h
    · exact shifted_lines w hw _ _ _ _ _ _ _ _ (by simpa using hj) (hexDx_cases _ _) op h
    · exact ⟨Or.inl ⟨_, rfl⟩, trivial⟩
    · exact ⟨Or.inr ⟨_, by omega, by omega, rfl⟩, trivial⟩
    · obtain ⟨h1, h2⟩ := ih (l + 1) (by omega) j k i hj hk hi op h
      refine ⟨?_, h2⟩
      rcases h1 with h1 | ⟨j, a, b, h1⟩
      · exact Or.inl h1
      · exact Or.inr ⟨j, by omega, by omega, h1⟩

theorem hexLoop_spec (f : α → α → α) (border : α) (w : Nat) (hw : 1 ≤ w) (ks kd s : Nat)
    (S : Nat → Nat → α) (n l : Nat) (hl : 2 ≤ l) (i j k : Nat) (hij : i ≠ j) (hjk : j ≠ k)
    (hki : k ≠ i) (hi : i < 3) (hj : j < 3) (hk : k < 3) (m : KMem α)
    (hS : ∀ y x, l ≤ y → y < l + n → x < w → m (.img ks s y, x) = S y x)
    (hA : ∀ x, x < w → m (.buf 0 i, x) = stepV f border w (hexDx (l - 2) s) (S (l - 2)) x)
    (hB : ∀ x, x < w → m (.buf 0 j, x) = stepV f border w (hexDx (l - 1) s) (S (l - 1)) x) :
    let r := hexLoop ks kd s n l (.buf 0 i) (.buf 0 j) (.buf 0 k)
    let m' := denAll f border w r.1 m
    (∀ y x, l ≤ y + 1 → y + 1 < l + n → x < w → m' (.img kd s y, x) =
      f (stepV f border w (hexDx (y + 1) s) (stepV f border w (hexDx y s) (S y)) x)
        (f (stepV f border w (hexDx (y - 1) s) (S (y - 1)) x)
          (stepV f border w (hexDx (y + 1) s) (S (y + 1)) x))) ∧
    (∀ x, x < w → m' (r.2.1, x) = stepV f border w (hexDx (l + n - 2) s) (S (l + n - 2)) x) ∧
    ∀ x, x < w → m' (r.2.2, x) = stepV f border w (hexDx (l + n - 1) s) (S (l + n - 1)) x := by
  induction n generalizing l i j k m with
  | zero => exact ⟨fun y x h1 h2 => by omega, fun x hx => hA x hx, fun x hx => hB x hx⟩
  | succ n ih =>
    simp only [hexLoop, denAll_append, denAll_cons, denAll_nil]
    generalize hm1 : denAll f border w (shifted (.img ks s l) (hexDx l s) (.buf 0 k) (.buf 0 5)) m = m1
    generalize hm2 : denAll f border w (shifted (.buf 0 j) (hexDx l s) (.buf 0 3) (.buf 0 4)) m1 = m2
    generalize hm3 : LOp.den f border w m2 (.zip (.buf 0 i) (.buf 0 k) (.buf 0 4)) = m3
    generalize hm4 : LOp.den f border w m3 (.zip (.buf 0 3) (.buf 0 4) (.img kd s (l - 1))) = m4
    have n1 : ∀ id x, LId.buf 0 k ≠ id → LId.buf 0 5 ≠ id → m1 (id, x) = m (id, x) := fun id x h h' => by
      rw [← hm1]; exact shifted_ne _ _ _ _ _ _ _ _ _ _ h h'
    have n2 : ∀ id x, LId.buf 0 3 ≠ id → LId.buf 0 4 ≠ id → m2 (id, x) = m1 (id, x) :=
      fun id x h h' => by rw [← hm2]; exact shifted_ne _ _ _ _ _ _ _ _ _ _ h h'
    have n3 : ∀ id x, LId.buf 0 4 ≠ id → m3 (id, x) = m2 (id, x) := fun id x h => by
      rw [← hm3]; exact LOp.den_ne _ _ _ _ _ _ _ h
    have n4 : ∀ id x, LId.img kd s (l - 1) ≠ id → m4 (id, x) = m3 (id, x) := fun id x h => by
      rw [← hm4]; exact LOp.den_ne _ _ _ _ _ _ _ h
    have bne : ∀ a b : Nat, a ≠ b → LId.buf 0 a ≠ LId.buf 0 b := fun a b h => by simpa using h
    have vk : ∀ x, x < w → m1 (.buf 0 k, x) = stepV f border w (hexDx l s) (S l) x := fun x hx => by
      rw [← hm1, shifted_spec _ _ _ _ _ _ _ (by simp) _ _ hx]
      exact stepV_congr _ _ _ _ _ _ _ hx fun y hy => hS _ _ (by omega) (by omega) hy
    have vj1 : ∀ x, x < w → m1 (.buf 0 j, x) = stepV f border w (hexDx (l - 1) s) (S (l - 1)) x :=
      fun x hx => by rw [n1 _ _ (bne _ _ (by omega)) (bne _ _ (by omega)), hB x hx]
    have v3 : ∀ x, x < w → m2 (.buf 0 3, x) =
        stepV f border w (hexDx l s) (stepV f border w (hexDx (l - 1) s) (S (l - 1))) x := fun x hx => by
      rw [← hm2, shifted_spec _ _ _ _ _ _ _ (bne _ _ (by omega)) _ _ hx]
      exact stepV_congr _ _ _ _ _ _ _ hx vj1
    have hD : ∀ x, x < w → m4 (.img kd s (l - 1), x) =
        f (stepV f border w (hexDx l s) (stepV f border w (hexDx (l - 1) s) (S (l - 1))) x)
          (f (stepV f border w (hexDx (l - 2) s) (S (l - 2)) x)
            (stepV f border w (hexDx l s) (S l) x)) := fun x hx => by
      rw [← hm4, den_zip_self _ _ _ _ _ _ _ _ hx, n3 _ _ (by simp), v3 x hx, ← hm3,
        den_zip_self _ _ _ _ _ _ _ _ hx, n2 _ _ (bne _ _ (by omega)) (bne _ _ (by omega)),
        n1 _ _ (bne _ _ (by omega)) (bne _ _ (by omega)), hA x hx,
        n2 _ _ (bne _ _ (by omega)) (bne _ _ (by omega)), vk x hx]
    obtain ⟨c1, c2, c3⟩ := ih (l + 1) (by omega) j k i hjk hki hij hj hk hi m4
      (by
        intro y x h1 h2 hx
        rw [n4, n3 _ _ (by simp), n2 _ _ (by simp) (by simp), n1 _ _ (by simp) (by simp),
          hS _ _ (by omega) (by omega) hx]
        intro e; simp only [LId.img.injEq] at e; omega)
      (by
        intro x hx
        rw [n4 _ _ (by simp), n3 _ _ (bne _ _ (by omega)), n2 _ _ (bne _ _ (by omega)) (bne _ _ (by omega)),
          vj1 x hx]
        have e : l + 1 - 2 = l - 1 := by omega
        rw [e])
      (by
        intro x hx
        rw [n4 _ _ (by simp), n3 _ _ (bne _ _ (by omega)), n2 _ _ (bne _ _ (by omega)) (bne _ _ (by omega)),
          vk x hx]
        simp)
    refine ⟨?_, ?_, ?_⟩
    · intro y x h1 h2 hx
      by_cases hy : y = l - 1
      · subst hy
        rw [denAll_ne, hD x hx]
        · have e1 : l - 1 - 1 = l - 2 := by omega
          have e2 : l - 1 + 1 = l := by omega
          rw [e1, e2]
        · intro op hop
          rcases (hexLoop_lines w hw ks kd s n (l + 1) (by omega) j k i (by omega) (by omega) (by omega)
            op hop).1 with ⟨b, h⟩ | ⟨y, k1, k2, h⟩ <;> rw [h]
          · simp
          · intro e; simp only [LId.img.injEq] at e; omega
      · exact c1 y x (by omega) (by omega) hx
    · intro x hx
      rw [c2 x hx]
      have e : l + 1 + n - 2 = l + (n + 1) - 2 := by omega
      rw [e]
    · intro x hx
      rw [c3 x hx]
      have e : l + 1 + n - 1 = l + (n + 1) - 1 := by omega
      rw [e]

/-- The value computed by the hexagonal kernel on an even slice. -/
def hexVal (f : α → α → α) (border : α) (w h : Nat) (S : Nat → Nat → α) (y x : Nat) : α :=
  f (stepV f border w (hexDx (y + 1) 0) (stepV f border w (hexDx y 0) (S y)) x)
    (f (if y = 0 then border else stepV f border w (hexDx (y - 1) 0) (S (y - 1)) x)
      (if y + 1 = h then border else stepV f border w (hexDx (y + 1) 0) (S (y + 1)) x))

theorem hexDx_even (l s : Nat) (hs : s % 2 = 0) : hexDx l s = hexDx l 0 := by
  unfold hexDx; simp [hs]

theorem hexSlice_lines (w : Nat) (hw : 1 ≤ w) (ks kd h s : Nat) (hh : 2 ≤ h) :
    ∀ op ∈ hexSlice ks kd h s, HexLine w kd s 0 h op := by
  intro op hop
  obtain ⟨x, y, hxy, hn⟩ := hexLoop_names ks kd s (h - 2) 2 (.buf 0 0) (.buf 0 1) (.buf 0 2)
  have hy : ∃ k, k < 3 ∧ y = .buf 0 k := by
    rcases hn with e | e | e <;> (obtain ⟨rfl, rfl⟩ := Prod.mk.inj e)
    · exact ⟨1, by omega, rfl⟩
    · exact ⟨2, by omega, rfl⟩
    · exact ⟨0, by omega, rfl⟩
  obtain ⟨ky, hky, rfl⟩ := hy
  simp only [hexSlice, hxy, List.mem_append, List.mem_cons, List.not_mem_nil, or_false] at hop
  rcases hop with (((((h1 | h1) | h1) | rfl | rfl) | h1) | h1) | rfl | rfl
  · exact shifted_lines w hw _ _ _ _ _ _ _ _ (by simp) (by simp) op h1
  · exact shifted_lines w hw _ _ _ _ _ _ _ _ (by simp) (by simp) op h1
  · exact shifted_lines w hw _ _ _ _ _ _ _ _ (by simp) (by simp) op h1
  · exact ⟨Or.inl ⟨_, rfl⟩, trivial⟩
  · exact ⟨Or.inr ⟨0, by omega, by omega, rfl⟩, trivial⟩
  · obtain ⟨h2, h3⟩ := hexLoop_lines w hw ks kd s (h - 2) 2 (by omega) 0 1 2 (by omega) (by omega)
      (by omega) op h1
    refine ⟨?_, h3⟩
    rcases h2 with h2 | ⟨j, a, b, h2⟩
    · exact Or.inl h2
    · exact Or.inr ⟨j, by omega, by omega, h2⟩
  · exact shifted_lines w hw _ _ _ _ _ _ _ _ (by simp; omega) (hexDx_cases _ _) op h1
  · exact ⟨Or.inl ⟨_, rfl⟩, trivial⟩
  · exact ⟨Or.inr ⟨h - 1, by omega, by omega, rfl⟩, trivial⟩

theorem hexSlice_spec (f : α → α → α) [Std.Associative f] [Std.Commutative f] (border : α)
    (hunit : ∀ v, f border v = v) (w : Nat) (hw : 1 ≤ w)
    (ks kd h s : Nat) (hh : 2 ≤ h) (hs : s % 2 = 0) (S : Nat → Nat → α) (m : KMem α)
    (hS : ∀ y x, y < h → x < w → m (.img ks s y, x) = S y x)
    (hB : ∀ x, x < w → m (.border, x) = border) (y x : Nat) (hy : y < h) (hx : x < w) :
    denAll f border w (hexSlice ks kd h s) m (.img kd s y, x) = hexVal f border w h S y x := by
  have hcb : ∀ v, f v border = v := fun v => by rw [Std.Commutative.comm (op := f), hunit]
  have bne : ∀ a b : Nat, a ≠ b → LId.buf 0 a ≠ LId.buf 0 b := fun a b h => by simpa using h
  simp only [hexSlice, denAll_append, denAll_cons, denAll_nil]
  generalize hm1 : denAll f border w (shifted (.img ks s 0) (-1) (.buf 0 0) (.buf 0 5)) m = m1
  generalize hm2 : denAll f border w (shifted (.buf 0 0) 1 (.buf 0 3) (.buf 0 4)) m1 = m2
  generalize hm3 : denAll f border w (shifted (.img ks s 1) 1 (.buf 0 1) (.buf 0 5)) m2 = m3
  generalize hm4 : LOp.den f border w m3 (.zip (.buf 0 3) (.buf 0 1) (.buf 0 4)) = m4
  generalize hm5 : LOp.den f border w m4 (.zip .border (.buf 0 4) (.img kd s 0)) = m5
  have n1 : ∀ id x, LId.buf 0 0 ≠ id → LId.buf 0 5 ≠ id → m1 (id, x) = m (id, x) := fun id x h h' => by
    rw [← hm1]; exact shifted_ne _ _ _ _ _ _ _ _ _ _ h h'
  have n2 : ∀ id x, LId.buf 0 3 ≠ id → LId.buf 0 4 ≠ id → m2 (id, x) = m1 (id, x) :=
    fun id x h h' => by rw [← hm2]; exact shifted_ne _ _ _ _ _ _ _ _ _ _ h h'
  have n3 : ∀ id x, LId.buf 0 1 ≠ id → LId.buf 0 5 ≠ id → m3 (id, x) = m2 (id, x) :=
    fun id x h h' => by rw [← hm3]; exact shifted_ne _ _ _ _ _ _ _ _ _ _ h h'
  have n4 : ∀ id x, LId.buf 0 4 ≠ id → m4 (id, x) = m3 (id, x) := fun id x h => by
    rw [← hm4]; exact LOp.den_ne _ _ _ _ _ _ _ h
  have n5 : ∀ id x, LId.img kd s 0 ≠ id → m5 (id, x) = m4 (id, x) := fun id x h => by
    rw [← hm5]; exact LOp.den_ne _ _ _ _ _ _ _ h
  have d0 : hexDx 0 0 = -1 := rfl
  have d1 : hexDx 1 0 = 1 := rfl
  have v0 : ∀ x, x < w → m1 (.buf 0 0, x) = stepV f border w (-1) (S 0) x := fun x hx => by
    rw [← hm1, shifted_spec _ _ _ _ _ _ _ (by simp) _ _ hx]
    exact stepV_congr _ _ _ _ _ _ _ hx fun j hj => hS _ _ (by omega) hj
  have v3 : ∀ x, x < w → m2 (.buf 0 3, x) = stepV f border w 1 (stepV f border w (-1) (S 0)) x :=
    fun x hx => by
    rw [← hm2, shifted_spec _ _ _ _ _ _ _ (by simp) _ _ hx]
    exact stepV_congr _ _ _ _ _ _ _ hx v0
  have v1 : ∀ x, x < w → m3 (.buf 0 1, x) = stepV f border w 1 (S 1) x := fun x hx => by
    rw [← hm3, shifted_spec _ _ _ _ _ _ _ (by simp) _ _ hx]
    exact stepV_congr _ _ _ _ _ _ _ hx fun j hj => by
      rw [n2 _ _ (by simp) (by simp), n1 _ _ (by simp) (by simp), hS _ _ (by omega) hj]
  have frame : ∀ id x, (∀ b, id ≠ .buf 0 b) → id ≠ .img kd s 0 → m5 (id, x) = m (id, x) :=
    fun id x h h' => by
      rw [n5 _ _ h'.symm, n4 _ _ (h _).symm, n3 _ _ (h _).symm (h _).symm,
        n2 _ _ (h _).symm (h _).symm, n1 _ _ (h _).symm (h _).symm]
  have hD0 : ∀ x, x < w → m5 (.img kd s 0, x) = hexVal f border w h S 0 x := fun x hx => by
    rw [← hm5, den_zip_self _ _ _ _ _ _ _ _ hx, n4 _ _ (by simp), n3 _ _ (by simp) (by simp),
      n2 _ _ (by simp) (by simp), n1 _ _ (by simp) (by simp), hB x hx, hunit, ← hm4,
      den_zip_self _ _ _ _ _ _ _ _ hx, v1 x hx, n3 _ _ (by simp) (by simp), v3 x hx]
    unfold hexVal
    simp only [if_true, if_neg (show ¬ 0 + 1 = h by omega), hunit]
    rw [d0, Nat.zero_add, d1]
  obtain ⟨p1, p2, hxy, hn⟩ := hexLoop_names ks kd s (h - 2) 2 (.buf 0 0) (.buf 0 1) (.buf 0 2)
  have hlines := hexLoop_lines w hw ks kd s (h - 2) 2 (by omega) 0 1 2 (by omega) (by omega) (by omega)
  obtain ⟨c1, c2, c3⟩ := hexLoop_spec f border w hw ks kd s S (h - 2) 2 (by omega) 0 1 2 (by omega)
    (by omega) (by omega) (by omega) (by omega) (by omega) m5
    (by
      intro y x a b hx
      rw [frame _ _ (by simp) (by simp; omega), hS _ _ (by omega) hx])
    (by
      intro x hx
      rw [n5 _ _ (by simp), n4 _ _ (by simp), n3 _ _ (by simp) (by simp), n2 _ _ (by simp) (by simp),
        v0 x hx, hexDx_even _ s hs]; rfl)
    (by
      intro x hx
      rw [n5 _ _ (by simp), n4 _ _ (by simp), v1 x hx, hexDx_even _ s hs]; rfl)
  have hp : p2 ≠ .buf 0 3 ∧ p2 ≠ .buf 0 4 ∧ p1 ≠ .buf 0 3 ∧ p1 ≠ .buf 0 4 := by
    rcases hn with e | e | e <;> (obtain ⟨rfl, rfl⟩ := Prod.mk.inj e) <;> simp
  generalize hexLoop ks kd s (h - 2) 2 (.buf 0 0) (.buf 0 1) (.buf 0 2) = r at *
  obtain ⟨ops, q1, q2⟩ := r
  simp only at *
  obtain ⟨rfl, rfl⟩ := Prod.mk.inj hxy
  generalize hm6 : denAll f border w ops m5 = m6 at *
  generalize hm7 : denAll f border w (shifted q2 (hexDx h s) (.buf 0 3) (.buf 0 4)) m6 = m7
  have n7 : ∀ id x, LId.buf 0 3 ≠ id → LId.buf 0 4 ≠ id → m7 (id, x) = m6 (id, x) :=
    fun id x h h' => by rw [← hm7]; exact shifted_ne _ _ _ _ _ _ _ _ _ _ h h'
  have hb6 : m6 (.border, x) = border := by
    rw [← hm6, denAll_ne, frame _ _ (by simp) (by simp), hB x hx]
    intro op hop
    rcases (hlines op hop).1 with ⟨b, h⟩ | ⟨j, _, _, h⟩ <;> rw [h] <;> simp
  by_cases hl : y = h - 1
  · rw [hl, den_zip_self _ _ _ _ _ _ _ _ hx, den_zip_self _ _ _ _ _ _ _ _ hx,
      LOp.den_ne _ _ _ _ _ .border _ (by simp [LOp.out]), n7 _ _ (by simp) (by simp), hb6, hunit,
      n7 _ _ hp.2.2.1.symm hp.2.2.2.symm, c2 x hx, ← hm7,
      shifted_spec _ _ _ _ _ _ _ hp.2.1 _ _ hx, stepV_congr _ _ _ _ _ _ _ hx c3]
    unfold hexVal
    have e1 : 2 + (h - 2) - 2 = h - 1 - 1 := by omega
    have e2 : 2 + (h - 2) - 1 = h - 1 := by omega
    have e3 : h - 1 + 1 = h := by omega
    rw [e1, e2, e3, if_neg (show ¬ h - 1 = 0 by omega), if_pos rfl, hcb]
    simp only [hexDx_even _ s hs]
  · rw [LOp.den_ne _ _ _ _ _ _ _ (by simp only [LOp.out, ne_eq, LId.img.injEq]; omega),
      LOp.den_ne _ _ _ _ _ _ _ (by simp [LOp.out]), n7 _ _ (by simp) (by simp)]
    by_cases hy0 : y = 0
    · subst hy0
      rw [← hm6, denAll_ne, hD0 x hx]
      intro op hop
      rcases (hlines op hop).1 with ⟨b, h⟩ | ⟨j, k1, k2, h⟩ <;> rw [h]
      · simp
      · intro e; simp only [LId.img.injEq] at e; omega
    · rw [c1 y x (by omega) (by omega) hx]
      unfold hexVal
      rw [if_neg hy0, if_neg (by omega)]
      simp only [hexDx_even _ s hs]

end Smil
