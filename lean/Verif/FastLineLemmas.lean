import Verif.FastLine

/-! # The van Herk recursion computes the maximum of a sliding window -/

namespace Smil
variable {α : Type} [LinearOrder α]

/-- `v` is the greatest of the values numbered `a` to `b`. -/
def MaxOn (f : Nat → α) (a b : Nat) (v : α) : Prop :=
  (∃ j, a ≤ j ∧ j ≤ b ∧ f j = v) ∧ ∀ j, a ≤ j → j ≤ b → f j ≤ v

theorem MaxOn.single (f : Nat → α) (a : Nat) : MaxOn f a a (f a) :=
  ⟨⟨a, le_rfl, le_rfl, rfl⟩, fun j h1 h2 => le_of_eq (congrArg f (by omega))⟩

theorem MaxOn.union {f : Nat → α} {a b c d : Nat} {u v : α} (h : MaxOn f a c u) (h' : MaxOn f b d v)
    (hab : a ≤ b) (hbc : b ≤ c + 1) (hcd : c ≤ d) : MaxOn f a d (max u v) := by
  obtain ⟨⟨j, h1, h2, h3⟩, h4⟩ := h
  obtain ⟨⟨j', h1', h2', h3'⟩, h4'⟩ := h'
  refine ⟨?_, fun i hi hi' => ?_⟩
  · rcases le_total u v with h | h
    · exact ⟨j', by omega, h2', by rw [max_eq_right h, h3']⟩
    · exact ⟨j, h1, by omega, by rw [max_eq_left h, h3]⟩
  · by_cases hc : i ≤ c
    · exact (h4 i hi hc).trans (le_max_left _ _)
    · exact (h4' i (by omega) hi').trans (le_max_right _ _)

theorem MaxOn.snoc {f : Nat → α} {a b : Nat} {v : α} (h : MaxOn f a b v) (hab : a ≤ b + 1) :
    MaxOn f a (b + 1) (max v (f (b + 1))) := h.union (MaxOn.single f (b + 1)) hab le_rfl (by omega)

theorem MaxOn.cons {f : Nat → α} {a b : Nat} {v : α} (h : MaxOn f (a + 1) b v) (hab : a ≤ b) :
    MaxOn f a b (max v (f a)) := by
  rw [max_comm]
  exact (MaxOn.single f a).union h (by omega) le_rfl hab

/-- End of the block of `x`. -/
def blockEnd (k x : Nat) : Nat := x - x % k + (k - 1)

theorem fill_inv (f : Nat → α) (n k : Nat) (hk : 0 < k) (raw : VH α) (m : Nat) (hm : m ≤ n) :
    let s := (List.range m).foldl (fun (s : VH α) x =>
      let x2 := n - 1 - x
      ⟨Function.update s.g x (if x % k ≠ 0 then max (s.g (x - 1)) (f x) else f x),
        Function.update s.h x2 (if x2 % k = k - 1 ∨ x2 = n - 1 then f x2 else max (s.h (x2 + 1)) (f x2)), s.h2⟩) raw
    (∀ x < m, MaxOn f (x - x % k) x (s.g x)) ∧
    (∀ x < n, n ≤ x + m → MaxOn f x (min (blockEnd k x) (n - 1)) (s.h x)) ∧ s.h2 = raw.h2 := by
  induction m with
  | zero => exact ⟨fun x hx => absurd hx (by omega), fun x hx hx' => absurd hx (by omega), rfl⟩
  | succ m ih =>
    obtain ⟨ih1, ih2, ih3⟩ := ih (by omega)
    rw [List.range_succ, List.foldl_append]
    simp only [List.foldl_cons, List.foldl_nil]
    generalize (List.range m).foldl _ raw = s at *
    refine ⟨fun x hx => ?_, fun x hx hx' => ?_, ih3⟩
    · by_cases hxm : x = m
      · subst hxm
        rw [Function.update_self]
        by_cases h0 : x % k = 0
        · rw [if_neg (by simpa using h0), h0]
          exact MaxOn.single f x
        · rw [if_pos h0]
          obtain ⟨y, rfl⟩ : ∃ y, x = y + 1 := ⟨x - 1, by
            have : x ≠ 0 := fun e => h0 (by rw [e]; simp)
            omega⟩
          have h1 := ih1 y (by omega)
          have h2 : (y + 1) % k = y % k + 1 := by
            have hlt := Nat.mod_lt y hk
            by_cases he : y % k + 1 = k
            · exfalso; apply h0
              rw [Nat.add_mod]
              rcases Nat.lt_or_ge 1 k with h | h
              · rw [Nat.mod_eq_of_lt h, he, Nat.mod_self]
              · have : k = 1 := by omega
                subst this; simp [Nat.mod_one]
            · rw [Nat.add_mod, Nat.mod_eq_of_lt (show 1 < k by omega), Nat.mod_eq_of_lt (by omega)]
          rw [Nat.add_sub_cancel, h2]
          have h3 : y + 1 - (y % k + 1) = y - y % k := by omega
          rw [h3]
          exact h1.snoc (by omega)
      · rw [Function.update_of_ne hxm]
        exact ih1 x (by omega)
    · by_cases hxm : x = n - 1 - m
      · rw [hxm, Function.update_self, ← hxm]
        by_cases h0 : x % k = k - 1 ∨ x = n - 1
        · rw [if_pos h0]
          have : min (blockEnd k x) (n - 1) = x := by
            have h3 := Nat.mod_le x k
            have h4 := Nat.mod_lt x hk
            unfold blockEnd
            omega
          rw [this]
          exact MaxOn.single f x
        · rw [if_neg h0]
          push Not at h0
          have h1 := ih2 (x + 1) (by omega) (by omega)
          have hlt := Nat.mod_lt x hk
          have h2 : (x + 1) % k = x % k + 1 := by
            rw [Nat.add_mod, Nat.mod_eq_of_lt (show 1 < k by omega), Nat.mod_eq_of_lt (by omega)]
          have h3 : blockEnd k (x + 1) = blockEnd k x := by
            unfold blockEnd
            rw [h2]; omega
          rw [h3] at h1
          have hle := Nat.mod_le x k
          exact h1.cons (by unfold blockEnd; omega)
      · rw [Function.update_of_ne hxm]
        exact ih2 x hx (by omega)

theorem vhFill_spec (f : Nat → α) (n k : Nat) (hk : 0 < k) (hn : 0 < n) (raw : VH α) :
    (∀ x < n, MaxOn f (x - x % k) x ((vhFill f n k raw).g x)) ∧
    (∀ x < n, MaxOn f x (min (blockEnd k x) (n - 1)) ((vhFill f n k raw).h x)) := by
  obtain ⟨h1, h2, _⟩ := fill_inv f n k hk raw n le_rfl
  unfold vhFill
  dsimp only
  generalize (List.range n).foldl _ raw = s at *
  refine ⟨h1, fun x hx => ?_⟩
  by_cases hx0 : x = 0
  · subst hx0
    rw [Function.update_self]
    by_cases h : k = 1 ∨ n = 1
    · rw [if_pos h]
      have : min (blockEnd k 0) (n - 1) = 0 := by unfold blockEnd; simp; omega
      rw [this]
      exact MaxOn.single f 0
    · rw [if_neg h]
      push Not at h
      have h3 := h2 1 (by omega) (by omega)
      have : blockEnd k 1 = blockEnd k 0 := by
        unfold blockEnd
        rw [Nat.mod_eq_of_lt (show 1 < k by omega)]; simp
      rw [this] at h3
      exact h3.cons (by omega)
  · rw [Function.update_of_ne hx0]
    exact h2 x hx (by omega)

/-- The maximum of the window of half-length `m` around `x`. -/
def WinMax (f : Nat → α) (n m x : Nat) (v : α) : Prop :=
  (∃ j < n, j ≤ x + m ∧ x ≤ j + m ∧ f j = v) ∧ ∀ j < n, j ≤ x + m → x ≤ j + m → f j ≤ v

theorem WinMax.of_maxOn {f : Nat → α} {n m x a b : Nat} {v : α} (h : MaxOn f a b v) (ha : a = x - m)
    (hb : b = min (x + m) (n - 1)) (hx : x < n) : WinMax f n m x v := by
  obtain ⟨⟨j, h1, h2, h3⟩, h4⟩ := h
  exact ⟨⟨j, by omega, by omega, by omega, h3⟩, fun i hi h5 h6 => h4 i (by omega) (by omega)⟩

theorem vhOut_spec (f : Nat → α) (n m : Nat) (hn : 0 < n) (s : VH α)
    (hg : ∀ x < n, MaxOn f (x - x % (2 * m + 1)) x (s.g x))
    (hh : ∀ x < n, MaxOn f x (min (blockEnd (2 * m + 1) x) (n - 1)) (s.h x))
    (hh2 : 2 * m + 1 < n → ∀ x < n, n ≤ x + 2 * m → MaxOn f x (n - 1) (s.h2 x)) (x : Nat) (hx : x < n) :
    WinMax f n m x (vhOut n (2 * m + 1) s x) := by
  have hk : (2 * m + 1) / 2 = m := by omega
  have hg0 : ∀ x < n, x < 2 * m + 1 → MaxOn f 0 x (s.g x) := by
    intro x h1 h2
    have := hg x h1
    rwa [Nat.mod_eq_of_lt h2, Nat.sub_self] at this
  have hh0 : n ≤ 2 * m + 1 → ∀ x < n, MaxOn f x (n - 1) (s.h x) := by
    intro h1 x h2
    have := hh x h2
    unfold blockEnd at this
    rw [Nat.mod_eq_of_lt (by omega), Nat.sub_self] at this
    rwa [min_eq_right (by omega)] at this
  unfold vhOut
  rw [hk]
  split_ifs with h1 h2 h3 h4 h5 h6
  · exact .of_maxOn (hg0 (n - 1) (by omega) (by omega)) (by omega) (by omega) hx
  · exact .of_maxOn (hg0 (x + m) (by omega) (by omega)) (by omega) (by omega) hx
  · exact .of_maxOn (hg0 (n - 1) (by omega) (by omega)) (by omega) (by omega) hx
  · exact .of_maxOn (hh0 h2 (x - m) (by omega)) (by omega) (by omega) hx
  · exact .of_maxOn (hg0 (x + m) (by omega) (by omega)) (by omega) (by omega) hx
  · have e1 := hg (x + m) (by omega)
    have e2 := hh (x - m) (by omega)
    rw [max_comm]
    -- the blocks of both ends
    obtain ⟨q, r, hr, e⟩ : ∃ q r, r < 2 * m + 1 ∧ x + m = q * (2 * m + 1) + r :=
      ⟨(x + m) / (2 * m + 1), (x + m) % (2 * m + 1), Nat.mod_lt _ (by omega), by
        rw [Nat.mul_comm]; exact (Nat.div_add_mod _ _).symm⟩
    have er : (x + m) % (2 * m + 1) = r := by
      rw [e, Nat.add_comm, Nat.add_mul_mod_self_right, Nat.mod_eq_of_lt hr]
    rw [er] at e1
    by_cases hr' : r = 2 * m
    · have e3 : (x - m) % (2 * m + 1) = 0 := by
        have : x - m = q * (2 * m + 1) := by omega
        rw [this, Nat.mul_mod_left]
      have : blockEnd (2 * m + 1) (x - m) = x + m := by unfold blockEnd; rw [e3]; omega
      rw [this, min_eq_left (by omega)] at e2
      exact .of_maxOn (e2.union e1 (by omega) (by omega) (by omega)) (by omega) (by omega) hx
    · -- the left end is in the previous block
      have hq : 1 ≤ q := by
        rcases Nat.eq_zero_or_pos q with h | h
        · subst h; omega
        · exact h
      obtain ⟨q', rfl⟩ : ∃ q', q = q' + 1 := ⟨q - 1, by omega⟩
      have e0 : x - m = q' * (2 * m + 1) + (r + 1) := by
        have : (q' + 1) * (2 * m + 1) = q' * (2 * m + 1) + (2 * m + 1) := by ring
        omega
      have e3 : (x - m) % (2 * m + 1) = r + 1 := by
        rw [e0, Nat.add_comm, Nat.add_mul_mod_self_right, Nat.mod_eq_of_lt (by omega)]
      have e4 : blockEnd (2 * m + 1) (x - m) = x + m - r - 1 := by
        have : (q' + 1) * (2 * m + 1) = q' * (2 * m + 1) + (2 * m + 1) := by ring
        unfold blockEnd; rw [e3]; omega
      rw [e4, min_eq_left (by omega)] at e2
      exact .of_maxOn (e2.union e1 (by omega) (by omega) (by omega)) (by omega) (by omega) hx
  · exact .of_maxOn (hh2 (by omega) (x - m) (by omega) (by omega)) (by omega) (by omega) hx

/-! ### The array `h2` -/

theorem h2Loop_spec (f : Nat → α) (cells n lim : Nat) (hc : n ≤ cells) (hn : n < 2 ^ 64) (hl : 0 < lim) :
    ∀ (x fuel : Nat) (h2 : Nat → α), x < fuel → x + 1 < n → (∀ j < n, x < j → MaxOn f j (n - 1) (h2 j)) →
      ∃ r, h2Loop f cells lim fuel x h2 = some r ∧ ∀ j < n, lim ≤ j → MaxOn f j (n - 1) (r j) := by
  intro x
  induction x with
  | zero =>
    intro fuel h2 hf hx h
    obtain ⟨fuel, rfl⟩ : ∃ g, fuel = g + 1 := ⟨fuel - 1, by omega⟩
    unfold h2Loop
    rw [if_neg (by omega)]
    exact ⟨h2, rfl, fun j hj hj' => h j hj (by omega)⟩
  | succ x ih =>
    intro fuel h2 hf hx h
    obtain ⟨fuel, rfl⟩ : ∃ g, fuel = g + 1 := ⟨fuel - 1, by omega⟩
    unfold h2Loop
    by_cases hlx : lim ≤ x + 1
    · rw [if_pos hlx, if_pos (by omega)]
      have e1 : (x + 1 + (2 ^ 64 - 1)) % 2 ^ 64 = x := by omega
      have e2 : (x + 1 + 1) % 2 ^ 64 = x + 1 + 1 := by omega
      rw [e1, e2]
      refine ih fuel _ (by omega) (by omega) fun j hj hxj => ?_
      by_cases hjx : j = x + 1
      · subst hjx
        rw [Function.update_self]
        exact (h (x + 1 + 1) (by omega) (by omega)).cons (by omega)
      · rw [Function.update_of_ne hjx]
        exact h j hj (by omega)
    · rw [if_neg hlx]
      exact ⟨h2, rfl, fun j hj hj' => h j hj (by omega)⟩

theorem h2Loop'_spec (f : Nat → α) (n lim : Nat) (hl : 0 < lim) :
    ∀ (x : Nat) (h2 : Nat → α), x + 1 < n → (∀ j < n, x < j → MaxOn f j (n - 1) (h2 j)) →
      ∀ j < n, lim ≤ j → MaxOn f j (n - 1) (h2Loop' f lim x h2 j) := by
  intro x
  induction x with
  | zero => intro h2 _ h j hj hj'; exact h j hj (by omega)
  | succ x ih =>
    intro h2 hx h
    unfold h2Loop'
    split_ifs with hlx
    · refine ih _ (by omega) fun j hj hxj => ?_
      by_cases hjx : j = x + 1
      · subst hjx
        rw [Function.update_self]
        exact (h (x + 2) (by omega) (by omega)).cons (by omega)
      · rw [Function.update_of_ne hjx]
        exact h j hj (by omega)
    · exact fun j hj hj' => h j hj (by omega)

/-- Lines and columns: outside of the two lengths 1 and `2 * m + 1`. -/
theorem dilHorVer_spec (ver : Bool) (cells m : Nat) (f : Nat → α) (n : Nat) (raw : VH α) (hc : n ≤ cells)
    (hn0 : 0 < n) (hn : n < 2 ^ 64) (hm : 2 * m + 1 < 2 ^ 64) (h1 : n ≠ 1) (hk : n ≠ 2 * m + 1) :
    ∃ r, dilHorVer ver cells (2 * m + 1) f n raw = some r ∧ ∀ x < n, WinMax f n m x (r x) := by
  obtain ⟨hg, hh⟩ := vhFill_spec f n (2 * m + 1) (by omega) hn0 raw
  unfold dilHorVer
  dsimp only
  have e1 : (n + (2 ^ 64 - 2)) % 2 ^ 64 = n - 2 := by omega
  rw [e1]
  by_cases hkn : 2 * m + 1 < n
  · have e2 : (n + (2 ^ 64 - (2 * m + 1))) % 2 ^ 64 = n - (2 * m + 1) := by omega
    rw [e2]
    obtain ⟨h2, e, hr⟩ := h2Loop_spec f cells n (n - (2 * m + 1)) hc hn (by omega) (n - 2) (n + 1)
      (Function.update (vhFill f n (2 * m + 1) raw).h2 (n - 1) (f (n - 1))) (by omega) (by omega) (by
        intro j hj hj'
        have : j = n - 1 := by omega
        subst this
        rw [Function.update_self]
        exact MaxOn.single f _)
    rw [e]
    refine ⟨_, rfl, fun x hx => ?_⟩
    refine vhOut_spec f n m hn0 _ ?_ ?_ ?_ x hx
    · exact hg
    · exact hh
    intro _ y hy hy'
    dsimp only
    have hy0 : y ≠ 0 := by omega
    rw [Function.update_of_ne hy0]
    exact hr y hy (by omega)
  · have e3 : ∀ h2 : Nat → α, h2Loop f cells ((n + (2 ^ 64 - (2 * m + 1))) % 2 ^ 64) (n + 1) (n - 2) h2 = some h2 := by
      intro h2
      unfold h2Loop
      rw [if_neg (by omega)]
    rw [e3]
    refine ⟨_, rfl, fun x hx => ?_⟩
    refine vhOut_spec f n m hn0 _ ?_ ?_ ?_ x hx
    · exact hg
    · exact hh
    exact fun h => absurd h hkn

/-- On the two other lengths the loop leaves the array. -/
theorem dilHorVer_ub (ver : Bool) (cells m : Nat) (f : Nat → α) (n : Nat) (raw : VH α) (hc : n ≤ cells)
    (hcc : cells < 2 ^ 64 - 1) (hn0 : 0 < n) (hm : 2 * m + 1 < 2 ^ 64) (h1 : n = 1 ∨ n = 2 * m + 1) :
    dilHorVer ver cells (2 * m + 1) f n raw = none := by
  unfold dilHorVer
  dsimp only
  have key : ∀ (x fuel : Nat) (h2 : Nat → α), x < cells → h2Loop f cells 0 fuel x h2 = none := by
    intro x
    induction x with
    | zero =>
      intro fuel h2 hx
      cases fuel with
      | zero => rfl
      | succ fuel =>
        unfold h2Loop
        rw [if_pos (Nat.zero_le _), if_pos hx]
        cases fuel with
        | zero => rfl
        | succ fuel =>
          unfold h2Loop
          rw [if_pos (Nat.zero_le _), if_neg (by omega)]
    | succ x ih =>
      intro fuel h2 hx
      cases fuel with
      | zero => rfl
      | succ fuel =>
        unfold h2Loop
        rw [if_pos (Nat.zero_le _), if_pos hx]
        have e1 : (x + 1 + (2 ^ 64 - 1)) % 2 ^ 64 = x := by omega
        rw [e1]
        exact ih _ _ (by omega)
  rcases h1 with rfl | rfl
  · have : ∀ lim h2, lim ≤ 2 ^ 64 - 1 → h2Loop f cells lim (1 + 1) ((1 + (2 ^ 64 - 2)) % 2 ^ 64) h2 = none := by
      intro lim h2 hl
      unfold h2Loop
      rw [if_pos (by omega), if_neg (by omega)]
    rw [this _ _ (by omega)]
    rfl
  · by_cases hm0 : m = 0
    · subst hm0
      have : ∀ lim h2, lim ≤ 2 ^ 64 - 1 →
          h2Loop f cells lim (2 * 0 + 1 + 1) ((2 * 0 + 1 + (2 ^ 64 - 2)) % 2 ^ 64) h2 = none := by
        intro lim h2 hl
        unfold h2Loop
        rw [if_pos (by omega), if_neg (by omega)]
      rw [this _ _ (by omega)]
      rfl
    · have e1 : (2 * m + 1 + (2 ^ 64 - (2 * m + 1))) % 2 ^ 64 = 0 := by omega
      rw [e1, key _ _ _ (by omega)]
      rfl

/-- Other lines: all lengths. -/
theorem dilAlong_spec (cells m : Nat) (f : Nat → α) (n : Nat) (raw : VH α) (hn0 : 0 < n) (hn : n < 2 ^ 64)
    (hm : 2 * m + 1 < 2 ^ 64) :
    ∃ r, dilAlong cells (2 * m + 1) f n raw = some r ∧ ∀ x < n, WinMax f n m x (r x) := by
  obtain ⟨hg, hh⟩ := vhFill_spec f n (2 * m + 1) (by omega) hn0 raw
  unfold dilAlong
  refine ⟨_, rfl, fun x hx => ?_⟩
  refine vhOut_spec f n m hn0 _ ?_ ?_ ?_ x hx
  · exact hg
  · exact hh
  intro hk y hy hy'
  dsimp only
  rw [if_pos (by omega)]
  have hy0 : y ≠ 0 := by omega
  rw [Function.update_of_ne hy0]
  have e2 : (n + (2 ^ 64 - (2 * m + 1))) % 2 ^ 64 = n - (2 * m + 1) := by omega
  rw [e2]
  refine h2Loop'_spec f n _ (by omega) (n - 2) _ (by omega) (fun j hj hj' => ?_) y hy (by omega)
  have : j = n - 1 := by omega
  subst this
  rw [Function.update_self]
  exact MaxOn.single f _

end Smil
