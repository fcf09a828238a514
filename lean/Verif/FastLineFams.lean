import Verif.FastLineRuns
import Mathlib.Tactic.Linarith
import Mathlib.Tactic.Ring

/-! # The lines of each direction form a family -/

namespace Smil

theorem range_cons {β : Type} (g : Nat → β) (n : Nat) :
    (List.range (n + 1)).map g = g 0 :: (List.range n).map fun j => g (j + 1) := by
  rw [List.range_succ_eq_map, List.map_cons, List.map_map]; rfl

/-! ### Diagonals -/

theorem walkPos_spec (W H : Nat) : ∀ (n fuel : Nat) (x y idx : Int), n < fuel →
    n = (min ((W : Int) - x) (H - y)).toNat →
    walkPos W H fuel x y idx = some ((List.range n).map fun j : Nat => idx + j * ((W : Int) + 1)) := by
  intro n
  induction n with
  | zero =>
    intro fuel x y idx hf hn
    obtain ⟨fuel, rfl⟩ : ∃ g, fuel = g + 1 := ⟨fuel - 1, by omega⟩
    unfold walkPos
    rw [if_neg (by omega)]; rfl
  | succ n ih =>
    intro fuel x y idx hf hn
    obtain ⟨fuel, rfl⟩ : ∃ g, fuel = g + 1 := ⟨fuel - 1, by omega⟩
    unfold walkPos
    rw [if_pos (by omega), ih fuel (x + 1) (y + 1) _ (by omega) (by omega), range_cons]
    simp only [Option.map_some]
    congr 1
    congr 1
    · simp
    · apply List.map_congr_left
      intro j _
      push_cast; ring

theorem walkNeg_spec (W : Nat) : ∀ (n fuel : Nat) (x y idx : Int), n < fuel →
    n = (min ((W : Int) - 1 - x) y).toNat →
    walkNeg W fuel x y idx = some ((List.range n).map fun j : Nat => idx - (j + 1) * ((W : Int) - 1)) := by
  intro n
  induction n with
  | zero =>
    intro fuel x y idx hf hn
    obtain ⟨fuel, rfl⟩ : ∃ g, fuel = g + 1 := ⟨fuel - 1, by omega⟩
    unfold walkNeg
    rw [if_neg (by omega)]; rfl
  | succ n ih =>
    intro fuel x y idx hf hn
    obtain ⟨fuel, rfl⟩ : ∃ g, fuel = g + 1 := ⟨fuel - 1, by omega⟩
    unfold walkNeg
    rw [if_pos (by omega), ih fuel (x + 1) (y - 1) _ (by omega) (by omega), range_cons]
    simp only [Option.map_some]
    congr 1
    congr 1
    · push_cast; ring
    · apply List.map_congr_left
      intro j _
      push_cast; ring

/-- The line of number `s`: with the minor coordinate `γ s a`, over the whole image. -/
def IsLine (A B sa sb : Nat) (γ : Nat → Int) (l : List Int) (a0 n : Nat) : Prop :=
  (l = (List.range n).map fun j => ((a0 + j : Nat) : Int) * sa + γ (a0 + j) * sb) ∧
    ∀ a, (a0 ≤ a ∧ a < a0 + n) ↔ (a < A ∧ 0 ≤ γ a ∧ γ a < B)

theorem linePosDiag_spec (W H : Nat) (s : Int) : ∃ l a0 n, linePosDiag W H 0 s = some l ∧
    IsLine W H 1 W (fun a => s + a) l a0 n := by
  by_cases hs : s < 0
  · refine ⟨_, (-s).toNat, (min ((W : Int) - (-s)) (H - 0)).toNat, ?_, rfl, ?_⟩
    · unfold linePosDiag
      simp only [lt_irrefl, if_false, if_pos hs]
      rw [walkPos_spec W H _ (W + 1) (0 - s) 0 _ (by omega) rfl]
      simp only [zero_sub]
      apply congrArg some
      apply List.map_congr_left
      intro j _
      have h : ((-s).toNat : Int) = -s := by omega
      push_cast
      rw [h]; ring
    · intro a
      dsimp only
      omega
  · refine ⟨_, 0, (min ((W : Int) - 0) (H - s)).toNat, ?_, rfl, ?_⟩
    · unfold linePosDiag
      simp only [lt_irrefl, if_false, if_neg hs]
      rw [walkPos_spec W H _ (W + 1) 0 s _ (by omega) rfl]
      apply congrArg some
      apply List.map_congr_left
      intro j _
      push_cast; ring
    · intro a
      dsimp only
      omega

theorem lineNegDiag_spec (W H : Nat) (hH : 0 < H) (s : Int) (hs : 0 ≤ s) : ∃ l a0 n, lineNegDiag W H 0 s = some l ∧
    IsLine W H 1 W (fun a => s - a) l a0 n := by
  -- the first pixel
  obtain ⟨a0, y, e1, e2, e3, e4⟩ : ∃ (a0 y : Nat), (if s ≥ H then (0 : Int) + (s - H + 1) else 0) = a0 ∧
      (if s ≥ H then (H : Int) - 1 else s) = y ∧ s = a0 + y ∧ (y < H ∧ (a0 = 0 ∨ y + 1 = H)) := by
    by_cases h : s ≥ H
    · exact ⟨(s - H + 1).toNat, H - 1, by rw [if_pos h]; omega, by rw [if_pos h]; omega, by omega, by omega⟩
    · exact ⟨0, s.toNat, by rw [if_neg h]; rfl, by rw [if_neg h]; omega, by omega, by omega⟩
  unfold lineNegDiag
  rw [e1, e2]
  dsimp only
  by_cases hW : (a0 : Int) ≥ W
  · rw [if_pos hW]
    exact ⟨[], a0, 0, rfl, rfl, fun a => by dsimp only; omega⟩
  · rw [if_neg hW]
    refine ⟨_, a0, (min ((W : Int) - 1 - a0) y).toNat + 1, ?_, rfl, ?_⟩
    · rw [walkNeg_spec W _ (W + 1) a0 y _ (by omega) rfl, range_cons]
      simp only [Option.map_some]
      congr 1
      congr 1
      · push_cast; rw [e3]; ring
      · apply List.map_congr_left
        intro j _
        push_cast; rw [e3]; ring
    · intro a
      dsimp only
      omega

/-! ### Bresenham -/

/-- Properties of the minor offset. -/
structure BresFn (c : Nat → Nat) : Prop where
  zero : c 0 = 0
  mono : ∀ a, c a ≤ c (a + 1)
  step : ∀ a, c (a + 1) ≤ c a + 1

theorem BresFn.le {c : Nat → Nat} (h : BresFn c) {a a' : Nat} (hle : a ≤ a') : c a ≤ c a' := by
  induction hle with
  | refl => exact le_rfl
  | step _ ih => exact ih.trans (h.mono _)

theorem BresFn.le_self {c : Nat → Nat} (h : BresFn c) (a : Nat) : c a ≤ a := by
  induction a with
  | zero => rw [h.zero]
  | succ a ih => have := h.step a; omega

theorem BresFn.hit {c : Nat → Nat} (h : BresFn c) (a t : Nat) (ht : t ≤ c a) : ∃ a' ≤ a, c a' = t := by
  induction a with
  | zero => exact ⟨0, le_rfl, by rw [h.zero] at ht ⊢; omega⟩
  | succ a ih =>
    by_cases ht' : t ≤ c a
    · obtain ⟨a', h1, h2⟩ := ih ht'
      exact ⟨a', by omega, h2⟩
    · have := h.step a
      exact ⟨a + 1, le_rfl, by omega⟩

theorem bresFn_id : BresFn id := ⟨rfl, fun a => by simp, fun a => by simp⟩

/-- The minor offset after `a` steps: the least integer that is at least `a * db / da`. -/
def bresC (da db a : Nat) : Nat := (a * db + (da - 1)) / da

theorem bresC_lt (da db a : Nat) (hd : 0 < da) : da * bresC da db a < a * db + da := by
  unfold bresC
  have := Nat.mul_div_le (a * db + (da - 1)) da
  omega

theorem bresC_ge (da db a : Nat) (hd : 0 < da) : a * db ≤ da * bresC da db a := by
  unfold bresC
  have := Nat.lt_mul_div_succ (a * db + (da - 1)) hd
  rw [Nat.mul_add] at this
  omega

theorem bresC_unique (da db a v : Nat) (h1 : da * v < a * db + da) (h2 : a * db ≤ da * v) (hd : 0 < da) :
    bresC da db a = v := by
  have h3 := bresC_lt da db a hd
  have h4 := bresC_ge da db a hd
  apply le_antisymm
  · by_contra h
    have : da * (v + 1) ≤ da * bresC da db a := Nat.mul_le_mul_left _ (by omega)
    rw [Nat.mul_add] at this
    omega
  · by_contra h
    have : da * (bresC da db a + 1) ≤ da * v := Nat.mul_le_mul_left _ (by omega)
    rw [Nat.mul_add] at this
    omega

/-- The decision taken by the algorithm. -/
theorem bresC_succ (da db a : Nat) (hd : db ≤ da) (hd0 : 0 < da) :
    bresC da db (a + 1) = if da * bresC da db a < (a + 1) * db then bresC da db a + 1 else bresC da db a := by
  have h3 := bresC_lt da db a hd0
  have h4 := bresC_ge da db a hd0
  have e : (a + 1) * db = a * db + db := by ring
  split_ifs with h
  · exact bresC_unique da db (a + 1) _ (by rw [Nat.mul_add]; omega) (by rw [Nat.mul_add]; omega) hd0
  · exact bresC_unique da db (a + 1) _ (by omega) (by omega) hd0

theorem bresFn_bresC (da db : Nat) (hd : db ≤ da) (hd0 : 0 < da) : BresFn (bresC da db) := by
  refine ⟨?_, fun a => ?_, fun a => ?_⟩
  · exact bresC_unique da db 0 0 (by omega) (by omega) hd0
  · rw [bresC_succ da db a hd hd0]; split_ifs <;> omega
  · rw [bresC_succ da db a hd hd0]; split_ifs <;> omega

/-- The value of `dp` at the major coordinate `a`. -/
def bresDp (da db a : Nat) : Int := 2 * db * (a + 1) - 2 - 2 * da * bresC da db a

theorem bresDp_step (da db a : Nat) (hd : db ≤ da) (hd0 : 0 < da) :
    (bresDp da db a ≥ 0 → bresC da db (a + 1) = bresC da db a + 1 ∧
      bresDp da db (a + 1) = bresDp da db a + (2 * db - 2 * da)) ∧
    (¬ bresDp da db a ≥ 0 → bresC da db (a + 1) = bresC da db a ∧
      bresDp da db (a + 1) = bresDp da db a + 2 * db) := by
  have key : bresDp da db a ≥ 0 ↔ da * bresC da db a < (a + 1) * db := by
    unfold bresDp
    rw [← Int.ofNat_lt]
    push_cast
    constructor
    · intro h; nlinarith
    · intro h; nlinarith
  have h := bresC_succ da db a hd hd0
  refine ⟨fun h1 => ?_, fun h1 => ?_⟩
  · rw [if_pos (key.1 h1)] at h
    refine ⟨h, ?_⟩
    unfold bresDp
    rw [h]; push_cast; ring
  · rw [if_neg (fun h2 => h1 (key.2 h2))] at h
    refine ⟨h, ?_⟩
    unfold bresDp
    rw [h]; push_cast; ring

theorem bresSkip_spec (da db : Nat) (hd : db ≤ da) (hd0 : 0 < da) (s : Int) (K : Nat) (hK : 0 ≤ s + bresC da db K) :
    ∀ (t fuel a : Nat), K - a = t → t < fuel → ∃ a0 ≥ a,
      bresSkip da db fuel a (s + bresC da db a) (bresDp da db a) = some ((a0 : Int), s + bresC da db a0, bresDp da db a0) ∧
      0 ≤ s + bresC da db a0 ∧ ∀ a' ≥ a, a' < a0 → s + bresC da db a' < 0 := by
  have hb := bresFn_bresC da db hd hd0
  intro t
  induction t with
  | zero =>
    intro fuel a ht hf
    obtain ⟨fuel, rfl⟩ : ∃ g, fuel = g + 1 := ⟨fuel - 1, by omega⟩
    have hle := hb.le (show K ≤ a by omega)
    refine ⟨a, le_rfl, ?_, by omega, fun a' h1 h2 => by omega⟩
    unfold bresSkip
    rw [if_neg (by omega)]
  | succ t ih =>
    intro fuel a ht hf
    obtain ⟨fuel, rfl⟩ : ∃ g, fuel = g + 1 := ⟨fuel - 1, by omega⟩
    obtain ⟨a0, g1, g2, g3, g4⟩ := ih fuel (a + 1) (by omega) (by omega)
    unfold bresSkip
    by_cases hc : s + bresC da db a < 0
    · rw [if_pos (.inr hc)]
      obtain ⟨s1, s2⟩ := bresDp_step da db a hd hd0
      refine ⟨a0, by omega, ?_, g3, fun a' h1 h2 => ?_⟩
      · by_cases hp : bresDp da db a ≥ 0
        · rw [if_pos hp]
          obtain ⟨e1, e2⟩ := s1 hp
          rw [e1, e2] at g2
          push_cast at g2
          rw [← add_assoc] at g2
          exact g2
        · rw [if_neg hp]
          obtain ⟨e1, e2⟩ := s2 hp
          rw [e1, e2] at g2
          push_cast at g2
          exact g2
      · by_cases h : a' = a
        · rw [h]; exact hc
        · exact g4 a' (by omega) h2
    · rw [if_neg (by omega)]
      exact ⟨a, le_rfl, rfl, by omega, fun a' h1 h2 => by omega⟩

theorem bresWalk_spec (da db A B sa sb : Nat) (hd : db ≤ da) (hd0 : 0 < da) (s : Int) :
    ∀ (t fuel a : Nat), A - a = t → t < fuel → ∃ n,
      bresWalk da db sa sb A B fuel a (s + bresC da db a) (bresDp da db a) (a * sa + (s + bresC da db a) * sb)
        = some ((List.range n).map fun j => ((a + j : Nat) : Int) * sa + (s + bresC da db (a + j)) * sb) ∧
      (∀ j < n, a + j < A ∧ s + bresC da db (a + j) < B) ∧ ¬ (a + n < A ∧ s + bresC da db (a + n) < B) := by
  intro t
  induction t with
  | zero =>
    intro fuel a ht hf
    obtain ⟨fuel, rfl⟩ : ∃ g, fuel = g + 1 := ⟨fuel - 1, by omega⟩
    refine ⟨0, ?_, fun j hj => absurd hj (by omega), by omega⟩
    unfold bresWalk
    rw [if_neg (by omega)]; rfl
  | succ t ih =>
    intro fuel a ht hf
    obtain ⟨fuel, rfl⟩ : ∃ g, fuel = g + 1 := ⟨fuel - 1, by omega⟩
    obtain ⟨n, g2, g3, g4⟩ := ih fuel (a + 1) (by omega) (by omega)
    unfold bresWalk
    by_cases hc : (a : Int) < A ∧ s + bresC da db a < B
    · rw [if_pos hc]
      obtain ⟨s1, s2⟩ := bresDp_step da db a hd hd0
      refine ⟨n + 1, ?_, fun j hj => ?_, ?_⟩
      · rw [range_cons]
        have hl : ((List.range n).map fun j => ((a + (j + 1) : Nat) : Int) * sa + (s + bresC da db (a + (j + 1))) * sb)
            = (List.range n).map fun j => ((a + 1 + j : Nat) : Int) * sa + (s + bresC da db (a + 1 + j)) * sb := by
          apply List.map_congr_left
          intro j _
          rw [show a + (j + 1) = a + 1 + j by omega]
        rw [hl]
        by_cases hp : bresDp da db a ≥ 0
        · rw [if_pos hp]
          obtain ⟨e1, e2⟩ := s1 hp
          rw [e2] at g2
          have e3 : s + (bresC da db (a + 1) : Int) = s + bresC da db a + 1 := by rw [e1]; push_cast; ring
          rw [e3] at g2
          have e4 : ((a + 1 : Nat) : Int) * sa + (s + bresC da db a + 1) * sb
              = (a * sa + (s + bresC da db a) * sb) + sb + sa := by push_cast; ring
          rw [e4] at g2
          push_cast at g2 ⊢
          rw [g2]
          simp
        · rw [if_neg hp]
          obtain ⟨e1, e2⟩ := s2 hp
          rw [e2] at g2
          have e3 : s + (bresC da db (a + 1) : Int) = s + bresC da db a := by rw [e1]
          rw [e3] at g2
          have e4 : ((a + 1 : Nat) : Int) * sa + (s + bresC da db a) * sb
              = (a * sa + (s + bresC da db a) * sb) + sa := by push_cast; ring
          rw [e4] at g2
          push_cast at g2 ⊢
          rw [g2]
          simp
      · cases j with
        | zero => exact ⟨by omega, by simpa using hc.2⟩
        | succ j =>
          rw [show a + (j + 1) = a + 1 + j by omega]
          exact g3 j (by omega)
      · rw [show a + (n + 1) = a + 1 + n by omega]
        exact g4
    · rw [if_neg hc]
      exact ⟨0, rfl, fun j hj => absurd hj (by omega), by simpa using hc⟩

theorem bresLine_spec (da db A B sa sb : Nat) (hd : db ≤ da) (hb0 : 0 < db) (s : Int) : ∃ l a0 n,
    bresLine da db sa sb A B 0 s = some l ∧ IsLine A B sa sb (fun a => s + bresC da db a) l a0 n := by
  have hd0 : 0 < da := by omega
  have hb := bresFn_bresC da db hd hd0
  have hK : 0 ≤ s + bresC da db ((-s).toNat * da) := by
    have h1 := bresC_ge da db ((-s).toNat * da) hd0
    have h2 : (-s).toNat ≤ bresC da db ((-s).toNat * da) := by
      by_contra h
      have h3 : da * (bresC da db ((-s).toNat * da) + 1) ≤ da * (-s).toNat := Nat.mul_le_mul_left _ (by omega)
      have h4 : (-s).toNat * da * 1 ≤ (-s).toNat * da * db := Nat.mul_le_mul_left _ hb0
      rw [Nat.mul_add] at h3
      have h5 : da * (-s).toNat = (-s).toNat * da := Nat.mul_comm _ _
      omega
    omega
  obtain ⟨a0, _, g2, g3, g4⟩ := bresSkip_spec da db hd hd0 s _ hK _ ((-s).toNat * da + 1) 0 rfl (by omega)
  obtain ⟨n, w1, w2, w3⟩ := bresWalk_spec da db A B sa sb hd hd0 s (A - a0) (A + 1) a0 rfl (by omega)
  refine ⟨_, a0, n, ?_, rfl, ?_⟩
  · unfold bresLine
    have e1 : bresDp da db 0 = 2 * db - 2 := by
      unfold bresDp; rw [hb.zero]; push_cast; ring
    rw [hb.zero, e1] at g2
    have e2 : (-(0 : Int)).toNat + (-s).toNat * (da : Int).toNat + 1 = (-s).toNat * da + 1 := by simp
    rw [e2]
    simp only [Nat.cast_zero, add_zero] at g2
    rw [g2]
    simp only [Option.bind_eq_bind, Option.bind_some]
    rw [add_comm ((s + (bresC da db a0 : Int)) * sb)]
    exact w1
  · intro a
    dsimp only
    constructor
    · rintro ⟨h1, h2⟩
      have h3 := w2 (a - a0) (by omega)
      rw [show a0 + (a - a0) = a by omega] at h3
      have h4 := hb.le h1
      exact ⟨h3.1, by omega, h3.2⟩
    · rintro ⟨h1, h2, h3⟩
      have h4 : a0 ≤ a := by
        by_contra h
        have := g4 a (by omega) (by omega)
        omega
      refine ⟨h4, ?_⟩
      by_contra h
      have h5 := hb.le (show a0 + n ≤ a by omega)
      exact w3 ⟨by omega, by omega⟩

/-! ### The loop over the lines -/

theorem genLines_spec (line : Int → Option (List Int)) (L : Int → List Int) (step : Int) : ∀ (K fuel : Nat) (s : Int),
    K < fuel → (∀ i ≤ K, line (s + i * step) = some (L (s + i * step))) →
    (∀ i < K, L (s + i * step) ≠ []) → L (s + K * step) = [] →
    genLines line step fuel s = some ((List.range K).map fun i : Nat => L (s + i * step)) := by
  intro K
  induction K with
  | zero =>
    intro fuel s hf hl _ he
    obtain ⟨fuel, rfl⟩ : ∃ g, fuel = g + 1 := ⟨fuel - 1, by omega⟩
    have h0 := hl 0 le_rfl
    simp only [Nat.cast_zero, zero_mul, add_zero] at he h0
    unfold genLines
    rw [h0]
    simp [he]
  | succ K ih =>
    intro fuel s hf hl hne he
    obtain ⟨fuel, rfl⟩ : ∃ g, fuel = g + 1 := ⟨fuel - 1, by omega⟩
    have h0 := hl 0 (by omega)
    have h1 := hne 0 (by omega)
    simp only [Nat.cast_zero, zero_mul, add_zero] at h1 h0
    have e : ∀ i : Nat, s + step + (i : Int) * step = s + ((i + 1 : Nat) : Int) * step := by
      intro i; push_cast; ring
    unfold genLines
    rw [h0]
    simp only [Option.bind_some, if_neg h1]
    rw [ih fuel (s + step) (by omega) (fun i hi => by rw [e]; exact hl (i + 1) (by omega))
      (fun i hi => by rw [e]; exact hne (i + 1) (by omega)) (by rw [e]; exact he), range_cons]
    simp only [Option.map_some, e]
    congr 2
    simp

theorem IsLine.nil_iff {A B sa sb : Nat} {γ : Nat → Int} {l : List Int} {a0 n : Nat} (h : IsLine A B sa sb γ l a0 n) :
    l = [] ↔ ∀ a, ¬ (a < A ∧ 0 ≤ γ a ∧ γ a < B) := by
  rw [h.1]
  constructor
  · intro e a ha
    have := (h.2 a).2 ha
    have hn : n = 0 := by simpa using e
    omega
  · intro hh
    have hn : n = 0 := by
      by_contra h0
      exact hh a0 ((h.2 a0).1 ⟨le_rfl, by omega⟩)
    subst hn; rfl

/-- The lines that are given by translations of one of them. -/
theorem gen_fam (A B sa sb : Nat) (line : Int → Option (List Int)) (s0 step : Int) (hst : step = 1 ∨ step = -1)
    (γ : Int → Nat → Int) (hγ : ∀ s s' a, γ s a = γ s' a → s = s') (bnd : Nat)
    (hline : ∀ i : Nat, ∃ l a0 n, line (s0 + i * step) = some l ∧ IsLine A B sa sb (γ (s0 + i * step)) l a0 n)
    (hend : ∀ a < A, ¬ (0 ≤ γ (s0 + bnd * step) a ∧ γ (s0 + bnd * step) a < B))
    (fuel : Nat) (hfuel : bnd < fuel) :
    ∃ ls K a0 n, genLines line step fuel s0 = some ls ∧ IsFam A B sa sb ls K (fun i a => γ (s0 + i * step) a) a0 n ∧
      ∀ a, ¬ (a < A ∧ 0 ≤ γ (s0 + K * step) a ∧ γ (s0 + K * step) a < B) := by
  classical
  choose L a0 n hL hI using hline
  have hex : ∃ i, L i = [] := ⟨bnd, ((hI bnd).nil_iff).2 fun a h => hend a h.1 h.2⟩
  have hK := Nat.find_spec hex
  have hKle : Nat.find hex ≤ bnd := Nat.find_min' hex (((hI bnd).nil_iff).2 fun a h => hend a h.1 h.2)
  have hmin : ∀ i < Nat.find hex, L i ≠ [] := fun i hi => Nat.find_min hex hi
  generalize Nat.find hex = K at *
  have hidx : ∀ i j : Nat, s0 + (i : Int) * step = s0 + (j : Int) * step → i = j := by
    intro i j e
    rcases hst with h | h <;> rw [h] at e <;> omega
  refine ⟨(List.range K).map L, K, a0, n, ?_, ⟨?_, ?_, ?_, ?_⟩, ((hI K).nil_iff).1 hK⟩
  · obtain ⟨M, hM⟩ : ∃ M : Int → List Int, ∀ i : Nat, M (s0 + i * step) = L i := by
      refine ⟨fun s => if h : ∃ i : Nat, s0 + (i : Int) * step = s then L h.choose else [], fun i => ?_⟩
      have h : ∃ j : Nat, s0 + (j : Int) * step = s0 + i * step := ⟨i, rfl⟩
      dsimp only
      rw [dif_pos h, hidx _ _ h.choose_spec]
    rw [genLines_spec line M step K fuel s0 (by omega) (fun i _ => by rw [hM]; exact hL i)
      (fun i hi => by rw [hM]; exact hmin i hi) (by rw [hM]; exact hK)]
    simp only [hM]
  · apply List.map_congr_left
    intro i _
    exact (hI i).1
  · intro i _ a
    exact (hI i).2 a
  · intro i _ i' _ a e
    exact hidx _ _ (hγ _ _ _ e)
  · intro i hi
    by_contra h
    apply hmin i hi
    rw [(hI i).1, show n i = 0 by omega]
    rfl

/-- Lines going up in the minor coordinate, from the line `s0` down. -/
theorem famPlus (A B sa sb : Nat) (line : Int → Option (List Int)) (c : Nat → Nat) (hc : BresFn c) (s0 : Int)
    (hA : 0 < A) (hs0 : -1 ≤ s0) (hs1 : s0 < B)
    (hline : ∀ s, ∃ l a0 n, line s = some l ∧ IsLine A B sa sb (fun a => s + c a) l a0 n) :
    ∃ ls K a0 n, genLines line (-1) (A + B + 1) s0 = some ls ∧
      IsFam A B sa sb ls K (fun i a => s0 - i + c a) a0 n ∧
      ∀ a < A, ∀ b < B, (b : Int) - c a ≤ s0 → ∃ i < K, s0 - (i : Int) + c a = b := by
  obtain ⟨ls, K, a0, n, h1, h2, h3⟩ := gen_fam A B sa sb line s0 (-1) (.inr rfl) (fun s a => s + c a)
    (fun s s' a e => by omega) (s0 + A).toNat (fun i => hline _)
    (by
      intro a ha
      have := hc.le_self a
      omega) (A + B + 1) (by omega)
  have e : (fun (i : Nat) (a : Nat) => s0 + (i : Int) * -1 + c a) = fun (i : Nat) (a : Nat) => s0 - i + c a := by
    funext i a; ring
  rw [e] at h2
  refine ⟨ls, K, a0, n, h1, h2, fun a ha b hb hle => ?_⟩
  refine ⟨(s0 - b + c a).toNat, ?_, by omega⟩
  by_contra hK
  by_cases hs : 0 ≤ s0 + (K : Int) * -1
  · refine h3 0 ⟨hA, ?_, ?_⟩ <;> rw [hc.zero] <;> push_cast <;> omega
  · obtain ⟨a', g1, g2⟩ := hc.hit a (-(s0 + (K : Int) * -1)).toNat (by omega)
    exact h3 a' ⟨by omega, by omega, by omega⟩

/-- Lines going down in the minor coordinate by one at each step, from the line 0 up. -/
theorem famMinus (A B sa sb : Nat) (line : Int → Option (List Int)) (hA : 0 < A) (hB : 0 < B)
    (hline : ∀ s, 0 ≤ s → ∃ l a0 n, line s = some l ∧ IsLine A B sa sb (fun a => s - a) l a0 n) :
    ∃ ls K a0 n, genLines line 1 (A + B + 1) 0 = some ls ∧
      IsFam A B sa sb ls K (fun i a => (i : Int) - a) a0 n ∧
      ∀ a < A, ∀ b < B, ∃ i < K, ((i : Nat) : Int) - (a : Nat) = (b : Nat) := by
  obtain ⟨ls, K, a0, n, h1, h2, h3⟩ := gen_fam A B sa sb line 0 1 (.inl rfl) (fun s a => s - a)
    (fun s s' a e => by omega) (A + B - 1) (fun i => hline _ (by omega))
    (by
      intro a ha
      push_cast
      omega) (A + B + 1) (by omega)
  have e : (fun (i : Nat) (a : Nat) => 0 + (i : Int) * 1 - (a : Int)) = fun (i : Nat) (a : Nat) => (i : Int) - a := by
    funext i a; ring
  rw [e] at h2
  refine ⟨ls, K, a0, n, h1, h2, fun a ha b hb => ?_⟩
  refine ⟨a + b, ?_, by omega⟩
  by_contra hK
  exact h3 (min a K) ⟨by omega, by omega, by omega⟩

/-! ### Lines and columns -/

theorem famHor (W H : Nat) (hW : 0 < W) :
    IsFam W H 1 W (horLines W H) H (fun i _ => i) (fun _ => 0) (fun _ => W) := by
  refine ⟨?_, fun i hi a => by omega, fun i _ i' _ a e => by omega, fun _ _ => hW⟩
  unfold horLines
  apply List.map_congr_left
  intro y _
  apply List.map_congr_left
  intro x _
  push_cast; ring

theorem famVer (W H : Nat) (hH : 0 < H) :
    IsFam H W W 1 (verLines W H) W (fun i _ => i) (fun _ => 0) (fun _ => H) := by
  refine ⟨?_, fun i hi a => by omega, fun i _ i' _ a e => by omega, fun _ _ => hH⟩
  unfold verLines
  apply List.map_congr_left
  intro y _
  apply List.map_congr_left
  intro x _
  push_cast; ring

theorem offOk_hor (W H : Nat) : OffOk W H 1 W (W * H) := by
  refine ⟨fun a ha b hb => ?_, fun a ha b hb a' ha' b' hb' e => ?_⟩
  · have : (b + 1) * W ≤ H * W := Nat.mul_le_mul_right _ hb
    have e : (b + 1) * W = b * W + W := by ring
    have e' : H * W = W * H := Nat.mul_comm _ _
    omega
  · have e1 : b = b' := by
      have h1 : (a * 1 + b * W) / W = b := by
        rw [Nat.mul_one, Nat.add_mul_div_right _ _ (by omega), Nat.div_eq_of_lt ha, Nat.zero_add]
      have h2 : (a' * 1 + b' * W) / W = b' := by
        rw [Nat.mul_one, Nat.add_mul_div_right _ _ (by omega), Nat.div_eq_of_lt ha', Nat.zero_add]
      rw [← h1, e, h2]
    subst e1
    omega

theorem offOk_ver (W H : Nat) : OffOk H W W 1 (W * H) := by
  have h := offOk_hor W H
  refine ⟨fun a ha b hb => ?_, fun a ha b hb a' ha' b' hb' e => ?_⟩
  · have := h.lt b hb a ha
    omega
  · have := h.inj b hb a ha b' hb' a' ha' (by omega)
    exact ⟨this.2, this.1⟩

end Smil
