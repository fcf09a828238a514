import Verif.MorardRuns
import Verif.FastLineUse

/-! # From the buffers to the images: the opening of Morard -/

namespace Smil
variable {α : Type} [LinearOrder α]

omit [LinearOrder α] in
theorem morGen_of (line : Int → Option (List Int)) (step : Int) : ∀ (fuel : Nat) (s : Int) (ls : List (List Int)),
    genLines line step fuel s = some ls → morGen line id step fuel s = some (ls ++ [[]]) := by
  intro fuel
  induction fuel with
  | zero => intro s ls h; exact absurd h (by simp [genLines])
  | succ fuel ih =>
    intro s ls h
    unfold genLines at h
    unfold morGen
    cases e : line s with
    | none => rw [e] at h; exact absurd h (by simp)
    | some l =>
      rw [e] at h
      simp only [Option.bind_some] at h ⊢
      by_cases hl : l = []
      · subst hl
        rw [if_pos rfl] at h
        cases h
        rfl
      · rw [if_neg hl] at h
        rw [if_neg (by simp [hl])]
        obtain ⟨ls', e1, e2⟩ := Option.map_eq_some_iff.1 h
        rw [ih _ _ e1, ← e2]
        rfl

/-- The last line of a descending family. -/
theorem last_minus {A B sa sb : Nat} {ls : List (List Int)} {K : Nat} {a0 n : Nat → Nat}
    (hf : IsFam A B sa sb ls K (fun i a => (i : Int) - a) a0 n) (hA : 0 < A) (hB : 0 < B)
    (hc : ∀ a < A, ∀ b < B, ∃ i < K, ((i : Nat) : Int) - (a : Nat) = (b : Nat)) : ∃ i, K = i + 1 ∧ n i = 1 := by
  obtain ⟨i, hi, e⟩ := hc (A - 1) (by omega) (B - 1) (by omega)
  refine ⟨K - 1, by omega, ?_⟩
  have h0 := hf.pos (K - 1) (by omega)
  by_contra hne
  have h1 := (hf.dom (K - 1) (by omega) (a0 (K - 1))).1 ⟨by omega, by omega⟩
  have h2 := (hf.dom (K - 1) (by omega) (a0 (K - 1) + 1)).1 ⟨by omega, by omega⟩
  omega

/-- The last line of an ascending family. -/
theorem last_plus {A B sa sb da db : Nat} {ls : List (List Int)} {K : Nat} {a0 n : Nat → Nat} {s0 : Int} {size : Int}
    (hd : db ≤ da) (hd0 : 0 < da)
    (hf : IsFam A B sa sb ls K (fun i a => s0 - i + bresC da db a) a0 n) (hA : 0 < A) (hB : 0 < B) (hs0 : 0 ≤ s0)
    (hc : ∀ a < A, ∀ b < B, (b : Int) - bresC da db a ≤ s0 → ∃ i < K, s0 - (i : Int) + bresC da db a = b)
    (hsz : (da : Int) ≤ (size - 1) * db) : ∃ i, K = i + 1 ∧ ((n i : Int) < size ∨ n i = 1) := by
  have hb := bresFn_bresC da db hd hd0
  obtain ⟨i, hi, e⟩ := hc (A - 1) (by omega) 0 hB (by omega)
  refine ⟨K - 1, by omega, .inl ?_⟩
  have h0 := hf.pos (K - 1) (by omega)
  have h1 := (hf.dom (K - 1) (by omega) (a0 (K - 1))).1 ⟨by omega, by omega⟩
  have h2 := (hf.dom (K - 1) (by omega) (a0 (K - 1) + (n (K - 1) - 1))).1 ⟨by omega, by omega⟩
  have h3 := hb.le (a := a0 (K - 1)) (a' := a0 (K - 1) + (n (K - 1) - 1)) (by omega)
  have h4 := hb.le (a := a0 (K - 1) + (n (K - 1) - 1)) (a' := A - 1) (by omega)
  have heq : bresC da db (a0 (K - 1)) = bresC da db (a0 (K - 1) + (n (K - 1) - 1)) := by omega
  have h5 := bresC_lt da db (a0 (K - 1)) hd0
  have h6 := bresC_ge da db (a0 (K - 1) + (n (K - 1) - 1)) hd0
  rw [← heq] at h6
  obtain ⟨m, hm⟩ : ∃ m, n (K - 1) = m + 1 := ⟨n (K - 1) - 1, by omega⟩
  rw [hm, Nat.add_sub_cancel] at h6
  have h7 : m * db < da := by nlinarith
  by_contra hlt
  push Not at hlt
  rw [hm] at hlt
  have h8 : (size - 1) * db ≤ (m : Int) * db := by
    apply mul_le_mul_of_nonneg_right
    · push_cast at hlt; omega
    · omega
  have h9 : (m : Int) * db < da := by exact_mod_cast h7
  omega

end Smil
