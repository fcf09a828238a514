import Verif.BitArr
import Mathlib.Tactic.Ring

/-! # Lemmas on packed binary images -/

namespace Smil

theorem writeLoop_apply (a b : Nat) (g : Nat → Word) (m : Words) (k : Nat) :
    writeLoop a b g m k = if a ≤ k ∧ k < b then g k else m k := by
  unfold writeLoop
  have key : ∀ (n : Nat) (a : Nat) (m : Words),
      (List.range' a n).foldl (fun m i => Function.update m i (g i)) m k
        = if a ≤ k ∧ k < a + n then g k else m k := by
    intro n
    induction n with
    | zero => intro a m; rw [if_neg (by omega)]; rfl
    | succ n ih =>
        intro a m
        rw [List.range'_succ, List.foldl_cons, ih]
        by_cases h1 : a + 1 ≤ k ∧ k < a + 1 + n
        · rw [if_pos h1, if_pos (by omega)]
        · rw [if_neg h1]
          by_cases h2 : k = a
          · subst h2; rw [if_pos (by omega)]; simp
          · rw [Function.update_of_ne h2, if_neg (by omega)]
  rw [key]
  by_cases h : a ≤ k ∧ k < b
  · rw [if_pos h, if_pos (by omega)]
  · rw [if_neg h, if_neg (by omega)]

theorem writeLoopM_some (a b : Nat) (g : Nat → Option Word) (v : Nat → Word) (m : Words)
    (h : ∀ k, a ≤ k → k < b → g k = some (v k)) : writeLoopM a b g m = some (writeLoop a b v m) := by
  unfold writeLoopM writeLoop
  have key : ∀ (l : List Nat) (m : Words), (∀ i ∈ l, g i = some (v i)) →
      l.foldlM (fun m i => (g i).map fun x => Function.update m i x) m
        = some (l.foldl (fun m i => Function.update m i (v i)) m) := by
    intro l
    induction l with
    | nil => intros; rfl
    | cons i l ih =>
        intro m h
        rw [List.foldlM_cons, h i (by simp)]
        exact ih _ (fun j hj => h j (by simp [hj]))
  apply key
  intro i hi
  rw [List.mem_range'_1] at hi
  exact h i hi.1 (by omega)

theorem testBit_word (x : Word) (b : Nat) (hb : b < 64) :
    decide (x &&& (1#64 <<< b) ≠ 0) = x.getLsbD b := by
  cases hx : x.getLsbD b
  · simp only [ne_eq, decide_not, Bool.not_eq_eq_eq_not, Bool.not_false, decide_eq_true_eq]
    apply BitVec.eq_of_getLsbD_eq
    intro i hi
    by_cases h : i = b
    · subst h; simp [hx]
    · simp only [BitVec.getLsbD_and, BitVec.getLsbD_shiftLeft, BitVec.getLsbD_one]
      by_cases h2 : i < b
      · simp [h2]
      · have : i - b ≠ 0 := by omega
        simp [this]
  · simp only [ne_eq, decide_not, Bool.not_eq_eq_eq_not, Bool.not_true, decide_eq_false_iff_not]
    intro h
    have := congrArg (fun y => BitVec.getLsbD y b) h
    rw [BitVec.getLsbD_and, hx] at this
    simp [hb] at this

theorem intSize_eq (w : Nat) (hw : 0 < w) : intSize w = (w + 63) / 64 := by unfold intSize; omega

theorem intSize_bound (w : Nat) (hw : 0 < w) : w ≤ intSize w * 64 ∧ intSize w * 64 < w + 64 := by
  unfold intSize; omega

theorem bitPad_add (w : Nat) (hw : 0 < w) : w + bitPad w = intSize w * 64 := by
  have := intSize_bound w hw
  unfold bitPad; omega

theorem bitPad_lt (w : Nat) (hw : 0 < w) : bitPad w < 64 := by
  have := intSize_bound w hw
  unfold bitPad; omega

/-- The word and bit of pixel `x` of line `l`. -/
theorem bitWord_line (w l x : Nat) (hx : x < w) (hb : (l + 1) * (intSize w * 64) ≤ 2 ^ 32) :
    bitWord w (l * w + x) = l * intSize w + x / 64 ∧ bitNum w (l * w + x) = x % 64 := by
  have hw : 0 < w := by omega
  have hdiv : (l * w + x) / w = l := by
    rw [Nat.mul_comm l w, Nat.mul_add_div hw, Nat.div_eq_of_lt hx]; omega
  have hpad := bitPad_add w hw
  unfold bitWord bitNum
  rw [hdiv]
  have e1 : l * w + x + l * bitPad w = l * (intSize w * 64) + x := by rw [← hpad]; ring
  have hlt : x < intSize w * 64 := by omega
  have e2 : (l + 1) * (intSize w * 64) = l * (intSize w * 64) + intSize w * 64 := by ring
  rw [e1, Nat.mod_eq_of_lt (by omega)]
  refine ⟨?_, by congr 1; omega⟩
  have e3 : l * (intSize w * 64) + x = 64 * (l * intSize w) + x := by ring
  rw [e3, Nat.mul_add_div (by decide)]

theorem bitGet_eq (w : Nat) (hw : 0 < w) (m : Words) (ind : Nat) :
    bitGet w m ind = some ((m (bitWord w ind)).getLsbD (bitNum w ind)) := by
  unfold bitGet
  rw [if_neg (by omega)]
  congr 1
  exact testBit_word _ _ (by unfold bitNum; omega)

theorem bitSet_eq (w : Nat) (hw : 0 < w) (m : Words) (ind : Nat) (v : Bool) :
    ∃ m', bitSet w m ind v = some m' ∧ ∀ k b, b < 64 →
      (m' k).getLsbD b = if k = bitWord w ind ∧ b = bitNum w ind then v else (m k).getLsbD b := by
  have hn : bitNum w ind < 64 := by unfold bitNum; omega
  refine ⟨_, by unfold bitSet; rw [if_neg (by omega)], ?_⟩
  intro k b hb
  by_cases hk : k = bitWord w ind
  · subst hk
    rw [Function.update_self]
    by_cases hbn : b = bitNum w ind
    · subst hbn
      have hone : ((1#64 <<< bitNum w ind)).getLsbD (bitNum w ind) = true := by simp [hn]
      cases v
      · rw [if_neg (by simp : ¬ (false = true)), BitVec.getLsbD_and, BitVec.getLsbD_not, hone]; simp
      · rw [if_pos (rfl : true = true), BitVec.getLsbD_or, hone]; simp
    · have hone : ((1#64 <<< bitNum w ind)).getLsbD b = false := by
        simp only [BitVec.getLsbD_shiftLeft, BitVec.getLsbD_one]
        by_cases h2 : b < bitNum w ind
        · simp [h2]
        · have : b - bitNum w ind ≠ 0 := by omega
          simp [this]
      cases v
      · rw [if_neg (by simp : ¬ (false = true)), BitVec.getLsbD_and, BitVec.getLsbD_not, hone]
        simp [hbn, hb]
      · rw [if_pos (rfl : true = true), BitVec.getLsbD_or, hone]; simp [hbn]
  · rw [Function.update_of_ne hk, if_neg (by simp [hk])]

theorem borderWord_bit (b : Bool) (i : Nat) (hi : i < 64) : (borderWord b).getLsbD i = b := by
  unfold borderWord
  cases b
  · simp
  · rw [if_pos rfl, BitVec.getLsbD_allOnes]; simp [hi]

theorem word_lt (w x : Nat) (hx : x < w) : x / 64 < intSize w := by
  have hw : 0 < w := by omega
  have := intSize_bound w hw
  omega

end Smil
