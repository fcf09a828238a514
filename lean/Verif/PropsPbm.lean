import Verif.Pbm
import Verif.PropsIO
import Mathlib.Tactic.Ring

/-! # C98: bitmaps -/

namespace Smil

variable {t : PT}

/-- The header of a bitmap file of type `ty` (`'1'` or `'4'`): comment lines and the dimensions. -/
def pbmHead (ty : UInt8) (cs : List (List UInt8)) (w h : Nat) : List UInt8 :=
  [80, ty] ++ 10 :: (cs.flatMap (fun c => (35 :: c) ++ [10]) ++ (decB w ++ 32 :: (decB h ++ [10])))

theorem pbm_skip (f : List UInt8) (w h : Nat) (data : List UInt8) :
    ∀ (cs : List (List UInt8)) (p : Nat) (buf : List UInt8) (fuel : Nat), (∀ c ∈ cs, ∀ b ∈ c, b ≠ 10) →
      Strm.At (Strm.mk f p false false) (cs.flatMap (fun c => (35 :: c) ++ [10]) ++
        ((decB w ++ 32 :: decB h) ++ 10 :: data)) → cs.length < fuel →
      ∃ q q', skipComments fuel (Strm.mk f p false false) buf = .ok (some q, Strm.mk f q' false false) ∧
        Strm.At (Strm.mk f q false false) ((decB w ++ 32 :: decB h) ++ 10 :: data) := by
  intro cs
  induction cs with
  | nil =>
    intro p buf fuel _ hs hf
    obtain ⟨k, rfl⟩ : ∃ k, fuel = k + 1 := ⟨fuel - 1, by simp at hf; omega⟩
    have hdim : ∀ b ∈ decB w ++ 32 :: decB h, b ≠ 10 := by
      intro b hb
      rcases List.mem_append.1 hb with hb | hb
      · exact digit_not_nl (decB_digit w b hb)
      · rcases List.mem_cons.1 hb with rfl | hb
        · decide
        · exact digit_not_nl (decB_digit h b hb)
    have hhead : (decB w ++ 32 :: decB h).head? ≠ some 35 := by
      cases hd : decB w with
      | nil => exact absurd hd (decB_ne_nil w)
      | cons b l =>
          simp only [List.cons_append, List.head?_cons, ne_eq, Option.some.injEq]
          rintro rfl
          have := decB_digit w 35 (by rw [hd]; simp)
          revert this; decide
    simp only [List.flatMap_nil, List.nil_append] at hs
    have := skip_one k _ _ _ buf hs hdim
    rw [if_neg hhead] at this
    exact ⟨p, _, this, hs⟩
  | cons c cs ih =>
    intro p buf fuel hc hs hf
    obtain ⟨k, rfl⟩ : ∃ k, fuel = k + 1 := ⟨fuel - 1, by simp at hf; omega⟩
    have hcom : ∀ b ∈ (35 : UInt8) :: c, b ≠ 10 := by
      intro b hb
      rcases List.mem_cons.1 hb with rfl | hb
      · decide
      · exact hc c (by simp) b hb
    have e : (c :: cs).flatMap (fun c => (35 :: c) ++ [10]) ++ ((decB w ++ 32 :: decB h) ++ 10 :: data) =
        (35 :: c) ++ 10 :: (cs.flatMap (fun c => (35 :: c) ++ [10]) ++ ((decB w ++ 32 :: decB h) ++ 10 :: data)) := by
      simp
    rw [e] at hs
    have h1 := skip_one k _ _ _ buf hs hcom
    rw [if_pos (show (35 :: c).head? = some (35 : UInt8) from rfl)] at h1
    have h2 := (Strm.getline_at hs hcom buf).2
    obtain ⟨q, q', h3, h4⟩ := ih _ (35 :: c) k (fun d hd => hc d (by simp [hd])) h2 (by simp at hf; omega)
    exact ⟨q, q', h1.trans h3, h4⟩

/-- The header is read, and the stream is at the data. -/
theorem pbm_info (ty : UInt8) (hty : ty = 49 ∨ ty = 52) (cs : List (List UInt8)) (w h : Nat) (data : List UInt8)
    (hc : ∀ c ∈ cs, ∀ b ∈ c, b ≠ 10) (hw : w < 2 ^ 64) (hh : h < 2 ^ 64) :
    ∃ q, readPbmInfo (Strm.opened (pbmHead ty cs w h ++ data)) 0 =
        .ok (⟨false, ty = 52, w, h, 0⟩, Strm.mk (pbmHead ty cs w h ++ data) q false false) ∧
      Strm.At (Strm.mk (pbmHead ty cs w h ++ data) q false false) data ∧
      pbmType (pbmHead ty cs w h ++ data) = if ty = 52 then 4 else 1 := by
  set f := pbmHead ty cs w h ++ data with hf
  set T := cs.flatMap (fun c => (35 :: c) ++ [10]) ++ ((decB w ++ 32 :: decB h) ++ 10 :: data) with hT
  have ef : f = [80, ty] ++ 10 :: T := by
    rw [hf, hT, pbmHead]; simp
  have s0 : Strm.At (Strm.opened f) ([80, ty] ++ 10 :: T) := ⟨rfl, rfl, ef⟩
  have hl : ∀ b ∈ [80, ty], b ≠ 10 := by rcases hty with rfl | rfl <;> decide
  have ety : atoiB (List.drop 1 [80, ty]) = if ty = 52 then 4 else 1 := by
    clear * - hty
    rcases hty with rfl | rfl <;> decide +kernel
  obtain ⟨g0', s1'⟩ := Strm.getline_at s0 hl []
  have g0 : (Strm.opened f).getline [] = ([80, ty], true, Strm.mk f 3 false false) := g0'
  have s1 : Strm.At (Strm.mk f 3 false false) T := s1'
  have hlen : cs.length < f.length + 2 := by
    have h1 : cs.length ≤ (cs.flatMap (fun c => (35 :: c) ++ [10])).length := by
      clear * -
      induction cs with
      | nil => simp
      | cons c cs ih => simp only [List.flatMap_cons, List.length_append, List.length_cons] at ih ⊢; omega
    rw [ef, hT]
    simp only [List.length_append, List.length_cons] at h1 ⊢
    omega
  obtain ⟨q, q', hskip, hq⟩ := pbm_skip f w h data cs 3 [80, ty] (f.length + 2) hc s1 hlen
  rw [List.append_assoc, List.cons_append] at hq
  obtain ⟨n1, s4⟩ := Strm.getNat_at (ws := []) hq (by simp) (by decide) (2 ^ 64 - 1) 0 (by omega)
  simp only [List.length_nil, Nat.add_zero] at n1 s4
  obtain ⟨n2, s5⟩ := Strm.getNat_at (ws := [32]) s4 (by decide) (by decide) (2 ^ 64 - 1) 0 (by omega)
  simp only at n2 s5
  refine ⟨q + (decB w).length + [(32 : UInt8)].length + (decB h).length + 1, ?_, ?_, ?_⟩
  · unfold readPbmInfo
    have edata : (Strm.opened f).data = f := rfl
    simp only [g0, edata]
    simp only [List.head?_cons, ne_eq, not_true_eq_false, false_and, if_false]
    rw [ety, if_neg (by rcases hty with rfl | rfl <;> decide), hskip]
    simp only [IORes.bind_ok]
    have hseek : Strm.seekg ⟨f, q', false, false⟩ (some q) = ⟨f, q, false, false⟩ := rfl
    rw [hseek, n1]
    simp only
    rw [n2]
    simp only
    rcases hty with rfl | rfl
    · simp
    · simp
  · refine ⟨rfl, rfl, ?_⟩
    have h1 := s5.rest
    simp only at h1
    rw [← List.drop_drop, h1]
    rfl
  · unfold pbmType
    rw [g0]
    exact ety

theorem pbmZero_bit : ∀ (v : UInt8) (k : Nat), k < 8 → pbmZero v k = !v.toNat.testBit k := by
  have h : ∀ n : Fin 256, ∀ k : Fin 8, pbmZero (UInt8.ofNat n.val) k.val = !(n.val.testBit k.val) := by decide +kernel
  intro v k hk
  have := h ⟨v.toNat, v.toNat_lt⟩ ⟨k, hk⟩
  simpa using this

/-- One row: `nb` bytes are consumed. -/
theorem pbm_row (w h j : Nat) (hj : j < h) (bytes : List UInt8) (hb : bytes.length = (w + 7) / 8) (st : PbmSt t)
    (r : List UInt8) (hs : st.s.At (bytes ++ r)) :
    ∃ st', pbmRow w h st j = .ok st' ∧ st'.s.At r ∧
      ∀ i, st'.buf i = if j * w ≤ i ∧ i < j * w + w then
        pbmPx (!((bytes.getD ((i - j * w) / 8) 0).toNat.testBit (7 - (i - j * w) % 8))) else st.buf i := by
  have key : ∀ m, m ≤ w → ∃ st', (List.range m).foldlM (pbmStep w h j) st = .ok st' ∧
      st'.s.At (bytes.drop ((m + 7) / 8) ++ r) ∧ (0 < m → st'.val = bytes[(m - 1) / 8]?) ∧
      ∀ i, st'.buf i = if j * w ≤ i ∧ i < j * w + m then
        pbmPx (!((bytes.getD ((i - j * w) / 8) 0).toNat.testBit (7 - (i - j * w) % 8))) else st.buf i := by
    intro m
    induction m with
    | zero => intro _; exact ⟨st, rfl, by simpa using hs, by omega, fun i => by rw [if_neg (by omega)]⟩
    | succ m ih =>
      intro hm
      obtain ⟨s1, e1, a1, v1, b1⟩ := ih (by omega)
      have hlt : m / 8 < bytes.length := by omega
      have hbyte : (pbmByte s1 m).val = some bytes[m / 8] ∧ (pbmByte s1 m).s.At (bytes.drop ((m + 1 + 7) / 8) ++ r) ∧
          (pbmByte s1 m).buf = s1.buf := by
        unfold pbmByte
        by_cases h8 : m % 8 = 0
        · rw [if_pos h8]
          have e : (m + 7) / 8 = m / 8 := by omega
          have e' : (m + 1 + 7) / 8 = m / 8 + 1 := by omega
          rw [e, List.drop_eq_getElem_cons hlt] at a1
          have := Strm.read_at (a := [bytes[m / 8]]) (r := bytes.drop (m / 8 + 1) ++ r) a1 1 rfl
          refine ⟨?_, ?_, rfl⟩
          · simp only [this.1]; rfl
          · simp only [this.1]; rw [e']; exact this.2
        · rw [if_neg h8]
          have e : (m + 7) / 8 = (m + 1 + 7) / 8 := by omega
          have e' : (m - 1) / 8 = m / 8 := by omega
          refine ⟨?_, e ▸ a1, rfl⟩
          rw [v1 (by omega), e', List.getElem?_eq_getElem hlt]
      have hidx : j * w + m < w * h := by nlinarith
      refine ⟨{ pbmByte s1 m with buf := Function.update s1.buf (j * w + m) (pbmPx (pbmZero bytes[m / 8] (7 - m % 8))) },
        ?_, hbyte.2.1, fun _ => ?_, ?_⟩
      · rw [List.range_succ, List.foldlM_append, e1]
        simp only [IORes.bind_ok]
        show (pbmStep w h j s1 m >>= pure) = _
        unfold pbmStep
        split
        · next hv => rw [hbyte.1] at hv; cases hv
        · next v hv =>
            rw [hbyte.1] at hv
            cases hv
            simp only [wrAt, if_pos hidx]
            rfl
      · simp only [hbyte.1, Nat.add_sub_cancel]
        rw [List.getElem?_eq_getElem hlt]
      · intro i
        simp only
        by_cases hi : i = j * w + m
        · subst hi
          rw [Function.update_self, if_pos (by omega), Nat.add_sub_cancel_left, pbmZero_bit _ _ (by omega),
            List.getD_eq_getElem?_getD, List.getElem?_eq_getElem hlt]
          rfl
        · rw [Function.update_of_ne hi, b1]
          by_cases hin : j * w ≤ i ∧ i < j * w + m
          · rw [if_pos hin, if_pos (by omega)]
          · rw [if_neg hin, if_neg (by omega)]
  obtain ⟨st', e, a, _, b⟩ := key w (le_refl _)
  refine ⟨st', e, ?_, b⟩
  rwa [← hb, List.drop_length, List.nil_append] at a

/-- **C98**, binary bitmaps: the file made of the header (with any comments) and of the rows, each of
`⌈w / 8⌉` bytes, whose bits are the pixels from the most significant one, is read as the image whose pixels are
the maximum where the bit is one and zero where it is zero. What follows the data is ignored. -/
theorem C98_binary (cs : List (List UInt8)) (hc : ∀ c ∈ cs, ∀ b ∈ c, b ≠ 10) (w h : Nat) (hwh : w * h < 2 ^ 64)
    (hw : w < 2 ^ 64) (hh : h < 2 ^ 64) (row : Nat → List UInt8) (hr : ∀ y, y < h → (row y).length = (w + 7) / 8)
    (tail : List UInt8) (init : Nat → Px t) :
    ∃ r, readPBM (pbmHead 52 cs w h ++ ((List.range h).flatMap row ++ tail)) init = .ok r ∧ r.dims = ⟨w, h, 1⟩ ∧
      ∀ x y, x < w → y < h → ∃ b, (row y)[x / 8]? = some b ∧
        r.buf (y * w + x) = if b.toNat.testBit (7 - x % 8) then ⊤ else Px.zero := by
  obtain ⟨q, hi, hs, hty⟩ := pbm_info 52 (Or.inr rfl) cs w h ((List.range h).flatMap row ++ tail) hc hw hh
  have key : ∀ m, m ≤ h → ∀ (st : PbmSt t) (r : List UInt8), st.s.At ((List.range m).flatMap row ++ r) →
      ∃ st', (List.range m).foldlM (pbmRow w h) st = .ok st' ∧ st'.s.At r ∧
        ∀ x y, x < w → y < m → ∃ b, (row y)[x / 8]? = some b ∧
          st'.buf (y * w + x) = if b.toNat.testBit (7 - x % 8) then ⊤ else Px.zero := by
    intro m
    induction m with
    | zero => intro _ st r hs; exact ⟨st, rfl, by simpa using hs, by omega⟩
    | succ m ih =>
      intro hm st r hs
      rw [List.range_succ, List.flatMap_append, List.append_assoc] at hs
      obtain ⟨s1, e1, a1, b1⟩ := ih (by omega) st _ hs
      simp only [List.flatMap_cons, List.flatMap_nil, List.append_nil] at a1
      obtain ⟨s2, e2, a2, b2⟩ := pbm_row w h m (by omega) (row m) (hr m (by omega)) s1 r a1
      refine ⟨s2, ?_, a2, ?_⟩
      · rw [List.range_succ, List.foldlM_append, e1]
        simp only [IORes.bind_ok]
        show (pbmRow w h s1 m >>= pure) = _
        rw [e2]
        rfl
      · intro x y hx hy
        rw [b2]
        by_cases hym : y = m
        · subst hym
          have hlt : x / 8 < (row y).length := by rw [hr y (by omega)]; omega
          refine ⟨(row y)[x / 8], List.getElem?_eq_getElem hlt, ?_⟩
          rw [if_pos (by omega), Nat.add_sub_cancel_left, List.getD_eq_getElem?_getD, List.getElem?_eq_getElem hlt]
          simp only [Option.getD_some, pbmPx]
          by_cases hbit : ((row y)[x / 8]).toNat.testBit (7 - x % 8) = true <;> simp [hbit]
        · have : ¬ (m * w ≤ y * w + x ∧ y * w + x < m * w + w) := by
            have : y + 1 ≤ m := by omega
            have : (y + 1) * w ≤ m * w := Nat.mul_le_mul_right w this
            rw [Nat.add_mul] at this
            omega
          rw [if_neg this]
          exact b1 x y hx (by omega)
  obtain ⟨st', e, _, b⟩ := key h (le_refl _) ⟨_, none, init⟩ tail hs
  refine ⟨⟨⟨w, h, 1⟩, st'.buf⟩, ?_, rfl, b⟩
  unfold readPBM
  rw [hi, hty]
  simp only [IORes.bind_ok, ensure]
  simp only [decide_true, if_true, or_true]
  rw [if_neg (by omega), e]
  rfl

theorem pbm_ascii (n : Nat) (v : Nat → Nat) (hv : ∀ i, v i < 2 ^ 31) (sep : Nat → List UInt8)
    (hsep : ∀ i, sep i ≠ [] ∧ ∀ b ∈ sep i, isSpaceB b = true) (tail : List UInt8) :
    ∀ (m k : Nat), k + m ≤ n → ∀ (s : Strm) (val : Option Nat) (buf : Nat → Px t) (ws : List UInt8),
      (∀ b ∈ ws, isSpaceB b = true) →
      s.At (ws ++ (((List.range' k m).flatMap fun i => decB (v i) ++ sep i) ++ tail)) →
      ∃ buf', pbmAscii n (List.range' k m) s val buf = .ok buf' ∧
        ∀ i, buf' i = if k ≤ i ∧ i < k + m then (if v i = 0 then Px.zero else ⊤) else buf i := by
  intro m
  induction m with
  | zero => intro k _ s val buf ws _ _; exact ⟨buf, rfl, fun i => by rw [if_neg (by omega)]⟩
  | succ m ih =>
    intro k hk s val buf ws hws hs
    obtain ⟨c, l, hcl⟩ : ∃ c l, sep k = c :: l := by
      cases h : sep k with
      | nil => exact absurd h (hsep k).1
      | cons c l => exact ⟨c, l, rfl⟩
    have hcs : isSpaceB c = true := (hsep k).2 c (by rw [hcl]; simp)
    have hcd : isDigitB c = false := by
      have : ∀ n : Fin 256, isSpaceB (UInt8.ofNat n.val) = true → isDigitB (UInt8.ofNat n.val) = false := by
        decide +kernel
      have := this ⟨c.toNat, c.toNat_lt⟩
      simp only [UInt8.ofNat_toNat] at this
      exact this hcs
    rw [List.range'_succ, List.flatMap_cons] at hs
    have e : ws ++ ((decB (v k) ++ sep k ++ (List.range' (k + 1) m).flatMap fun i => decB (v i) ++ sep i) ++ tail) =
        ws ++ (decB (v k) ++ c :: (l ++ (((List.range' (k + 1) m).flatMap fun i => decB (v i) ++ sep i) ++ tail))) := by
      rw [hcl]; simp
    rw [e] at hs
    obtain ⟨n1, s1⟩ := Strm.getNat_at hs hws hcd (2 ^ 31 - 1) (val.getD 0) (by have := hv k; omega)
    have e2 : c :: (l ++ (((List.range' (k + 1) m).flatMap fun i => decB (v i) ++ sep i) ++ tail)) =
        sep k ++ (((List.range' (k + 1) m).flatMap fun i => decB (v i) ++ sep i) ++ tail) := by
      rw [hcl]; simp
    rw [e2] at s1
    obtain ⟨buf', h1, h2⟩ := ih (k + 1) (by omega) _ (some (v k))
      (Function.update buf k (pbmPx (decide (v k = 0)))) (sep k) (hsep k).2 s1
    refine ⟨buf', ?_, ?_⟩
    · rw [List.range'_succ]
      unfold pbmAscii
      have hne : (s.rest.dropWhile isSpaceB).isEmpty = false := by
        have hr : s.rest = _ := hs.rest
        rw [hr, List.dropWhile_append_of_pos hws]
        cases hd : decB (v k) with
        | nil => exact absurd hd (decB_ne_nil _)
        | cons b l' =>
            have hb : isSpaceB b = false := by
              have h1 : isDigitB b = true := decB_digit (v k) b (by rw [hd]; simp)
              have h2 : ∀ n : Fin 256, isDigitB (UInt8.ofNat n.val) = true → isSpaceB (UInt8.ofNat n.val) = false := by
                decide +kernel
              have := h2 ⟨b.toNat, b.toNat_lt⟩
              simp only [UInt8.ofNat_toNat] at this
              exact this h1
            simp [hb]
      simp only [hne, hs.good, Bool.and_false, Bool.not_true, Bool.or_false, Bool.false_eq_true, if_false]
      rw [n1]
      simp only [wrAt, if_pos (show k < n by omega)]
      exact h1
    · intro i
      rw [h2]
      by_cases hi : i = k
      · subst hi
        rw [if_neg (by omega), if_pos (by omega), Function.update_self]
        simp [pbmPx]
      · rw [Function.update_of_ne hi]
        by_cases hin : k + 1 ≤ i ∧ i < k + 1 + m
        · rw [if_pos hin, if_pos (show k ≤ i ∧ i < k + (m + 1) by omega)]
        · rw [if_neg hin, if_neg (show ¬ (k ≤ i ∧ i < k + (m + 1)) by omega)]

/-- **C98**, ASCII bitmaps: numbers in the raster order, each followed by at least one white space, are read as
zero where the number is zero and the maximum elsewhere. (The format also allows digits which are not
separated: see `C98_unseparated_bug`.) -/
theorem C98_ascii_partial (cs : List (List UInt8)) (hc : ∀ c ∈ cs, ∀ b ∈ c, b ≠ 10) (w h : Nat)
    (hwh : w * h < 2 ^ 64) (hw : w < 2 ^ 64) (hh : h < 2 ^ 64) (v : Nat → Nat) (hv : ∀ i, v i < 2 ^ 31)
    (sep : Nat → List UInt8) (hsep : ∀ i, sep i ≠ [] ∧ ∀ b ∈ sep i, b ∈ [32, 9, 10, 13])
    (tail : List UInt8) (init : Nat → Px t) :
    ∃ r, readPBM (pbmHead 49 cs w h ++ (((List.range (w * h)).flatMap fun i => decB (v i) ++ sep i) ++ tail)) init =
        .ok r ∧ r.dims = ⟨w, h, 1⟩ ∧
      ∀ x y, x < w → y < h → r.buf (y * w + x) = if v (y * w + x) = 0 then Px.zero else ⊤ := by
  obtain ⟨q, hi, hs, hty⟩ := pbm_info 49 (Or.inl rfl) cs w h
    (((List.range (w * h)).flatMap fun i => decB (v i) ++ sep i) ++ tail) hc hw hh
  have hsep' : ∀ i, sep i ≠ [] ∧ ∀ b ∈ sep i, isSpaceB b = true := by
    intro i
    refine ⟨(hsep i).1, fun b hb => ?_⟩
    have := (hsep i).2 b hb
    simp only [List.mem_cons, List.not_mem_nil, or_false] at this
    rcases this with rfl | rfl | rfl | rfl <;> decide
  obtain ⟨buf, e, b⟩ := pbm_ascii (t := t) (w * h) v hv sep hsep' tail (w * h) 0 (by omega) _ none init []
    (by simp) (by simpa [List.range_eq_range'] using hs)
  refine ⟨⟨⟨w, h, 1⟩, buf⟩, ?_, rfl, ?_⟩
  · unfold readPBM
    rw [hi, hty]
    simp only [IORes.bind_ok, ensure]
    rw [if_pos (by decide), if_neg (by omega)]
    simp only [IORes.bind_ok]
    rw [if_neg (by decide), List.range_eq_range', e]
    rfl
  · intro x y hx hy
    have : y * w + x < w * h := by
      have : (y + 1) * w ≤ h * w := Nat.mul_le_mul_right w hy
      rw [Nat.add_mul, Nat.mul_comm h w] at this
      omega
    simp only
    rw [b, if_pos (by omega)]

/-- **C98**, the rejected files: the other types of NetPBM files are never read as a bitmap. -/
theorem C98_reject (ty : UInt8) (hty : ty ∈ ([50, 51, 53, 54] : List UInt8)) (rest : List UInt8)
    (init : Nat → Px t) (r : Img (Px t)) : readPBM ([80, ty] ++ 10 :: rest) init ≠ .ok r := by
  have s0 : Strm.At (Strm.opened ([80, ty] ++ 10 :: rest)) ([80, ty] ++ 10 :: rest) := ⟨rfl, rfl, rfl⟩
  have hl : ∀ b ∈ [80, ty], b ≠ 10 := by
    simp only [List.mem_cons, List.not_mem_nil, or_false] at hty
    rcases hty with rfl | rfl | rfl | rfl <;> decide
  have hT : ¬ (pbmType ([80, ty] ++ 10 :: rest) = 1 ∨ pbmType ([80, ty] ++ 10 :: rest) = 4) := by
    unfold pbmType
    rw [(Strm.getline_at s0 hl []).1]
    simp only
    clear * - hty
    simp only [List.mem_cons, List.not_mem_nil, or_false] at hty
    rcases hty with rfl | rfl | rfl | rfl <;> decide +kernel
  unfold readPBM
  cases readPbmInfo (Strm.opened ([80, ty] ++ 10 :: rest)) 0 with
  | ok a =>
      simp only [IORes.bind_ok, ensure, hT, decide_false]
      intro h
      cases h
  | _ => intro h; cases h

/-- What was read: the dimensions and the values. -/
def pbmVals (r : IORes (Img (Px t))) : Option (Dims × List Int) :=
  match r with
  | .ok im => some (im.dims, (List.range (im.dims.w * im.dims.h)).map fun i => (im.buf i).val)
  | _ => none

/-- A bitmap of ten columns and two rows with two comments; an ASCII one. -/
example : pbmVals (readPBM (t := UINT8) (pbmHead 52 [[32, 97], []] 10 2 ++ [0xF0, 0x40, 0x01, 0x80]) fun _ => Px.zero) =
    some (⟨10, 2, 1⟩, [255, 255, 255, 255, 0, 0, 0, 0, 0, 255, 0, 0, 0, 0, 0, 0, 0, 255, 255, 0]) := by
  decide +kernel
example : pbmVals (readPBM (t := INT8) (pbmHead 49 [] 2 1 ++ [49, 32, 48, 10]) fun _ => ⊤) =
    some (⟨2, 1, 1⟩, [127, 0]) := by
  decide +kernel
/-- The rows of that file meet the hypotheses of `C98_binary`. -/
example : ∀ y, y < 2 → ((fun y => if y = 0 then [0xF0, 0x40] else [0x01, 0x80] : Nat → List UInt8) y).length =
    (10 + 7) / 8 := by
  decide

/-! ### Exceptions -/

/-- A file of eight columns whose second row is missing: the row is filled with the bits of the first one, and
the read succeeds; with no row at all, the byte which is tested was never written. -/
theorem C98_truncated_bug :
    pbmVals (readPBM (t := UINT8) (pbmHead 52 [] 8 2 ++ [0xF0]) fun _ => Px.zero) =
      some (⟨8, 2, 1⟩, [255, 255, 255, 255, 0, 0, 0, 0, 255, 255, 255, 255, 0, 0, 0, 0]) ∧
    (match readPBM (t := UINT8) (pbmHead 52 [] 8 2) fun _ => Px.zero with
      | .ub => true
      | _ => false) = true := by
  decide +kernel

/-- The file `P1 / 2 1 / 10`, whose pixels are 1 and 0: the digits are read as the number ten, and the second
pixel takes the value of the first. -/
theorem C98_unseparated_bug :
    pbmVals (readPBM (t := UINT8) (pbmHead 49 [] 2 1 ++ [49, 48, 10]) fun _ => Px.zero) =
      some (⟨2, 1, 1⟩, [255, 255]) := by
  decide +kernel

end Smil
