import Verif.BitArrLemmas
import Mathlib.Tactic.IntervalCases

/-!
# C55, C56: packed binary images and line shifts

Specification: rows of `w` pixels are stored one after the other, each on `⌈w / 64⌉` words, pixel `x` of
a row being bit `x % 64` of its word `x / 64`.
-/

namespace Smil

/-- The word of pixel `(x, y, z)` of an image of `w` columns and `h` rows. -/
def pixWord (w h x y z : Nat) : Nat := (z * h + y) * ((w + 63) / 64) + x / 64

/-- The value of pixel `(x, y, z)`. -/
def pixBit (w h : Nat) (m : Words) (x y z : Nat) : Bool := (m (pixWord w h x y z)).getLsbD (x % 64)

/-- The number of words of an image. -/
def imgWords (w h d : Nat) : Nat := (w + 63) / 64 * (h * d)

/-- The value of pixel `i` of a line. -/
def lineBit (m : Words) (i : Nat) : Bool := (m (i / 64)).getLsbD (i % 64)

theorem line_lt {h d y z : Nat} (hy : y < h) (hz : z < d) : z * h + y < h * d := by
  calc z * h + y < z * h + h := by omega
    _ = (z + 1) * h := by ring
    _ ≤ d * h := Nat.mul_le_mul_right _ hz
    _ = h * d := Nat.mul_comm _ _

theorem line_inj {h y z y' z' : Nat} (hy : y < h) (hy' : y' < h)
    (he : z * h + y = z' * h + y') : y = y' ∧ z = z' := by
  have hm : ∀ z y : Nat, y < h → (z * h + y) % h = y ∧ (z * h + y) / h = z := by
    intro z y hy
    rw [Nat.mul_comm z h]
    exact ⟨by rw [Nat.mul_add_mod, Nat.mod_eq_of_lt hy], by
      rw [Nat.mul_add_div (by omega), Nat.div_eq_of_lt hy]; omega⟩
  have h1 := hm z y hy
  have h2 := hm z' y' hy'
  rw [he] at h1
  exact ⟨h1.1.symm.trans h2.1, h1.2.symm.trans h2.2⟩

theorem pix_addr {w h d x y z : Nat} (hx : x < w) (hy : y < h) (hz : z < d)
    (hb : imgWords w h d * 64 ≤ 2 ^ 32) :
    (z * w * h + y * w + x) % 2 ^ 32 = (z * h + y) * w + x ∧
      bitWord w ((z * h + y) * w + x) = pixWord w h x y z ∧ bitNum w ((z * h + y) * w + x) = x % 64 := by
  have hw : 0 < w := by omega
  have hl := line_lt hy hz
  have hiw := intSize_eq w hw
  have hle : (z * h + y + 1) * (intSize w * 64) ≤ 2 ^ 32 := by
    refine Nat.le_trans (Nat.mul_le_mul_right _ hl) ?_
    unfold imgWords at hb
    rw [hiw]
    calc h * d * ((w + 63) / 64 * 64) = (w + 63) / 64 * (h * d) * 64 := by ring
      _ ≤ _ := hb
  have h2 := bitWord_line w (z * h + y) x hx hle
  refine ⟨?_, ?_, h2.2⟩
  · have e : z * w * h + y * w + x = (z * h + y) * w + x := by ring
    rw [e, Nat.mod_eq_of_lt]
    have hp := intSize_bound w hw
    calc (z * h + y) * w + x < (z * h + y) * w + w := by omega
      _ = (z * h + y + 1) * w := by ring
      _ ≤ (z * h + y + 1) * (intSize w * 64) := Nat.mul_le_mul_left _ hp.1
      _ ≤ _ := hle
  · rw [h2.1, hiw]; rfl

/-- C55: distinct pixels use distinct bits, all of them in the buffer. -/
theorem C55_distinct {w h d x y z x' y' z' : Nat} (hx : x < w) (hy : y < h) (hz : z < d)
    (hx' : x' < w) (hy' : y' < h) :
    pixWord w h x y z < imgWords w h d ∧
      (pixWord w h x y z = pixWord w h x' y' z' → x % 64 = x' % 64 → x = x' ∧ y = y' ∧ z = z') := by
  have hw : 0 < w := by omega
  have hc : ∀ x, x < w → x / 64 < (w + 63) / 64 := by intro x hx; omega
  constructor
  · unfold pixWord imgWords
    have hl := line_lt hy hz
    calc (z * h + y) * ((w + 63) / 64) + x / 64
        < (z * h + y) * ((w + 63) / 64) + (w + 63) / 64 := by have := hc x hx; omega
      _ = (z * h + y + 1) * ((w + 63) / 64) := by ring
      _ ≤ (h * d) * ((w + 63) / 64) := Nat.mul_le_mul_right _ hl
      _ = _ := Nat.mul_comm _ _
  · intro he hm
    unfold pixWord at he
    obtain ⟨e1, e2⟩ := line_inj (hc x hx) (hc x' hx') he
    obtain ⟨e3, e4⟩ := line_inj hy hy' e2
    exact ⟨by omega, e3, e4⟩

/-- C55: `getPixel` reads the bit of the pixel, for images of less than `2^32` bits. -/
theorem C55_getPixel_partial {w h d x y z : Nat} (m : Words) (hb : imgWords w h d * 64 ≤ 2 ^ 32) :
    bitGetPixel w h d m x y z =
      if x < w ∧ y < h ∧ z < d then some (pixBit w h m x y z) else none := by
  unfold bitGetPixel
  by_cases hin : x < w ∧ y < h ∧ z < d
  · obtain ⟨hx, hy, hz⟩ := hin
    obtain ⟨e0, e1, e2⟩ := pix_addr hx hy hz hb
    rw [if_neg (by omega), if_pos ⟨hx, hy, hz⟩, e0, bitGet_eq w (by omega), e1, e2]; rfl
  · rw [if_pos (by omega), if_neg hin]

/-- C55: writing a pixel succeeds exactly inside the image, then changes that bit only: every other
pixel, and every padding bit, keeps its value. -/
theorem C55_setPixel_partial {w h d x y z : Nat} (m : Words) (v : Bool)
    (hb : imgWords w h d * 64 ≤ 2 ^ 32) :
    (¬ (x < w ∧ y < h ∧ z < d) → bitSetPixel w h d m x y z v = none) ∧
    (x < w ∧ y < h ∧ z < d → ∃ m', bitSetPixel w h d m x y z v = some m' ∧
      (∀ x' y' z', x' < w → y' < h → z' < d → bitGetPixel w h d m' x' y' z' =
        if (x', y', z') = (x, y, z) then some v else bitGetPixel w h d m x' y' z') ∧
      ∀ k b, b < 64 → ¬ (k = pixWord w h x y z ∧ b = x % 64) → (m' k).getLsbD b = (m k).getLsbD b) := by
  constructor
  · intro hin; unfold bitSetPixel; rw [if_pos (by omega)]
  · intro hin
    obtain ⟨hx, hy, hz⟩ := hin
    obtain ⟨e0, e1, e2⟩ := pix_addr hx hy hz hb
    obtain ⟨m', hm', hbit⟩ := bitSet_eq w (by omega) m ((z * h + y) * w + x) v
    rw [e1, e2] at hbit
    refine ⟨m', ?_, ?_, ?_⟩
    · unfold bitSetPixel; rw [if_neg (by omega), e0, hm']
    · intro x' y' z' hx' hy' hz'
      have hin' : x' < w ∧ y' < h ∧ z' < d := ⟨hx', hy', hz'⟩
      rw [C55_getPixel_partial m' hb, C55_getPixel_partial m hb]
      simp only [hin', and_self, if_true]
      unfold pixBit
      rw [hbit _ _ (by omega)]
      by_cases he : (x', y', z') = (x, y, z)
      · simp only [Prod.mk.injEq] at he
        obtain ⟨rfl, rfl, rfl⟩ := he
        simp
      · rw [if_neg he, if_neg]
        rintro ⟨h1, h2⟩
        obtain ⟨a1, a2, a3⟩ := (C55_distinct hx' hy' hz' hx hy).2 h1 h2
        exact he (by rw [a1, a2, a3])
    · intro k b hb' hne
      rw [hbit k b hb', if_neg hne]

/-- C55: `setPixel(offset)`, which goes through the line tables, writes the same bit as
`setPixel(x, y, z)`. -/
theorem C55_setOffset_partial {w h d x y z : Nat} (m : Words) (v : Bool) (hx : x < w) (hy : y < h)
    (hz : z < d) (hb : imgWords w h d * 64 ≤ 2 ^ 32) :
    ∃ m', bitSetOffset w h m ((z * h + y) * w + x) v = some m' ∧
      ∀ k b, b < 64 → (m' k).getLsbD b =
        if k = pixWord w h x y z ∧ b = x % 64 then v else (m k).getLsbD b := by
  have hw : 0 < w := by omega
  have hdiv : ((z * h + y) * w + x) / w = z * h + y := by
    rw [Nat.mul_comm _ w, Nat.mul_add_div hw, Nat.div_eq_of_lt hx]; omega
  have hmod : ((z * h + y) * w + x) % w = x := by
    rw [Nat.mul_comm _ w, Nat.mul_add_mod, Nat.mod_eq_of_lt hx]
  have hdh : (z * h + y) / h = z := by
    rw [Nat.mul_comm z h, Nat.mul_add_div (by omega), Nat.div_eq_of_lt hy]; omega
  have hmh : (z * h + y) % h = y := by
    rw [Nat.mul_comm z h, Nat.mul_add_mod, Nat.mod_eq_of_lt hy]
  have hiw := intSize_eq w hw
  have hlw : lineWord w h y z = (z * h + y) * ((w + 63) / 64) := by
    unfold lineWord; rw [hiw]; ring
  obtain ⟨m', hm', hbit⟩ := bitSet_eq w hw (bitLine w h m y z) x v
  have hsz : (0 + 1) * (intSize w * 64) ≤ 2 ^ 32 := by
    have hl := line_lt hy hz
    unfold imgWords at hb
    rw [hiw]
    calc (0 + 1) * ((w + 63) / 64 * 64) = 1 * ((w + 63) / 64 * 64) := by ring
      _ ≤ (h * d) * ((w + 63) / 64 * 64) := Nat.mul_le_mul_right _ (by omega)
      _ = (w + 63) / 64 * (h * d) * 64 := by ring
      _ ≤ _ := hb
  have h2 := bitWord_line w 0 x hx hsz
  simp only [Nat.zero_mul, Nat.zero_add] at h2
  rw [h2.1, h2.2] at hbit
  refine ⟨fun i => if lineWord w h y z ≤ i then m' (i - lineWord w h y z) else m i, ?_, ?_⟩
  · unfold bitSetOffset
    rw [if_neg (by omega)]
    simp only [hdiv, hmod, hdh, hmh]
    rw [hm']; rfl
  · intro k b hb'
    simp only
    rw [hlw]
    by_cases hk : (z * h + y) * ((w + 63) / 64) ≤ k
    · rw [if_pos hk, hbit _ _ hb']
      have e : bitLine w h m y z (k - (z * h + y) * ((w + 63) / 64)) = m k := by
        unfold bitLine; rw [hlw]; congr 1; omega
      rw [e]
      have hiff : (k - (z * h + y) * ((w + 63) / 64) = x / 64 ∧ b = x % 64) ↔
          (k = pixWord w h x y z ∧ b = x % 64) := by
        unfold pixWord; constructor <;> rintro ⟨h1, h2⟩ <;> exact ⟨by omega, h2⟩
      by_cases hc : k - (z * h + y) * ((w + 63) / 64) = x / 64 ∧ b = x % 64
      · rw [if_pos hc, if_pos (hiff.1 hc)]
      · rw [if_neg hc, if_neg (fun h => hc (hiff.2 h))]
    · rw [if_neg hk, if_neg]
      rintro ⟨h1, -⟩
      unfold pixWord at h1; omega

/-- C55 fails for larger images: the position is computed modulo `2^32`, so that in an image of 65
columns pixel `(0, 2^25)` uses the bit of pixel `(0, 0)`. -/
theorem C55_overflow_bug : bitGetPixel 65 (2 ^ 25 + 1) 1 (fun k => if k = 0 then 1 else 0) 0 (2 ^ 25) 0
      = some true
    ∧ pixBit 65 (2 ^ 25 + 1) (fun k => if k = 0 then 1 else 0) 0 (2 ^ 25) 0 = false := by
  decide +kernel

/-! ### Line operations -/

/-- The meaning of the line operations on the values 0 and 1, where division by 0 gives the maximum. -/
def bitSpec : BitOp → Nat → Nat → Nat
  | .add, a, b => min (a + b) 1
  | .addNoSat, a, b => (a + b) % 2
  | .sub, a, b => a - b
  | .subNoSat, a, b => (2 + a - b) % 2
  | .sup, a, b => max a b
  | .inf, a, b => min a b
  | .grt, a, b => if a > b then 1 else 0
  | .grtOrEqu, a, b => if a ≥ b then 1 else 0
  | .low, a, b => if a < b then 1 else 0
  | .lowOrEqu, a, b => if a ≤ b then 1 else 0
  | .equ, a, b => if a = b then 1 else 0
  | .diff, a, b => if a ≠ b then 1 else 0
  | .mul, a, b => min (a * b) 1
  | .mulNoSat, a, b => a * b % 2
  | .div, a, b => if b = 0 then 1 else a / b
  | .logicAnd, a, b => if a ≠ 0 ∧ b ≠ 0 then 1 else 0
  | .logicOr, a, b => if a ≠ 0 ∨ b ≠ 0 then 1 else 0

theorem word_spec (op : BitOp) (a b : Word) (i : Nat) (hi : i < 64) :
    ((op.word a b).getLsbD i).toNat = bitSpec op (a.getLsbD i).toNat (b.getLsbD i).toNat := by
  cases op <;>
  simp only [BitOp.word, BitVec.getLsbD_and, BitVec.getLsbD_or, BitVec.getLsbD_xor, BitVec.getLsbD_not, hi,
    decide_true, Bool.true_and] <;>
  generalize a.getLsbD i = p <;> generalize b.getLsbD i = q <;> cases p <;> cases q <;> rfl

/-- C55: a bitwise line operation acts on each pixel, and leaves the words of the other lines. -/
theorem C55_binary (op : BitOp) (size : Nat) (a b out : Words) :
    (∀ i, i < size → (lineBit (bitBinary op size a b out) i).toNat
        = bitSpec op (lineBit a i).toNat (lineBit b i).toNat) ∧
    (∀ k, 0 < size → (size + 63) / 64 ≤ k → bitBinary op size a b out k = out k) := by
  constructor
  · intro i hi
    unfold lineBit bitBinary
    rw [writeLoop_apply, if_pos ⟨Nat.zero_le _, word_lt size i hi⟩]
    exact word_spec op _ _ _ (Nat.mod_lt _ (by decide))
  · intro k h0 hk
    unfold bitBinary
    rw [writeLoop_apply, if_neg (by rw [intSize_eq size h0]; omega)]

/-- C55: the complement. -/
theorem C55_inv (size : Nat) (a out : Words) :
    (∀ i, i < size → lineBit (bitInv size a out) i = ! lineBit a i) ∧
    (∀ k, 0 < size → (size + 63) / 64 ≤ k → bitInv size a out k = out k) := by
  constructor
  · intro i hi
    unfold lineBit bitInv
    rw [writeLoop_apply, if_pos ⟨Nat.zero_le _, word_lt size i hi⟩]
    have : i % 64 < 64 := Nat.mod_lt _ (by decide)
    rw [BitVec.getLsbD_not, decide_eq_true this, Bool.true_and]
  · intro k h0 hk
    unfold bitInv
    rw [writeLoop_apply, if_neg (by rw [intSize_eq size h0]; omega)]

/-- C55: the choice `test`. -/
theorem C55_test (size : Nat) (a b c out : Words) :
    (∀ i, i < size → lineBit (bitTest size a b c out) i = if lineBit a i then lineBit b i else lineBit c i) ∧
    (∀ k, 0 < size → (size + 63) / 64 ≤ k → bitTest size a b c out k = out k) := by
  constructor
  · intro i hi
    unfold lineBit bitTest
    rw [writeLoop_apply, if_pos ⟨Nat.zero_le _, word_lt size i hi⟩]
    have : i % 64 < 64 := Nat.mod_lt _ (by decide)
    rw [BitVec.getLsbD_or, BitVec.getLsbD_and, BitVec.getLsbD_and, BitVec.getLsbD_not, decide_eq_true this]
    cases (a (i / 64)).getLsbD (i % 64) <;> simp
  · intro k h0 hk
    unfold bitTest
    rw [writeLoop_apply, if_neg (by rw [intSize_eq size h0]; omega)]

/-- C55: filling a line. -/
theorem C55_fill (size : Nat) (v : Bool) (out : Words) :
    (∀ i, i < size → lineBit (bitFill size v out) i = v) ∧
    (∀ k, 0 < size → (size + 63) / 64 ≤ k → bitFill size v out k = out k) := by
  constructor
  · intro i hi
    unfold lineBit bitFill
    rw [writeLoop_apply, if_pos ⟨Nat.zero_le _, word_lt size i hi⟩]
    exact borderWord_bit v _ (Nat.mod_lt _ (by decide))
  · intro k h0 hk
    unfold bitFill
    rw [writeLoop_apply, if_neg (by rw [intSize_eq size h0]; omega)]

theorem bitCopy_word (size : Nat) (src dst : Words) (k : Nat) :
    bitCopy size src dst k = if k < (size + 63) / 64 then src k else dst k := by
  unfold bitCopy
  by_cases hr : size - size / 64 * 64 ≠ 0
  · rw [if_pos hr]
    by_cases hk : k = size / 64
    · subst hk; rw [Function.update_self, if_pos (by omega)]
    · rw [Function.update_of_ne hk, writeLoop_apply]
      by_cases hlt : k < size / 64
      · rw [if_pos (by omega), if_pos (by omega)]
      · rw [if_neg (by omega), if_neg (by omega)]
  · rw [if_neg hr, writeLoop_apply]
    by_cases hlt : k < size / 64
    · rw [if_pos (by omega), if_pos (by omega)]
    · rw [if_neg (by omega), if_neg (by omega)]

/-- C55: copying a line that starts at its first pixel. -/
theorem C55_copy (size : Nat) (src dst : Words) :
    (∀ i, i < size → lineBit (bitCopy size src dst) i = lineBit src i) ∧
    (∀ k, (size + 63) / 64 ≤ k → bitCopy size src dst k = dst k) := by
  constructor
  · intro i hi
    unfold lineBit
    rw [bitCopy_word, if_pos (by omega)]
  · intro k hk
    rw [bitCopy_word, if_neg (by omega)]

/-- C55: copying from the first pixel of a line to the position `outIdx` of another one moves every
pixel and changes nothing else. -/
theorem C55_copyAt_partial (wOut wIn outIdx size : Nat) (src dst : Words)
    (hin : size ≤ wIn) (hout : outIdx + size ≤ wOut) (hs : 0 < size)
    (hb1 : wIn + 63 ≤ 2 ^ 32) (hb2 : wOut + 63 ≤ 2 ^ 32) :
    ∃ m', bitCopyIdx wOut wIn outIdx 0 size src dst = some m' ∧
      ∀ i, i < wOut → lineBit m' i =
        if outIdx ≤ i ∧ i < outIdx + size then lineBit src (i - outIdx) else lineBit dst i := by
  have hb1' : (0 + 1) * (intSize wIn * 64) ≤ 2 ^ 32 := by
    rw [intSize_eq wIn (by omega)]; omega
  have hb2' : (0 + 1) * (intSize wOut * 64) ≤ 2 ^ 32 := by
    rw [intSize_eq wOut (by omega)]; omega
  clear hs
  induction size with
  | zero =>
      refine ⟨dst, rfl, ?_⟩
      intro i hi
      rw [if_neg (by omega)]
  | succ n ih =>
      obtain ⟨m, hm, hv⟩ := ih (by omega) (by omega)
      have a1 := bitWord_line wIn 0 n (by omega) hb1'
      have a2 := bitWord_line wOut 0 (outIdx + n) (by omega) hb2'
      simp only [Nat.zero_mul, Nat.zero_add] at a1 a2
      obtain ⟨m', hm', hbit⟩ := bitSet_eq wOut (by omega) m (outIdx + n) (lineBit src n)
      refine ⟨m', ?_, ?_⟩
      · unfold bitCopyIdx at hm ⊢
        rw [List.range_succ, List.foldlM_append, hm]
        simp only [Option.bind_eq_bind, Option.bind_some, List.foldlM_cons, List.foldlM_nil]
        rw [bitGet_eq wIn (by omega), a1.1, a1.2, Option.bind_some]
        have : bitSet wOut m (outIdx + n) ((src (n / 64)).getLsbD (n % 64)) = some m' := hm'
        rw [this]; rfl
      · intro i hi
        unfold lineBit at hv ⊢
        rw [hbit _ _ (Nat.mod_lt _ (by decide)), a2.1, a2.2]
        by_cases he : i = outIdx + n
        · subst he
          rw [if_pos ⟨rfl, rfl⟩, if_pos (by omega)]
          unfold lineBit
          congr 2
          · congr 1; omega
          · omega
        · rw [if_neg (by omega), hv i hi]
          by_cases hc : outIdx ≤ i ∧ i < outIdx + n
          · rw [if_pos hc, if_pos (by omega)]
          · rw [if_neg hc, if_neg (by omega)]

/-- C55 fails for a copy that starts inside a line: the index of the source is ignored. The line `01`
copied from its second pixel gives `0`. -/
theorem C55_copyIdx_bug :
    (bitCopyIdx 8 8 0 1 1 (fun _ => 2) (fun _ => 0)).map (fun m => lineBit m 0) = some false ∧
      lineBit (fun _ => 2) (0 + 1) = true := by decide +kernel

/-- C55: an image operation acts on each pixel. -/
theorem C55_image (op : BitOp) (w h d : Nat) (a b out : Words) {x y z : Nat} (hx : x < w) (hy : y < h)
    (hz : z < d) :
    (pixBit w h (bitImgBinary op w (h * d) a b out) x y z).toNat
      = bitSpec op (pixBit w h a x y z).toNat (pixBit w h b x y z).toNat := by
  have hw : 0 < w := by omega
  have hiw := intSize_eq w hw
  have key : ∀ n l k, k < intSize w →
      bitImgBinary op w n a b out (l * intSize w + k)
        = if l < n then op.word (a (l * intSize w + k)) (b (l * intSize w + k))
          else out (l * intSize w + k) := by
    intro n l k hk
    induction n with
    | zero => rw [if_neg (by omega)]; rfl
    | succ n ih =>
        have e : bitImgBinary op w (n + 1) a b out = fun i => if n * intSize w ≤ i then
            bitBinary op w (fun i => a (n * intSize w + i)) (fun i => b (n * intSize w + i))
              (fun i => bitImgBinary op w n a b out (n * intSize w + i)) (i - n * intSize w)
            else bitImgBinary op w n a b out i := by
          unfold bitImgBinary; rw [List.range_succ, List.foldl_append]; rfl
        rw [e]
        simp only
        unfold bitBinary
        rcases Nat.lt_trichotomy l n with hl | hl | hl
        · have : l * intSize w + k < n * intSize w := by
            calc l * intSize w + k < l * intSize w + intSize w := by omega
              _ = (l + 1) * intSize w := by ring
              _ ≤ n * intSize w := Nat.mul_le_mul_right _ hl
          rw [if_neg (by omega), ih, if_pos hl, if_pos (by omega)]
        · subst hl
          rw [if_pos (by omega), writeLoop_apply, if_pos (by omega), if_pos (by omega)]
          have : l * intSize w + (l * intSize w + k - l * intSize w) = l * intSize w + k := by omega
          simp only [this]
        · have : (n + 1) * intSize w ≤ l * intSize w := Nat.mul_le_mul_right _ hl
          have e2 : (n + 1) * intSize w = n * intSize w + intSize w := by ring
          rw [if_pos (by omega), writeLoop_apply, if_neg (by omega)]
          have : n * intSize w + (l * intSize w + k - n * intSize w) = l * intSize w + k := by omega
          rw [this, ih, if_neg (by omega), if_neg (by omega)]
  unfold pixBit pixWord
  rw [← hiw, key (h * d) _ _ (word_lt w x hx), if_pos (line_lt hy hz)]
  exact word_spec op _ _ _ (Nat.mod_lt _ (by decide))

example : imgWords 100 7 3 * 64 ≤ 2 ^ 32 := by decide
example : (bitSetPixel 70 2 1 (fun _ => 0) 69 1 0 true).map (fun m => (m 3, m 0, m 1, m 2))
    = some (32#64, 0, 0, 0) := by decide +kernel
example : bitSpec .sub 0 1 = 0 ∧ bitSpec .subNoSat 0 1 = 1 ∧ bitSpec .div 0 0 = 1 := by decide
example : bitImgBinary .grt 70 2 (fun k => if k = 2 then 5 else 0) (fun k => if k = 2 then 1 else 0)
    (fun _ => 0) 2 = 4#64 := by decide +kernel

/-! ### C56: shifts -/

/-- The line shifted by `dx`: pixel `i - dx` of the line, or the border outside. -/
def shiftSpec (dx : Int) (len : Nat) (border : Bool) (src : Words) (i : Nat) : Bool :=
  if 0 ≤ (i : Int) - dx ∧ (i : Int) - dx < len then lineBit src ((i : Int) - dx).toNat else border

/-- The result is the shift on the pixels of the line, and leaves the words of the other lines. -/
def IsShift (dx : Int) (len : Nat) (border : Bool) (src dst res : Words) : Prop :=
  (∀ i, i < len → lineBit res i = shiftSpec dx len border src i) ∧
    ∀ k, (len + 63) / 64 ≤ k → res k = dst k

theorem left_word (dx : Nat) (hd : dx % 64 ≠ 0) (len : Nat) (hlt : dx < len) (border : Bool) (src dst : Words) :
    ∃ m, bitShiftLeft dx len border src dst = some m ∧ ∀ k, m k =
      if k < dx / 64 then borderWord border
      else if k = dx / 64 then (src 0 <<< (dx % 64)) ||| (borderWord border >>> (64 - dx % 64))
      else if k < intSize len then
        (src (k - dx / 64) <<< (dx % 64)) ||| (src (k - dx / 64 - 1) >>> (64 - dx % 64))
      else dst k := by
  have h1 : dx % 64 < 64 := Nat.mod_lt _ (by decide)
  have h2 : 64 - dx % 64 < 64 := by omega
  refine ⟨writeLoop (dx / 64 + 1) (intSize len)
      (fun k => (src (k - dx / 64) <<< (dx % 64)) ||| (src (k - dx / 64 - 1) >>> (64 - dx % 64)))
      (Function.update (writeLoop 0 (dx / 64) (fun _ => borderWord border) dst) (dx / 64)
        ((src 0 <<< (dx % 64)) ||| (borderWord border >>> (64 - dx % 64)))), ?_, ?_⟩
  · unfold bitShiftLeft
    simp only
    rw [if_neg (show ¬ dx ≥ len by omega)]
    simp only [shlW, shrW, h1, h2, if_true, Option.bind_some, Option.map_some]
    exact writeLoopM_some _ _ _ _ _ (fun k _ _ => rfl)
  · intro k
    rw [writeLoop_apply]
    have hr : dx / 64 < intSize len := word_lt len dx hlt
    rcases Nat.lt_trichotomy k (dx / 64) with hk | hk | hk
    · rw [if_neg (by omega), if_pos hk, Function.update_of_ne (by omega), writeLoop_apply, if_pos (by omega)]
    · rw [if_neg (by omega), if_neg (by omega), if_pos hk, hk, Function.update_self]
    · rw [if_neg (show ¬ k < dx / 64 by omega), if_neg (show ¬ k = dx / 64 by omega)]
      by_cases hlast : k < intSize len
      · rw [if_pos (by omega), if_pos hlast]
      · rw [if_neg (by omega), if_neg hlast, Function.update_of_ne (by omega), writeLoop_apply,
          if_neg (by omega)]

theorem fill_isShift (dx : Int) (len : Nat) (hl : 0 < len) (border : Bool) (src dst : Words)
    (h : (len : Int) ≤ dx ∨ dx ≤ -(len : Int)) : IsShift dx len border src dst (bitFill len border dst) := by
  constructor
  · intro i hi
    rw [(C55_fill len border dst).1 i hi]
    unfold shiftSpec
    rw [if_neg (by omega)]
  · intro k hk
    exact (C55_fill len border dst).2 k hl hk

/-- C56: shifting to the right of the image (`dx > 0`), for every length, border and every shift that
is not a multiple of 64, or is at least the length. -/
theorem C56_left_partial (dx : Nat) (len : Nat) (hl : 0 < len) (border : Bool) (src dst : Words)
    (hd : dx % 64 ≠ 0 ∨ len ≤ dx) (h0 : 0 < dx) :
    ∃ m, bitShift dx len border src dst = some m ∧ IsShift dx len border src dst m := by
  have e : bitShift (dx : Int) len border src dst = bitShiftLeft dx len border src dst := by
    unfold bitShift; rw [if_neg (by omega), if_pos (by omega)]; simp
  rw [e]
  by_cases hge : len ≤ dx
  · refine ⟨bitFill len border dst, ?_, fill_isShift _ _ hl _ _ _ (by omega)⟩
    unfold bitShiftLeft; simp only; rw [if_pos (by omega)]
  · have hd' : dx % 64 ≠ 0 := by omega
    obtain ⟨m, hm, hw⟩ := left_word dx hd' len (by omega) border src dst
    refine ⟨m, hm, ?_, ?_⟩
    · intro i hi
      unfold lineBit shiftSpec
      have hi64 : i % 64 < 64 := Nat.mod_lt _ (by decide)
      have hiw := word_lt len i hi
      rw [hw]
      by_cases c1 : i / 64 < dx / 64
      · rw [if_pos c1, if_neg (by omega), borderWord_bit _ _ hi64]
      · rw [if_neg c1]
        by_cases c2 : i / 64 = dx / 64
        · rw [if_pos c2, BitVec.getLsbD_or, BitVec.getLsbD_shiftLeft, BitVec.getLsbD_ushiftRight]
          by_cases c3 : i % 64 < dx % 64
          · rw [if_neg (by omega), borderWord_bit _ _ (by omega)]
            simp [c3]
          · rw [if_pos (by omega)]
            have e1 : ((i : Int) - (dx : Int)).toNat = i % 64 - dx % 64 := by omega
            rw [e1]
            have e2 : (borderWord border).getLsbD (64 - dx % 64 + i % 64) = false :=
              BitVec.getLsbD_of_ge _ _ (by omega)
            rw [e2]
            unfold lineBit
            have e3 : (i % 64 - dx % 64) / 64 = 0 := by omega
            have e4 : (i % 64 - dx % 64) % 64 = i % 64 - dx % 64 := by omega
            rw [e3, e4]
            simp [c3, hi64]
        · rw [if_neg c2, if_pos hiw, if_pos (by omega), BitVec.getLsbD_or, BitVec.getLsbD_shiftLeft,
            BitVec.getLsbD_ushiftRight]
          have e1 : ((i : Int) - (dx : Int)).toNat = i - dx := by omega
          rw [e1]
          unfold lineBit
          by_cases c3 : i % 64 < dx % 64
          · have e2 : (i - dx) / 64 = i / 64 - dx / 64 - 1 := by omega
            have e3 : (i - dx) % 64 = 64 - dx % 64 + i % 64 := by omega
            rw [e2, e3]
            simp [c3]
          · have e2 : (i - dx) / 64 = i / 64 - dx / 64 := by omega
            have e3 : (i - dx) % 64 = i % 64 - dx % 64 := by omega
            rw [e2, e3]
            have e4 : (src (i / 64 - dx / 64 - 1)).getLsbD (64 - dx % 64 + i % 64) = false :=
              BitVec.getLsbD_of_ge _ _ (by omega)
            rw [e4]
            simp [c3, hi64]
    · intro k hk
      rw [hw]
      have hr : dx / 64 < intSize len := word_lt len dx (by omega)
      rw [intSize_eq len hl] at hr ⊢
      rw [if_neg (by omega), if_neg (by omega), if_neg (by omega)]

theorem right_word (dx : Nat) (hd : dx % 64 ≠ 0) (len : Nat) (hlt : dx < len) (border : Bool)
    (src dst : Words) (hc : dx % 64 + bitPad len < 64) :
    ∃ m, bitShiftRight dx len border src dst = some m ∧ ∀ k, m k =
      if intSize len ≤ k then dst k
      else if intSize len - 1 - dx / 64 < k then borderWord border
      else if k = intSize len - 1 - dx / 64 then
        ((src (intSize len - 1) &&& (BitVec.allOnes 64 >>> bitPad len)) >>> (dx % 64))
          ||| (borderWord border <<< (64 - dx % 64))
      else if k = intSize len - 2 - dx / 64 then
        (src (intSize len - 2) >>> (dx % 64)) |||
          ((src (intSize len - 1) &&& (BitVec.allOnes 64 >>> bitPad len)) <<< (64 - dx % 64))
      else (src (k + dx / 64) >>> (dx % 64)) ||| (src (k + dx / 64 + 1) <<< (64 - dx % 64)) := by
  have h1 : dx % 64 < 64 := Nat.mod_lt _ (by decide)
  have h2 : 64 - dx % 64 < 64 := by omega
  have h3 : bitPad len < 64 := bitPad_lt len (by omega)
  have hdb : (dx + bitPad len) / 64 = dx / 64 := by omega
  have hr : dx / 64 < intSize len := word_lt len dx hlt
  have hL : intSize len = intSize len - 1 + 1 := by omega
  unfold bitShiftRight
  simp only [hdb]
  rw [if_neg (show ¬ dx ≥ len by omega)]
  simp only [shlW, shrW, h1, h2, h3, if_true, Option.bind_some, Option.map_some]
  by_cases hc2 : dx / 64 + 1 < intSize len
  · rw [if_pos hc2, Option.bind_some]
    rw [writeLoopM_some _ _ _ (fun k => (src (k + dx / 64) >>> (dx % 64)) |||
      (src (k + dx / 64 + 1) <<< (64 - dx % 64))) _ (fun k _ _ => rfl)]
    refine ⟨_, rfl, ?_⟩
    intro k
    rw [writeLoop_apply]
    by_cases g1 : intSize len ≤ k
    · rw [if_pos g1, if_neg (by omega), Function.update_of_ne (by omega), Function.update_of_ne (by omega),
        writeLoop_apply, if_neg (by omega)]
    · rw [if_neg g1]
      by_cases g2 : intSize len - 1 - dx / 64 < k
      · rw [if_pos g2, if_neg (by omega), Function.update_of_ne (by omega), Function.update_of_ne (by omega),
          writeLoop_apply, if_pos (by omega)]
      · rw [if_neg g2]
        by_cases g3 : k = intSize len - 1 - dx / 64
        · rw [if_pos g3, if_neg (by omega), Function.update_of_ne (by omega), g3, Function.update_self]
        · rw [if_neg g3]
          by_cases g4 : k = intSize len - 2 - dx / 64
          · rw [if_pos g4, if_neg (by omega), g4, Function.update_self]
          · rw [if_neg g4, if_pos (by omega)]
  · rw [if_neg hc2, Option.bind_some]
    rw [writeLoopM_some _ _ _ (fun k => (src (k + dx / 64) >>> (dx % 64)) |||
      (src (k + dx / 64 + 1) <<< (64 - dx % 64))) _ (fun k _ _ => rfl)]
    refine ⟨_, rfl, ?_⟩
    intro k
    rw [writeLoop_apply, if_neg (by omega)]
    by_cases g1 : intSize len ≤ k
    · rw [if_pos g1, Function.update_of_ne (by omega), writeLoop_apply, if_neg (by omega)]
    · rw [if_neg g1]
      by_cases g2 : intSize len - 1 - dx / 64 < k
      · rw [if_pos g2, Function.update_of_ne (by omega), writeLoop_apply, if_pos (by omega)]
      · rw [if_neg g2, if_pos (by omega)]
        have : k = intSize len - 1 - dx / 64 := by omega
        rw [this, Function.update_self]

/-- C56: shifting to the left of the image (`dx < 0`): proved for shifts at least the length, and for
shifts that are not a multiple of 64 when the length is a multiple of 64, or when the border is 0 and
the shift modulo 64 plus the padding is less than 64. -/
theorem C56_right_partial (dx : Nat) (len : Nat) (hl : 0 < len) (border : Bool) (src dst : Words)
    (h0 : 0 < dx)
    (hd : len ≤ dx ∨ dx % 64 ≠ 0 ∧ (len % 64 = 0 ∨ border = false ∧ dx % 64 + ((len + 63) / 64 * 64 - len) < 64)) :
    ∃ m, bitShift (-(dx : Int)) len border src dst = some m ∧ IsShift (-(dx : Int)) len border src dst m := by
  have e : bitShift (-(dx : Int)) len border src dst = bitShiftRight dx len border src dst := by
    unfold bitShift; rw [if_neg (by omega), if_neg (by omega)]; simp
  rw [e]
  by_cases hge : len ≤ dx
  · refine ⟨bitFill len border dst, ?_, fill_isShift _ _ hl _ _ _ (by omega)⟩
    unfold bitShiftRight; simp only; rw [if_pos (by omega)]
  · obtain ⟨hd', hcase⟩ := hd.resolve_left hge
    have hI := intSize_eq len hl
    have hpad : bitPad len = (len + 63) / 64 * 64 - len := by unfold bitPad; rw [hI]
    have hc : dx % 64 + bitPad len < 64 := by
      rw [hpad]
      rcases hcase with h | ⟨-, h⟩
      · have : dx % 64 < 64 := Nat.mod_lt _ (by decide)
        omega
      · exact h
    have hbord : border = true → bitPad len = 0 := by
      intro hb
      rcases hcase with h | ⟨h, -⟩
      · rw [hpad]; omega
      · rw [h] at hb; cases hb
    obtain ⟨m, hm, hw⟩ := right_word dx hd' len (by omega) border src dst hc
    refine ⟨m, hm, ?_, ?_⟩
    · intro i hi
      unfold lineBit shiftSpec
      have hi64 : i % 64 < 64 := Nat.mod_lt _ (by decide)
      have hiw := word_lt len i hi
      have hb := bitPad_add len hl
      have hr : dx / 64 < intSize len := word_lt len dx (by omega)
      have hd64 : dx % 64 < 64 := Nat.mod_lt _ (by decide)
      -- the bits of the masked last word
      have hmask : ∀ j, (src (intSize len - 1) &&& (BitVec.allOnes 64 >>> bitPad len)).getLsbD j
          = if j < 64 - bitPad len then (src (intSize len - 1)).getLsbD j else false := by
        intro j
        rw [BitVec.getLsbD_and, BitVec.getLsbD_ushiftRight, BitVec.getLsbD_allOnes]
        by_cases hj : j < 64 - bitPad len
        · rw [if_pos hj, decide_eq_true (by omega), Bool.and_true]
        · rw [if_neg hj, decide_eq_false (by omega), Bool.and_false]
      have hgt : ∀ (x : Word) j, 64 ≤ j → x.getLsbD j = false := fun x j h => BitVec.getLsbD_of_ge _ _ h
      have hneg : ((i : Int) - -(dx : Int)).toNat = i + dx := by omega
      rw [hw, if_neg (by omega), hneg]
      by_cases c1 : intSize len - 1 - dx / 64 < i / 64
      · rw [if_pos c1, borderWord_bit _ _ hi64, if_neg (by omega)]
      · rw [if_neg c1]
        by_cases c2 : i / 64 = intSize len - 1 - dx / 64
        · rw [if_pos c2, BitVec.getLsbD_or, BitVec.getLsbD_shiftLeft, BitVec.getLsbD_ushiftRight, hmask]
          by_cases c3 : i % 64 < 64 - dx % 64
          · rw [decide_eq_true hi64, decide_eq_true c3]
            simp only [Bool.not_true, Bool.and_false, Bool.false_and, Bool.or_false]
            by_cases c4 : dx % 64 + i % 64 < 64 - bitPad len
            · rw [if_pos c4, if_pos (by omega)]
              unfold lineBit
              have e1 : (i + dx) / 64 = intSize len - 1 := by omega
              have e2 : (i + dx) % 64 = dx % 64 + i % 64 := by omega
              rw [e1, e2]
            · rw [if_neg c4, if_neg (by omega)]
              cases border
              · rfl
              · have := hbord rfl; omega
          · rw [if_neg (show ¬ dx % 64 + i % 64 < 64 - bitPad len by omega), if_neg (by omega),
              decide_eq_true hi64, decide_eq_false c3, borderWord_bit _ _ (by omega)]
            simp
        · rw [if_neg c2]
          have hin : 0 ≤ (i : Int) - -(dx : Int) ∧ (i : Int) - -(dx : Int) < len := by
            omega
          rw [if_pos hin]
          by_cases c5 : i / 64 = intSize len - 2 - dx / 64
          · rw [if_pos c5, BitVec.getLsbD_or, BitVec.getLsbD_shiftLeft, BitVec.getLsbD_ushiftRight, hmask]
            unfold lineBit
            by_cases c3 : i % 64 < 64 - dx % 64
            · rw [decide_eq_true hi64, decide_eq_true c3]
              have e1 : (i + dx) / 64 = intSize len - 2 := by omega
              have e2 : (i + dx) % 64 = dx % 64 + i % 64 := by omega
              rw [e1, e2]; simp
            · rw [decide_eq_true hi64, decide_eq_false c3, hgt _ _ (by omega), if_pos (by omega)]
              have e1 : (i + dx) / 64 = intSize len - 1 := by omega
              have e2 : (i + dx) % 64 = i % 64 - (64 - dx % 64) := by omega
              rw [e1, e2]; simp
          · rw [if_neg c5, BitVec.getLsbD_or, BitVec.getLsbD_shiftLeft, BitVec.getLsbD_ushiftRight]
            unfold lineBit
            by_cases c3 : i % 64 < 64 - dx % 64
            · rw [decide_eq_true hi64, decide_eq_true c3]
              have e1 : (i + dx) / 64 = i / 64 + dx / 64 := by omega
              have e2 : (i + dx) % 64 = dx % 64 + i % 64 := by omega
              rw [e1, e2]; simp
            · rw [decide_eq_true hi64, decide_eq_false c3, hgt _ _ (by omega)]
              have e1 : (i + dx) / 64 = i / 64 + dx / 64 + 1 := by omega
              have e2 : (i + dx) % 64 = i % 64 - (64 - dx % 64) := by omega
              rw [e1, e2]; simp
    · intro k hk
      rw [hw, if_pos (by omega)]

/-- C56: the shift by 0. -/
theorem C56_zero (len : Nat) (border : Bool) (src dst : Words) :
    ∃ m, bitShift 0 len border src dst = some m ∧ IsShift 0 len border src dst m := by
  refine ⟨bitCopy len src dst, rfl, ?_, (C55_copy len src dst).2⟩
  intro i hi
  rw [(C55_copy len src dst).1 i hi]
  unfold shiftSpec
  rw [if_pos (by omega)]
  congr 1

/-- C56 fails for every shift by a multiple of 64 smaller than the line: the code shifts a word by
64, which is undefined. -/
theorem C56_multiple_bug (n len : Nat) (hn : 0 < n) (hlt : n * 64 < len) (border : Bool) (src dst : Words) :
    bitShift ((n * 64 : Nat) : Int) len border src dst = none ∧
      bitShift (-((n * 64 : Nat) : Int)) len border src dst = none := by
  have h0 : n * 64 % 64 = 0 := by omega
  constructor
  · unfold bitShift
    rw [if_neg (by omega), if_pos (by omega)]
    unfold bitShiftLeft
    simp only [Int.toNat_natCast]
    rw [if_neg (show ¬ n * 64 ≥ len by omega)]
    simp [h0, shlW, shrW]
  · unfold bitShift
    rw [if_neg (by omega), if_neg (by omega)]
    unfold bitShiftRight
    simp only [neg_neg, Int.toNat_natCast]
    rw [if_neg (show ¬ n * 64 ≥ len by omega)]
    have h3 : bitPad len < 64 := bitPad_lt len (by omega)
    simp [h0, shlW, shrW, h3]

/-- C56 fails for a line of 65 pixels shifted by -1: pixel 64 is moved to pixel 0, and the pixels in
between are lost. -/
theorem C56_right_bug :
    (bitShift (-1) 65 false (fun k => if k = 0 then 4 else 1) (fun _ => 0)).map
        (fun m => (lineBit m 1, lineBit m 63)) = some (false, false)
      ∧ shiftSpec (-1) 65 false (fun k => if k = 0 then 4 else 1) 1 = true
      ∧ shiftSpec (-1) 65 false (fun k => if k = 0 then 4 else 1) 63 = true := by decide +kernel

/-- C56 fails for a border 1 as soon as the length is not a multiple of 64: here a line of 10 zeros
shifted by -1 has its last pixel 0. -/
theorem C56_border_bug :
    (bitShift (-1) 10 true (fun _ => 0) (fun _ => 0)).map (fun m => lineBit m 9) = some false
      ∧ shiftSpec (-1) 10 true (fun _ => 0) 9 = true := by decide +kernel

example : (bitShift 3 70 true (fun k => if k = 0 then 1 else 0) (fun _ => 0)).map
    (fun m => (m 0, m 1)) = some (15#64, 0#64) := by decide +kernel
example : (bitShift (-3) 70 false (fun k => if k = 0 then 8 else 1) (fun _ => 0)).map
    (fun m => (lineBit m 0, lineBit m 61, lineBit m 62)) = some (true, true, false) := by decide +kernel
example : (3 % 64 ≠ 0 ∧ (70 % 64 = 0 ∨ false = false ∧ 3 % 64 + ((70 + 63) / 64 * 64 - 70) < 64)) := by
  decide

end Smil
