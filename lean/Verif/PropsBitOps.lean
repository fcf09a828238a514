import Verif.BitOps
import Verif.PropsArith
import Verif.PropsImageOps
import Mathlib.Tactic.Ring
import Mathlib.Tactic.Positivity

/-! # C99: bitwise operators; C100: exchanges with arrays -/

namespace Smil

variable {t : PT}

/-- Bit `k` of the two's complement of a pixel. -/
def bitOf (p : Px t) (k : Nat) : Bool := decide (p.val / 2 ^ k % 2 = 1)

theorem testBit_div (v : Int) (k : Nat) : v.testBit k = decide (v / 2 ^ k % 2 = 1) := by
  cases v with
  | ofNat m =>
    have : (Int.ofNat m) / 2 ^ k % 2 = ((m / 2 ^ k % 2 : Nat) : Int) := by simp
    rw [this]
    show m.testBit k = _
    rw [Nat.testBit_eq_decide_div_mod_eq]
    congr 1
    apply propext
    omega
  | negSucc m =>
    have : (Int.negSucc m) / 2 ^ k = -((m / 2 ^ k : Nat) : Int) - 1 := by
      rw [Int.negSucc_ediv _ (by positivity)]
      have : Int.ediv (m : Int) (2 ^ k) = ((m / 2 ^ k : Nat) : Int) := by
        show (m : Int) / 2 ^ k = _
        push_cast; rfl
      rw [this]; ring
    have e : (Int.negSucc m).testBit k = !m.testBit k := rfl
    rw [this, e, Nat.testBit_eq_decide_div_mod_eq, ← decide_not]
    congr 1
    apply propext
    omega

theorem card_two_pow (hb : 1 ≤ t.bits) : t.card = 2 ^ t.bits := by
  obtain ⟨s, n⟩ := t
  obtain ⟨m, rfl⟩ : ∃ m, n = m + 1 := ⟨n - 1, by simp at hb; omega⟩
  unfold PT.card PT.hi PT.lo
  cases s
  · simp
  · simp only [if_true, Nat.add_sub_cancel, Nat.cast_pow, Nat.cast_ofNat]
    ring

theorem bit_congr {u v : Int} {n k : Nat} (h : (2 : Int) ^ n ∣ u - v) (hk : k < n) :
    u / 2 ^ k % 2 = v / 2 ^ k % 2 := by
  obtain ⟨q, hq⟩ := h
  have e : u = v + 2 ^ k * (2 * (2 ^ (n - k - 1) * q)) := by
    have : (2 : Int) ^ n = 2 ^ k * (2 * 2 ^ (n - k - 1)) := by
      rw [← pow_succ', ← pow_add]
      congr 1
      omega
    rw [this] at hq
    linarith
  rw [e, Int.add_mul_ediv_left _ _ (by positivity)]
  omega

theorem bits_inj {u v : Int} : ∀ n : Nat, (∀ k < n, u / 2 ^ k % 2 = v / 2 ^ k % 2) → (2 : Int) ^ n ∣ u - v := by
  intro n
  induction n with
  | zero => intro _; simp
  | succ n ih =>
    intro h
    obtain ⟨q, hq⟩ := ih fun k hk => h k (by omega)
    have h1 := h n (by omega)
    have e : u = v + 2 ^ n * q := by linarith
    rw [e, Int.add_mul_ediv_left _ _ (by positivity)] at h1
    obtain ⟨r, hr⟩ : ∃ r, q = 2 * r := ⟨q / 2, by omega⟩
    exact ⟨r, by rw [hq, hr, pow_succ]; ring⟩

/-- Two pixels with the same bits are equal. -/
theorem bitOf_ext (hb : 1 ≤ t.bits) {a b : Px t} (h : ∀ k < t.bits, bitOf a k = bitOf b k) : a = b := by
  have h1 : (2 : Int) ^ t.bits ∣ a.val - b.val := by
    apply bits_inj
    intro k hk
    have := h k hk
    unfold bitOf at this
    rw [decide_eq_decide] at this
    omega
  rw [← card_two_pow hb] at h1
  have := t.wrap_congr h1
  rwa [t.wrap_val, t.wrap_val] at this

theorem bitOf_wrap (hb : 1 ≤ t.bits) (v : Int) {k : Nat} (hk : k < t.bits) : bitOf (t.wrap v) k = v.testBit k := by
  have := t.wrap_dvd v
  rw [card_two_pow hb] at this
  unfold bitOf
  rw [testBit_div, bit_congr this hk]

/-- **C99**: the bits of the results; `bitOf_ext` shows that they determine the pixel. -/
theorem C99_bits (hb : 1 ≤ t.bits) (a b : Px t) {k : Nat} (hk : k < t.bits) :
    bitOf (kBitAnd a b) k = (bitOf a k && bitOf b k) ∧ bitOf (kBitOr a b) k = (bitOf a k || bitOf b k) ∧
      bitOf (kBitXOr a b) k = (bitOf a k ^^ bitOf b k) := by
  unfold kBitAnd kBitOr kBitXOr
  rw [bitOf_wrap hb _ hk, bitOf_wrap hb _ hk, bitOf_wrap hb _ hk, Int.testBit_land, Int.testBit_lor,
    Int.testBit_lxor, testBit_div, testBit_div]
  exact ⟨rfl, rfl, rfl⟩

/-- **C99**: pixels are determined by their bits. -/
theorem C99_ext (hb : 1 ≤ t.bits) (a b : Px t) : a = b ↔ ∀ k < t.bits, bitOf a k = bitOf b k :=
  ⟨fun h _ _ => by rw [h], bitOf_ext hb⟩

theorem testBit_compl (v : Int) (k : Nat) : (-1 - v).testBit k = !v.testBit k := by
  have : -1 - v = Int.lnot v := by
    cases v with
    | ofNat m => show -1 - (m : Int) = Int.negSucc m; omega
    | negSucc m => show -1 - Int.negSucc m = (m : Int); omega
  rw [this, Int.testBit_lnot]

/-- **C99**: where the inversion is defined, it complements every bit. -/
theorem C99_inv (hb : 1 ≤ t.bits) (hs : t.signed = false ∨ t.bits ≤ 16) (a : Px t) :
    ∃ a', kInv a = some a' ∧ ∀ k < t.bits, bitOf a' k = !bitOf a k := by
  refine ⟨_, kInv_eq hs a, fun k hk => ?_⟩
  have hd : t.card ∣ (t.hi + t.lo - a.val) - (-1 - a.val) := by
    have e : (t.hi + t.lo - a.val) - (-1 - a.val) = t.hi + t.lo + 1 := by ring
    rw [e]
    cases hsg : t.signed with
    | false =>
        have hlo : t.lo = 0 := by simp [PT.lo, hsg]
        have : t.card = t.hi + t.lo + 1 := by unfold PT.card; omega
        rw [this]
    | true =>
        have : t.hi + t.lo + 1 = 0 := by simp only [PT.lo, PT.hi, hsg, if_true]; ring
        rw [this]
        exact dvd_zero _
  rw [card_two_pow hb] at hd
  unfold bitOf
  simp only
  rw [bit_congr hd hk, ← testBit_div, testBit_compl, testBit_div]

/-- **C99**: the operators make a Boolean algebra, whose complement is the inversion. -/
theorem C99_algebra (hb : 1 ≤ t.bits) (a b c : Px t) :
    kBitAnd a b = kBitAnd b a ∧ kBitOr a b = kBitOr b a ∧ kBitXOr a b = kBitXOr b a ∧
    kBitAnd (kBitAnd a b) c = kBitAnd a (kBitAnd b c) ∧ kBitOr (kBitOr a b) c = kBitOr a (kBitOr b c) ∧
    kBitXOr (kBitXOr a b) c = kBitXOr a (kBitXOr b c) ∧
    kBitAnd a (kBitOr b c) = kBitOr (kBitAnd a b) (kBitAnd a c) ∧
    kBitOr a (kBitAnd b c) = kBitAnd (kBitOr a b) (kBitOr a c) ∧
    kBitAnd a (kBitOr a b) = a ∧ kBitOr a (kBitAnd a b) = a ∧ kBitXOr (kBitXOr a b) b = a := by
  have h := fun (x y : Px t) {k : Nat} (hk : k < t.bits) => C99_bits hb x y hk
  refine ⟨?_, ?_, ?_, ?_, ?_, ?_, ?_, ?_, ?_, ?_, ?_⟩ <;> apply bitOf_ext hb <;> intro k hk <;>
    simp only [(h _ _ hk).1, (h _ _ hk).2.1, (h _ _ hk).2.2] <;>
    cases bitOf a k <;> cases bitOf b k <;> cases bitOf c k <;> rfl

/-- **C99**: the laws of De Morgan with the inversion, and the exclusive or in terms of the others. -/
theorem C99_demorgan (hb : 1 ≤ t.bits) (hs : t.signed = false ∨ t.bits ≤ 16) (a b : Px t) :
    ∃ a' b', kInv a = some a' ∧ kInv b = some b' ∧ kInv (kBitAnd a b) = some (kBitOr a' b') ∧
      kInv (kBitOr a b) = some (kBitAnd a' b') ∧ kBitXOr a b = kBitOr (kBitAnd a b') (kBitAnd a' b) ∧
      (∀ k < t.bits, bitOf (kBitAnd a a') k = false ∧ bitOf (kBitOr a a') k = true) := by
  have h := fun (x y : Px t) {k : Nat} (hk : k < t.bits) => C99_bits hb x y hk
  obtain ⟨a', ha, ha'⟩ := C99_inv hb hs a
  obtain ⟨b', hb1, hb'⟩ := C99_inv hb hs b
  obtain ⟨c', hc, hc'⟩ := C99_inv hb hs (kBitAnd a b)
  obtain ⟨d', hd, hd'⟩ := C99_inv hb hs (kBitOr a b)
  refine ⟨a', b', ha, hb1, ?_, ?_, ?_, ?_⟩
  · rw [hc]
    congr 1
    apply bitOf_ext hb
    intro k hk
    rw [hc' k hk, (h _ _ hk).1, (h _ _ hk).2.1, ha' k hk, hb' k hk, Bool.not_and]
  · rw [hd]
    congr 1
    apply bitOf_ext hb
    intro k hk
    rw [hd' k hk, (h _ _ hk).1, (h _ _ hk).2.1, ha' k hk, hb' k hk, Bool.not_or]
  · apply bitOf_ext hb
    intro k hk
    simp only [(h _ _ hk).1, (h _ _ hk).2.1, (h _ _ hk).2.2, ha' k hk, hb' k hk]
    cases bitOf a k <;> cases bitOf b k <;> rfl
  · intro k hk
    simp only [(h _ _ hk).1, (h _ _ hk).2.1, ha' k hk]
    cases bitOf a k <;> exact ⟨rfl, rfl⟩

theorem and_add_or (m : Nat) : ∀ n : Nat, (m &&& n) + (m ||| n) = m + n ∧ (m ^^^ n) + (m &&& n) = (m ||| n) := by
  induction m using Nat.strongRecOn with
  | _ m ih =>
    intro n
    by_cases hm : m = 0
    · subst hm; simp
    · obtain ⟨h1, h2⟩ := ih (m / 2) (by omega) (n / 2)
      have a1 : (m &&& n) / 2 = m / 2 &&& n / 2 := Nat.and_div_two
      have o1 : (m ||| n) / 2 = m / 2 ||| n / 2 := Nat.or_div_two
      have x1 : (m ^^^ n) / 2 = m / 2 ^^^ n / 2 := Nat.xor_div_two
      have a2 := Nat.and_mod_two_eq_one (a := m) (b := n)
      have o2 := Nat.or_mod_two_eq_one (a := m) (b := n)
      have x2 := Nat.xor_mod_two_eq_one (a := m) (b := n)
      rw [← a1, ← o1] at h1
      rw [← a1, ← o1, ← x1] at h2
      omega

/-- **C99**: on unsigned images the operators enclose the infimum and the supremum, and
`a + b = (a & b) + (a | b)`, `a | b = (a ^ b) + (a & b)`. -/
theorem C99_order (hs : t.signed = false) (a b : Px t) :
    kBitAnd a b ≤ a ⊓ b ∧ a ⊔ b ≤ kBitOr a b ∧
      (kBitAnd a b).val + (kBitOr a b).val = a.val + b.val ∧
      (kBitXOr a b).val + (kBitAnd a b).val = (kBitOr a b).val := by
  have hlo : t.lo = 0 := by simp [PT.lo, hs]
  have hhi : t.hi = 2 ^ t.bits - 1 := by simp [PT.hi, hs]
  obtain ⟨m, hm⟩ : ∃ m : Nat, a.val = m := ⟨a.val.toNat, by have := a.lo_le; omega⟩
  obtain ⟨n, hn⟩ : ∃ n : Nat, b.val = n := ⟨b.val.toNat, by have := b.lo_le; omega⟩
  have hc : ((2 ^ t.bits : Nat) : Int) = 2 ^ t.bits := by push_cast; rfl
  have hm2 : m < 2 ^ t.bits := by have := a.le_hi; omega
  have hn2 : n < 2 ^ t.bits := by have := b.le_hi; omega
  have hand : m &&& n < 2 ^ t.bits := Nat.and_lt_two_pow m hn2
  have hor : m ||| n < 2 ^ t.bits := Nat.or_lt_two_pow hm2 hn2
  have hxor : m ^^^ n < 2 ^ t.bits := Nat.xor_lt_two_pow hm2 hn2
  have e1 : (kBitAnd a b).val = (m &&& n : Nat) := by
    unfold kBitAnd
    rw [hm, hn]
    exact t.wrap_of_mem (by rw [hlo]; exact Int.natCast_nonneg _) (by rw [hhi]; show ((m &&& n : Nat) : Int) ≤ _; omega)
  have e2 : (kBitOr a b).val = (m ||| n : Nat) := by
    unfold kBitOr
    rw [hm, hn]
    exact t.wrap_of_mem (by rw [hlo]; exact Int.natCast_nonneg _) (by rw [hhi]; show ((m ||| n : Nat) : Int) ≤ _; omega)
  have e3 : (kBitXOr a b).val = (m ^^^ n : Nat) := by
    unfold kBitXOr
    rw [hm, hn]
    exact t.wrap_of_mem (by rw [hlo]; exact Int.natCast_nonneg _) (by rw [hhi]; show ((m ^^^ n : Nat) : Int) ≤ _; omega)
  have h1 : m &&& n ≤ m := Nat.and_le_left
  have h2 : m &&& n ≤ n := Nat.and_le_right
  have h3 : m ≤ m ||| n := Nat.left_le_or
  have h4 : n ≤ m ||| n := Nat.right_le_or
  obtain ⟨h5, h6⟩ := and_add_or m n
  refine ⟨le_inf ?_ ?_, sup_le ?_ ?_, ?_, ?_⟩
  · rw [Px.le_iff]; omega
  · rw [Px.le_iff]; omega
  · rw [Px.le_iff]; omega
  · rw [Px.le_iff]; omega
  · omega
  · omega

/-- **C99**: on the images whose pixels are zero and the maximum the operators are the infimum, the supremum and
the absolute difference. -/
theorem C99_binary (a b : Px t) (ha : a = Px.zero ∨ a = ⊤) (hb : b = Px.zero ∨ b = ⊤) :
    kBitAnd a b = a ⊓ b ∧ kBitOr a b = a ⊔ b ∧ kBitXOr a b = if a = b then Px.zero else ⊤ := by
  have h0 : (Px.zero : Px t).val = 0 := rfl
  have hz : t.wrap 0 = (Px.zero : Px t) := by rw [← h0, t.wrap_val]
  have hle : (Px.zero : Px t) ≤ ⊤ := le_top
  obtain ⟨H, hH⟩ : ∃ H : Nat, (⊤ : Px t).val = H :=
    ⟨(⊤ : Px t).val.toNat, by have := Px.le_iff.1 hle; rw [h0] at this; omega⟩
  have hT : t.wrap (H : Int) = ⊤ := by rw [← hH, t.wrap_val]
  have l1 : Int.land (0 : Int) (H : Int) = 0 ∧ Int.land (H : Int) 0 = 0 ∧ Int.land (H : Int) (H : Int) = H ∧
      Int.land (0 : Int) 0 = 0 :=
    ⟨by show ((0 &&& H : Nat) : Int) = 0; simp, by show ((H &&& 0 : Nat) : Int) = 0; simp,
      by show ((H &&& H : Nat) : Int) = H; simp, rfl⟩
  have l2 : Int.lor (0 : Int) (H : Int) = H ∧ Int.lor (H : Int) 0 = H ∧ Int.lor (H : Int) (H : Int) = H ∧
      Int.lor (0 : Int) 0 = 0 :=
    ⟨by show ((0 ||| H : Nat) : Int) = H; simp, by show ((H ||| 0 : Nat) : Int) = H; simp,
      by show ((H ||| H : Nat) : Int) = H; simp, rfl⟩
  have l3 : Int.xor (0 : Int) (H : Int) = H ∧ Int.xor (H : Int) 0 = H ∧ Int.xor (H : Int) (H : Int) = 0 ∧
      Int.xor (0 : Int) 0 = 0 :=
    ⟨by show ((0 ^^^ H : Nat) : Int) = H; simp, by show ((H ^^^ 0 : Nat) : Int) = H; simp,
      by show ((H ^^^ H : Nat) : Int) = 0; simp, rfl⟩
  unfold kBitAnd kBitOr kBitXOr
  have hx : (if (Px.zero : Px t) = ⊤ then (Px.zero : Px t) else ⊤) = ⊤ := by
    split
    · next h => exact h
    · rfl
  have hx' : (if (⊤ : Px t) = Px.zero then (Px.zero : Px t) else ⊤) = ⊤ := by
    split
    · next h => exact h.symm
    · rfl
  rcases ha with rfl | rfl <;> rcases hb with rfl | rfl
  · rw [h0, l1.2.2.2, l2.2.2.2, l3.2.2.2, hz]; simp
  · rw [h0, hH, l1.1, l2.1, l3.1, hz, hT, hx]; exact ⟨(inf_eq_left.2 hle).symm, (sup_eq_right.2 hle).symm, rfl⟩
  · rw [h0, hH, l1.2.1, l2.2.1, l3.2.1, hz, hT, hx']
    exact ⟨(inf_eq_right.2 hle).symm, (sup_eq_left.2 hle).symm, rfl⟩
  · rw [hH, l1.2.2.1, l2.2.2.1, l3.2.2.1, hz, hT]; simp

/-- **C99**: the logical operators give one where the condition on the zeros holds, zero elsewhere (all types but
the one-bit signed one, in which one is not a value). -/
theorem C99_logic (h1 : 1 ≤ t.hi) (a b : Px t) :
    (kLogicAnd a b).val = (if a.val ≠ 0 ∧ b.val ≠ 0 then 1 else 0) ∧
    (kLogicOr a b).val = (if a.val ≠ 0 ∨ b.val ≠ 0 then 1 else 0) ∧
    (kLogicXOr a b).val = (if (a.val ≠ 0) ≠ (b.val ≠ 0) then 1 else 0) := by
  have hlo : t.lo ≤ 0 := (Px.zero : Px t).lo_le
  have w1 : (t.wrap 1).val = 1 := t.wrap_of_mem (by omega) h1
  have w0 : (t.wrap 0).val = 0 := t.wrap_of_mem hlo (by omega)
  unfold kLogicAnd kLogicOr kLogicXOr Px.truthy
  by_cases ha : a.val = 0 <;> by_cases hb : b.val = 0 <;> simp [ha, hb, w0, w1]

/-- **C99** for images: `bitAnd`, `bitOr`, `bitXOr` write at every pixel the operator of the pixels, whichever
image is the output and in whichever order the pixels are done. -/
theorem C99_images (auto : Bool) (a b o : Nat) (order : Nat → List Nat) (ho : IsSchedule order) (S : Store (Px t))
    (hS : StoreOK S) (hal : ∀ i ∈ [a, b, o], (S i).allocated = true)
    (hsz : (S b).dims = (S a).dims ∧ (S o).dims = (S a).dims) (x y : Nat → Px t)
    (hx : ∀ i < (S a).dims.count, pixelAt S a i = some (x i) ∧ pixelAt S b i = some (y i))
    (op : Bool → Nat → Nat → Nat → (Nat → List Nat) → Store (Px t) → Option (RES × Store (Px t)))
    (k : Px t → Px t → Px t)
    (hop : (op = imBitAnd ∧ k = kBitAnd) ∨ (op = imBitOr ∧ k = kBitOr) ∨ (op = imBitXOr ∧ k = kBitXOr) ∨
      (op = imLogicAnd ∧ k = kLogicAnd) ∨ (op = imLogicOr ∧ k = kLogicOr) ∨ (op = imLogicXOr ∧ k = kLogicXOr)) :
    ∃ S', op auto a b o order S = some (.ok, S') ∧
      (∀ i < (S a).dims.count, pixelAt S' o i = some (k (x i) (y i))) ∧ ∀ c, c ≠ o → S' c = S c := by
  have main : ∀ k : Px t → Px t → Px t, ∃ S', pixOp auto (lift2 fun x y => some (k x y)) a [b] o order S = some (.ok, S') ∧
      (∀ i < (S a).dims.count, pixelAt S' o i = some (k (x i) (y i))) ∧ ∀ c, c ≠ o → S' c = S c := by
    intro k
    obtain ⟨S', h1, h2, _, _, _, h3⟩ := C11_pixelwise auto (lift2 fun x y => some (k x y)) a [b] o order ho S hS
      (by intro c hc; simp at hc; rcases hc with rfl | rfl | rfl <;> exact hal _ (by simp))
      (by intro c hc; simp at hc; rcases hc with rfl | rfl; exacts [hsz.1, hsz.2])
      (fun i => k (x i) (y i))
      (fun i hi => ⟨[x i, y i], by simp [(hx i hi).1, (hx i hi).2], rfl⟩)
    exact ⟨S', h1, h2, h3⟩
  rcases hop with ⟨rfl, rfl⟩ | ⟨rfl, rfl⟩ | ⟨rfl, rfl⟩ | ⟨rfl, rfl⟩ | ⟨rfl, rfl⟩ | ⟨rfl, rfl⟩ <;> exact main _

example : (kBitAnd (t := INT8) ⟨-3, by decide, by decide⟩ ⟨12, by decide, by decide⟩).val = 12 ∧
    (kBitXOr (t := UINT8) ⟨0xF0, by decide, by decide⟩ ⟨0xFF, by decide, by decide⟩).val = 0x0F ∧
    (kBitOr (t := INT8) ⟨-128, by decide, by decide⟩ ⟨1, by decide, by decide⟩).val = -127 ∧
    (1 : Int) ≤ UINT8.hi := by
  decide +kernel

/-- **C99**, the exceptions: the bounds of `C99_order` are not the infimum and the supremum on grey images, and
on signed images they are not bounds. -/
theorem C99_order_bug :
    (kBitAnd (t := UINT8) ⟨1, by decide, by decide⟩ ⟨2, by decide, by decide⟩).val = 0 ∧
    (kBitOr (t := UINT8) ⟨1, by decide, by decide⟩ ⟨2, by decide, by decide⟩).val = 3 ∧
    (-1 : Int) < (kBitAnd (t := INT8) ⟨-1, by decide, by decide⟩ ⟨5, by decide, by decide⟩).val := by
  decide +kernel

/-! ## C100 -/

/-- **C100**: an array of integers, characters or pixels which is long enough receives the pixels, converted,
and keeps the rest; a shorter one is overrun. -/
theorem C100_toArray (s : PT) (px : List (Px t)) (arr : List (Px s)) :
    (toArrayS s px arr = none ↔ arr.length < px.length) ∧
    ∀ r, toArrayS s px arr = some r → r.length = arr.length ∧
      (∀ (i : Nat) (p : Px t), px[i]? = some p → r[i]? = some (s.wrap p.val)) ∧ ∀ i : Nat, px.length ≤ i → r[i]? = arr[i]? := by
  unfold toArrayS
  by_cases h : px.length ≤ arr.length
  · rw [if_pos h]
    refine ⟨⟨fun h' => (by cases h'), fun h' => by omega⟩, ?_⟩
    rintro r ⟨⟩
    refine ⟨by simp; omega, ?_, ?_⟩
    · intro i p hp
      have hi : i < px.length := (List.getElem?_eq_some_iff.1 hp).1
      rw [List.getElem?_append_left (by simpa using hi), List.getElem?_map, hp]
      rfl
    · intro i hi
      rw [List.getElem?_append_right (by simpa using hi), List.getElem?_drop]
      simp only [List.length_map]
      congr 1
      omega
  · rw [if_neg h]
    exact ⟨⟨fun _ => by omega, fun _ => rfl⟩, fun r hr => by cases hr⟩

/-- Conversion to a type with as many bits or more and back is the identity. -/
theorem wrap_wrap {s : PT} (ht : 1 ≤ t.bits) (hst : t.bits ≤ s.bits) (p : Px t) : t.wrap (s.wrap p.val).val = p := by
  have h1 := s.wrap_dvd p.val
  rw [card_two_pow (by omega)] at h1
  have h2 : t.card ∣ p.val - (s.wrap p.val).val := by
    rw [card_two_pow ht]
    exact dvd_trans (pow_dvd_pow 2 hst) h1
  rw [← t.wrap_congr h2, t.wrap_val]

/-- **C100**: writing to an array of elements with as many bits or more (`int` for all the types of the
library, characters for those of eight bits) and reading back gives the image, whatever the image held before. -/
theorem C100_roundtrip {s : PT} (ht : 1 ≤ t.bits) (hst : t.bits ≤ s.bits) (px old : List (Px t)) (arr : List (Px s))
    (hl : old.length = px.length) :
    (px.length ≤ arr.length → ∃ r, toArrayS s px arr = some r ∧ fromArrayS old r = some px) ∧
    fromVecS old (toVecS s px) = px := by
  have e : (px.map fun p => s.wrap p.val).map (fun v => t.wrap v.val) = px := by
    rw [List.map_map]
    conv_rhs => rw [← List.map_id px]
    exact List.map_congr_left fun p _ => wrap_wrap ht hst p
  constructor
  · intro h
    refine ⟨_, if_pos h, ?_⟩
    unfold fromArrayS
    rw [if_pos (by simp; omega), hl, List.take_left' (by simp), e]
  · unfold fromVecS toVecS
    rw [if_pos (by simp [hl]), e]

/-- **C100**: the values themselves are found in the array when it can hold them: `int` for all the types but
the unsigned one of 32 bits. -/
theorem C100_values {s : PT} (hlo : s.lo ≤ t.lo) (hhi : t.hi ≤ s.hi) (px : List (Px t)) :
    (toVecS s px).map Px.val = px.map Px.val := by
  unfold toVecS
  rw [List.map_map]
  apply List.map_congr_left
  intro p _
  exact s.wrap_of_mem (hlo.trans p.lo_le) (p.le_hi.trans hhi)

/-- **C100**: a vector or string of another length changes nothing. -/
theorem C100_length {s : PT} (px : List (Px t)) (v : List (Px s)) (h : v.length ≠ px.length) : fromVecS px v = px :=
  if_neg h

/-- **C100**: an array which is too short is read beyond its end, a longer one is accepted. -/
theorem C100_fromArray {s : PT} (px : List (Px t)) (arr : List (Px s)) :
    (fromArrayS px arr = none ↔ arr.length < px.length) ∧
    ∀ r, fromArrayS px arr = some r → r.length = px.length ∧
      ∀ (i : Nat) (v : Px s), i < px.length → arr[i]? = some v → r[i]? = some (t.wrap v.val) := by
  unfold fromArrayS
  by_cases h : px.length ≤ arr.length
  · rw [if_pos h]
    refine ⟨⟨fun h' => (by cases h'), fun h' => by omega⟩, ?_⟩
    rintro r ⟨⟩
    refine ⟨by simp; omega, ?_⟩
    intro i v hi hv
    rw [List.getElem?_map, List.getElem?_take, if_pos hi, hv]
    rfl
  · rw [if_neg h]
    exact ⟨⟨fun _ => by omega, fun _ => rfl⟩, fun r hr => by cases hr⟩

example : (toVecS INT32 [(⟨200, by decide, by decide⟩ : Px UINT8)]).map Px.val = [200] ∧
    (toVecS INT8 [(⟨200, by decide, by decide⟩ : Px UINT8)]).map Px.val = [-56] ∧
    INT32.lo ≤ UINT16.lo ∧ UINT16.hi ≤ INT32.hi ∧ UINT8.bits ≤ INT8.bits := by
  decide +kernel

/-- **C100**, the exceptions: the strings and character arrays of images of 16 bits keep only the low bytes, and
the integers of images of unsigned numbers of 32 bits are negative above `2^31`. -/
theorem C100_narrow_bug :
    (fromVecS [(⟨0, by decide, by decide⟩ : Px UINT16)] (toVecS INT8 [(⟨256 + 200, by decide, by decide⟩ : Px UINT16)])).map
      Px.val = [65480] ∧
    (toVecS INT32 [(⟨2 ^ 31, by decide, by decide⟩ : Px UINT32)]).map Px.val = [-2 ^ 31] := by
  decide +kernel

end Smil
