import Verif.IOFile
import Mathlib.Tactic.Ring

/-! # Lemmas on files -/

namespace Smil

@[simp] theorem IORes.bind_ok {α β : Type} (a : α) (f : α → IORes β) : (IORes.ok a >>= f) = f a := rfl
@[simp] theorem IORes.bind_err {α β : Type} (f : α → IORes β) : (IORes.err >>= f) = .err := rfl
@[simp] theorem IORes.pure_eq {α : Type} (a : α) : (pure a : IORes α) = .ok a := rfl

instance : LawfulMonad IORes := LawfulMonad.mk'
  (id_map := by intro α x; cases x <;> rfl)
  (pure_bind := by intros; rfl)
  (bind_assoc := by intro α β γ x f g; cases x <;> rfl)

/-! ### Numbers as bytes -/

theorem leBytes_length (n k : Nat) : (leBytes n k).length = k := by
  induction k generalizing n with
  | zero => rfl
  | succ k ih => simp [leBytes, ih]

theorem leVal_leBytes (n k : Nat) : leVal (leBytes n k) = n % 256 ^ k := by
  induction k generalizing n with
  | zero => simp [leBytes, leVal, Nat.mod_one]
  | succ k ih =>
      have hb : (UInt8.ofNat (n % 256)).toNat = n % 256 := by
        rw [UInt8.toNat_ofNat']; omega
      rw [leBytes, leVal, ih, hb, Nat.pow_succ, Nat.mul_comm (256 ^ k) 256, Nat.mod_mul]

theorem field_mid (p q : List UInt8) (v k off : Nat) (h : off = p.length) :
    field (p ++ (leBytes v k ++ q)) off k = v % 256 ^ k := by
  subst h
  unfold field
  rw [List.drop_left' rfl, List.take_left' (leBytes_length v k), leVal_leBytes]

theorem freadAll_append (a b : List UInt8) (n : Nat) (hn : a.length = n) (h0 : 0 < n) :
    freadAll n (a ++ b) = .ok (a, b) := by
  unfold freadAll
  rw [if_neg (by rw [List.length_append]; omega), List.take_left' hn, List.drop_left' hn]

theorem readBMPHeader_write (size off w h bits si cu ci : Nat) (xp rest : List UInt8) (hx : xp.length = 8) :
    readBMPHeader (bmpHeaders size off w h bits si cu ci xp ++ rest) =
      .ok (⟨off % 2 ^ 32, w % 2 ^ 32, h % 2 ^ 32, bits % 2 ^ 16, cu % 2 ^ 32⟩, rest) := by
  set A := leBytes 0x4D42 2 ++ leBytes size 4 ++ leBytes 0 2 ++ leBytes 0 2 ++ leBytes off 4 with hA
  set B := leBytes 40 4 ++ leBytes w 4 ++ leBytes h 4 ++ leBytes 1 2 ++ leBytes bits 2 ++ leBytes 0 4 ++
    leBytes si 4 ++ xp ++ leBytes cu 4 ++ leBytes ci 4 with hB
  have e : bmpHeaders size off w h bits si cu ci xp ++ rest = A ++ (B ++ rest) := by
    rw [hA, hB]; unfold bmpHeaders; simp only [List.append_assoc]
  have lA : A.length = 14 := by simp [hA, leBytes_length]
  have lB : B.length = 40 := by simp [hB, leBytes_length, hx]
  have f1 : field A 0 2 = 0x4D42 := by
    have : A = [] ++ (leBytes 0x4D42 2 ++ (leBytes size 4 ++ leBytes 0 2 ++ leBytes 0 2 ++ leBytes off 4)) := by
      rw [hA]; simp only [List.append_assoc, List.nil_append]
    rw [this, field_mid [] _ _ _ 0 rfl]; norm_num
  have f2 : field A 10 4 = off % 2 ^ 32 := by
    have : A = (leBytes 0x4D42 2 ++ leBytes size 4 ++ leBytes 0 2 ++ leBytes 0 2) ++ (leBytes off 4 ++ []) := by
      rw [hA]; simp only [List.append_nil]
    rw [this, field_mid _ _ _ _ _ (by simp [leBytes_length])]; norm_num
  have g1 : field B 16 4 = 0 := by
    have : B = (leBytes 40 4 ++ leBytes w 4 ++ leBytes h 4 ++ leBytes 1 2 ++ leBytes bits 2) ++ (leBytes 0 4 ++
      (leBytes si 4 ++ xp ++ leBytes cu 4 ++ leBytes ci 4)) := by rw [hB]; simp only [List.append_assoc]
    rw [this, field_mid _ _ _ _ _ (by simp [leBytes_length])]; norm_num
  have g2 : field B 4 4 = w % 2 ^ 32 := by
    have : B = leBytes 40 4 ++ (leBytes w 4 ++ (leBytes h 4 ++ leBytes 1 2 ++ leBytes bits 2 ++ leBytes 0 4 ++
      leBytes si 4 ++ xp ++ leBytes cu 4 ++ leBytes ci 4)) := by rw [hB]; simp only [List.append_assoc]
    rw [this, field_mid _ _ _ _ _ (by simp [leBytes_length])]; norm_num
  have g3 : field B 8 4 = h % 2 ^ 32 := by
    have : B = (leBytes 40 4 ++ leBytes w 4) ++ (leBytes h 4 ++ (leBytes 1 2 ++ leBytes bits 2 ++ leBytes 0 4 ++
      leBytes si 4 ++ xp ++ leBytes cu 4 ++ leBytes ci 4)) := by rw [hB]; simp only [List.append_assoc]
    rw [this, field_mid _ _ _ _ _ (by simp [leBytes_length])]; norm_num
  have g4 : field B 14 2 = bits % 2 ^ 16 := by
    have : B = (leBytes 40 4 ++ leBytes w 4 ++ leBytes h 4 ++ leBytes 1 2) ++ (leBytes bits 2 ++ (leBytes 0 4 ++
      leBytes si 4 ++ xp ++ leBytes cu 4 ++ leBytes ci 4)) := by rw [hB]; simp only [List.append_assoc]
    rw [this, field_mid _ _ _ _ _ (by simp [leBytes_length])]; norm_num
  have g5 : field B 32 4 = cu % 2 ^ 32 := by
    have : B = (leBytes 40 4 ++ leBytes w 4 ++ leBytes h 4 ++ leBytes 1 2 ++ leBytes bits 2 ++ leBytes 0 4 ++
      leBytes si 4 ++ xp) ++ (leBytes cu 4 ++ (leBytes ci 4)) := by rw [hB]; simp only [List.append_assoc]
    rw [this, field_mid _ _ _ _ _ (by simp [leBytes_length, hx])]; norm_num
  rw [e]
  unfold readBMPHeader
  rw [freadAll_append A _ 14 lA (by decide)]
  simp only [IORes.bind_ok, f1, f2, ensure, decide_true, if_true]
  rw [freadAll_append B _ 40 lB (by decide)]
  simp only [IORes.bind_ok, g1, g2, g3, g4, g5, ensure, decide_true, if_true, IORes.pure_eq]

theorem readLut_write (l rest : List UInt8) :
    readLut l.length (l.flatMap (fun i => [i, i, i, 0]) ++ rest) = .ok l := by
  induction l with
  | nil => simp [readLut]
  | cons b l ih =>
      simp only [List.flatMap_cons, List.length_cons, List.cons_append, List.nil_append]
      rw [readLut, ih]
      simp only [IORes.bind_ok, IORes.pure_eq, IORes.ok.injEq, List.cons.injEq, and_true]
      have : (b.toNat + b.toNat + b.toNat) / 3 = b.toNat := by omega
      rw [this, UInt8.ofNat_toNat]

/-! ### Writing rows -/

/-- A row of checked writes. -/
theorem row_write {α : Type} (n base w : Nat) (g : Nat → α → α) (step : (Nat → α) → Nat → IORes (Nat → α))
    (hs : ∀ b i, i < w → step b i = wrAt n b (base + i) (g i (b (base + i)))) (hn : base + w ≤ n)
    (buf : Nat → α) :
    ∃ b', (List.range w).foldlM step buf = .ok b' ∧
      ∀ k, b' k = if base ≤ k ∧ k < base + w then g (k - base) (buf k) else buf k := by
  induction w with
  | zero => exact ⟨buf, rfl, fun k => by rw [if_neg (by omega)]⟩
  | succ w ih =>
      obtain ⟨b', h1, h2⟩ := ih (fun b i hi => hs b i (by omega)) (by omega)
      refine ⟨Function.update b' (base + w) (g w (buf (base + w))), ?_, ?_⟩
      · rw [List.range_succ, List.foldlM_append, h1]
        simp only [IORes.bind_ok, List.foldlM_cons, List.foldlM_nil, IORes.pure_eq]
        rw [hs b' w (by omega)]
        unfold wrAt
        rw [if_pos (by omega), IORes.bind_ok, h2, if_neg (by omega)]
      · intro k
        by_cases hk : k = base + w
        · subst hk
          rw [Function.update_self, if_pos (by omega)]
          congr 1; omega
        · rw [Function.update_of_ne hk, h2]
          by_cases hc : base ≤ k ∧ k < base + w
          · rw [if_pos hc, if_pos (by omega)]
          · rw [if_neg hc, if_neg (by omega)]

theorem row_disjoint {l l' w i : Nat} (hne : l ≠ l') (hi : i < w) :
    ¬ (l * w ≤ l' * w + i ∧ l' * w + i < l * w + w) := by
  rintro ⟨h1, h2⟩
  rcases Nat.lt_or_gt_of_ne hne with h | h
  · have : (l + 1) * w ≤ l' * w := Nat.mul_le_mul_right _ h
    have e : (l + 1) * w = l * w + w := by ring
    omega
  · have : (l' + 1) * w ≤ l * w := Nat.mul_le_mul_right _ h
    have e : (l' + 1) * w = l' * w + w := by ring
    omega

theorem row_bound {l n w : Nat} (hl : l < n) : l * w + w ≤ n * w := by
  calc l * w + w = (l + 1) * w := by ring
    _ ≤ n * w := Nat.mul_le_mul_right _ hl

/-! ### Decimal numbers -/

theorem decB_digit (n : Nat) : ∀ b ∈ decB n, isDigitB b = true := by
  have hd : ∀ k, k < 10 → isDigitB (UInt8.ofNat (48 + k)) = true := by decide
  induction n using Nat.strongRecOn with
  | ind n ih =>
      rw [decB]
      split
      · rename_i h
        intro b hb
        rw [List.mem_singleton] at hb
        subst hb
        exact hd n h
      · rename_i h
        intro b hb
        rw [List.mem_append, List.mem_singleton] at hb
        rcases hb with hb | hb
        · exact ih (n / 10) (by omega) b hb
        · subst hb; exact hd _ (by omega)

theorem decB_ne_nil (n : Nat) : decB n ≠ [] := by
  rw [decB]; split <;> simp

theorem digitsVal_decB (n : Nat) : digitsVal (decB n) = n := by
  have hd : ∀ k, k < 10 → (UInt8.ofNat (48 + k)).toNat - 48 = k := by decide
  induction n using Nat.strongRecOn with
  | ind n ih =>
      rw [decB]
      split
      · rename_i h
        simp only [digitsVal, List.foldl_cons, List.foldl_nil, Nat.zero_mul, Nat.zero_add]
        exact hd n h
      · rename_i h
        have h1 := ih (n / 10) (by omega)
        unfold digitsVal at h1 ⊢
        rw [List.foldl_append, h1]
        simp only [List.foldl_cons, List.foldl_nil]
        rw [hd _ (by omega)]
        omega

theorem takeWhile_app {p : UInt8 → Bool} {a : List UInt8} (b : UInt8) (l : List UInt8) (ha : ∀ x ∈ a, p x = true)
    (hb : p b = false) : (a ++ b :: l).takeWhile p = a := by
  induction a with
  | nil => simp [hb]
  | cons x a ih =>
      simp only [List.cons_append, List.takeWhile_cons, ha x (by simp), if_true]
      rw [ih (fun y hy => ha y (by simp [hy]))]

theorem takeWhile_all {p : UInt8 → Bool} {a : List UInt8} (ha : ∀ x ∈ a, p x = true) : a.takeWhile p = a := by
  induction a with
  | nil => rfl
  | cons x a ih =>
      simp only [List.takeWhile_cons, ha x (by simp), if_true]
      rw [ih (fun y hy => ha y (by simp [hy]))]

theorem atoiB_decB (n : Nat) : atoiB (decB n) = n := by
  unfold atoiB
  have h1 : (decB n).dropWhile isSpaceB = decB n := by
    cases hd : decB n with
    | nil => rfl
    | cons b l =>
        have : isDigitB b = true := decB_digit n b (by rw [hd]; simp)
        have hs : isSpaceB b = false := by
          revert this; revert b; intro b _ h
          unfold isDigitB at h; unfold isSpaceB
          simp only [Bool.and_eq_true, decide_eq_true_eq, UInt8.le_iff_toNat_le] at h
          have h48 : (48 : UInt8).toNat = 48 := rfl
          have h32 : (32 : UInt8).toNat = 32 := rfl
          have h13 : (13 : UInt8).toNat = 13 := rfl
          simp only [Bool.or_eq_false_iff, Bool.and_eq_false_iff, decide_eq_false_iff_not, UInt8.le_iff_toNat_le]
          refine ⟨?_, Or.inr (by omega)⟩
          intro he; rw [he] at h; omega
        rw [List.dropWhile_cons, hs]; rfl
  rw [h1, takeWhile_all (decB_digit n), digitsVal_decB]

theorem digit_not_space {b : UInt8} (h : isDigitB b = true) : isSpaceB b = false := by
  unfold isDigitB at h; unfold isSpaceB
  simp only [Bool.and_eq_true, decide_eq_true_eq, UInt8.le_iff_toNat_le] at h
  have h48 : (48 : UInt8).toNat = 48 := rfl
  have h32 : (32 : UInt8).toNat = 32 := rfl
  have h13 : (13 : UInt8).toNat = 13 := rfl
  simp only [Bool.or_eq_false_iff, Bool.and_eq_false_iff, decide_eq_false_iff_not, UInt8.le_iff_toNat_le]
  refine ⟨?_, Or.inr (by omega)⟩
  intro he; rw [he] at h; omega

theorem digit_not_nl {b : UInt8} (h : isDigitB b = true) : b ≠ 10 := by
  rintro rfl; revert h; decide

theorem digit_not_sp {b : UInt8} (h : isDigitB b = true) : b ≠ 32 := by
  rintro rfl; revert h; decide

theorem digit_upper {b : UInt8} (h : isDigitB b = true) : upperB b = b := by
  unfold upperB
  rw [if_neg]
  rintro ⟨h1, -⟩
  unfold isDigitB at h
  simp only [Bool.and_eq_true, decide_eq_true_eq, UInt8.le_iff_toNat_le] at h h1
  have h57 : (57 : UInt8).toNat = 57 := rfl
  have h97 : (97 : UInt8).toNat = 97 := rfl
  omega

/-! ### Streams -/

/-- A good stream with `r` left to read. -/
structure Strm.At (s : Strm) (r : List UInt8) : Prop where
  eof : s.eof = false
  fail : s.fail = false
  rest : s.data.drop s.pos = r

theorem Strm.At.good {s : Strm} {r : List UInt8} (h : s.At r) : s.good = true := by
  unfold Strm.good; rw [h.eof, h.fail]; rfl

theorem Strm.getline_at {s : Strm} {line r : List UInt8} (h : s.At (line ++ 10 :: r)) (hl : ∀ b ∈ line, b ≠ 10)
    (buf : List UInt8) :
    s.getline buf = (line, true, { s with pos := s.pos + line.length + 1 }) ∧
      Strm.At { s with pos := s.pos + line.length + 1 } r := by
  have ht : (line ++ 10 :: r).takeWhile (fun x => x != 10) = line :=
    takeWhile_app _ _ (fun x hx => by simpa using hl x hx) (by decide)
  refine ⟨?_, h.eof, h.fail, ?_⟩
  · unfold Strm.getline Strm.rest
    rw [h.good, h.rest]
    simp only [Bool.not_true, Bool.false_eq_true, if_false, ht]
    rw [if_pos (by simp)]
  · simp only
    rw [← List.drop_drop, ← List.drop_drop, h.rest, List.drop_left' rfl]
    rfl

theorem Strm.tellg_at {s : Strm} {r : List UInt8} (h : s.At r) : s.tellg = (some s.pos, s) := by
  unfold Strm.tellg; rw [h.good]; rfl

theorem Strm.getNat_at {s : Strm} {ws r : List UInt8} {n : Nat} {c : UInt8}
    (h : s.At (ws ++ (decB n ++ c :: r))) (hws : ∀ b ∈ ws, isSpaceB b = true) (hc : isDigitB c = false)
    (hi v0 : Nat) (hn : n ≤ hi) :
    s.getNat hi v0 = (n, { s with pos := s.pos + ws.length + (decB n).length }) ∧
      Strm.At { s with pos := s.pos + ws.length + (decB n).length } (c :: r) := by
  obtain ⟨b, l, hb⟩ : ∃ b l, decB n = b :: l := by
    cases hd : decB n with
    | nil => exact absurd hd (decB_ne_nil n)
    | cons b l => exact ⟨b, l, rfl⟩
  have hbd : isDigitB b = true := decB_digit n b (by rw [hb]; simp)
  have htw : (ws ++ (decB n ++ c :: r)).takeWhile isSpaceB = ws := by
    rw [hb]; exact takeWhile_app _ _ hws (digit_not_space hbd)
  have hdw : (ws ++ (decB n ++ c :: r)).dropWhile isSpaceB = decB n ++ c :: r := by
    have h1 := List.takeWhile_append_dropWhile (p := isSpaceB) (l := ws ++ (decB n ++ c :: r))
    rw [htw] at h1
    exact List.append_cancel_left h1
  have hds : (decB n ++ c :: r).takeWhile isDigitB = decB n := takeWhile_app _ _ (decB_digit n) hc
  constructor
  · unfold Strm.getNat Strm.rest
    rw [h.good, h.rest]
    simp only [Bool.not_true, Bool.false_eq_true, if_false, htw, hdw, hds, digitsVal_decB]
    have e1 : (decB n ++ c :: r).isEmpty = false := by rw [hb]; rfl
    have e2 : (decB n).isEmpty = false := by rw [hb]; rfl
    have e3 : decide ((decB n).length = (decB n ++ c :: r).length) = false := by
      rw [decide_eq_false_iff_not, List.length_append]; simp
    rw [e1, e2, e3]
    simp only [Bool.false_eq_true, if_false]
    rw [if_neg (by omega), h.eof]
  · refine ⟨h.eof, h.fail, ?_⟩
    simp only
    rw [← List.drop_drop, ← List.drop_drop, h.rest, List.drop_left' rfl, List.drop_left' rfl]

theorem Strm.read_at {s : Strm} {a r : List UInt8} (h : s.At (a ++ r)) (n : Nat) (hn : a.length = n) :
    s.read n = (a, { s with pos := s.pos + n }) ∧ Strm.At { s with pos := s.pos + n } r := by
  refine ⟨?_, h.eof, h.fail, ?_⟩
  · unfold Strm.read Strm.rest
    rw [h.good, h.rest]
    simp only [Bool.not_true, Bool.false_eq_true, if_false]
    rw [if_pos (by rw [List.length_append]; omega), List.take_left' hn]
  · simp only
    rw [← List.drop_drop, h.rest, List.drop_left' hn]

theorem Strm.seekg_at {s s0 : Strm} {p : Nat} (hf : s.fail = false) (hd : s.data = s0.data) {r : List UInt8}
    (h : Strm.At { s0 with pos := p } r) : Strm.At (s.seekg (some p)) r := by
  unfold Strm.seekg
  rw [hf]
  simp only [Bool.false_eq_true, if_false]
  exact ⟨rfl, rfl, by simp only [hd]; exact h.rest⟩

/-! ### Words -/

theorem splitAux_word (acc w r : List UInt8) (hw : ∀ b ∈ w, b ≠ 32) :
    splitAux acc (w ++ 32 :: r) = (acc.reverse ++ w) :: splitAux [] r := by
  induction w generalizing acc with
  | nil => simp [splitAux]
  | cons b w ih =>
      rw [List.cons_append, splitAux, if_neg (hw b (by simp)), ih _ (fun c hc => hw c (by simp [hc]))]
      simp

theorem splitAux_last (acc w : List UInt8) (hw : ∀ b ∈ w, b ≠ 32) (hne : acc ≠ [] ∨ w ≠ []) :
    splitAux acc w = [acc.reverse ++ w] := by
  induction w generalizing acc with
  | nil =>
      have : acc ≠ [] := by simpa using hne
      rw [splitAux]
      cases acc with
      | nil => exact absurd rfl this
      | cons a l => simp
  | cons b w ih =>
      rw [splitAux, if_neg (hw b (by simp)), ih _ (fun c hc => hw c (by simp [hc])) (by simp)]
      simp

theorem splitB_head (b : UInt8) (l : List UInt8) :
    ∃ wrd ws, splitB (b :: l) = wrd :: ws ∧ wrd.headD 0 = if b = 32 then 0 else b := by
  unfold splitB
  by_cases hb : b = 32
  · exact ⟨[], splitAux [] l, by simp [splitAux, hb], by simp [hb]⟩
  · rw [splitAux, if_neg hb]
    have : ∀ (l acc : List UInt8), acc ≠ [] → ∃ wrd ws, splitAux acc l = wrd :: ws ∧
        wrd.headD 0 = acc.reverse.headD 0 := by
      intro l
      induction l with
      | nil =>
          intro acc ha
          cases acc with
          | nil => exact absurd rfl ha
          | cons a t => exact ⟨(a :: t).reverse, [], by simp [splitAux], rfl⟩
      | cons c l ih =>
          intro acc ha
          rw [splitAux]
          by_cases hc : c = 32
          · exact ⟨acc.reverse, splitAux [] l, by rw [if_pos hc], rfl⟩
          · rw [if_neg hc]
            obtain ⟨wrd, ws, h1, h2⟩ := ih (c :: acc) (by simp)
            refine ⟨wrd, ws, h1, ?_⟩
            rw [h2]
            cases hr : acc.reverse with
            | nil => simp at hr; exact absurd hr ha
            | cons x t => simp [hr]
    obtain ⟨wrd, ws, h1, h2⟩ := this l [b] (by simp)
    exact ⟨wrd, ws, h1, by rw [h2, if_neg hb]; rfl⟩

end Smil
