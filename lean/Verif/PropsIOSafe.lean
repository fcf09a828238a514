import Verif.PropsVtk

/-!
# C57 and C58: what the readers do with other files

`IORes.Safe` means that the reader accesses nothing outside its tables and its image and runs into no other
undefined operation, and that it stops.
-/

namespace Smil

/-- No undefined operation and no endless loop. -/
def IORes.Safe {α : Type} (r : IORes α) : Prop := r ≠ .ub ∧ r ≠ .hang

theorem IORes.Safe.bind {α β : Type} {r : IORes α} {f : α → IORes β} (h : r.Safe)
    (hf : ∀ a, r = .ok a → (f a).Safe) : (r >>= f).Safe := by
  cases r with
  | ok a => exact hf a rfl
  | err => exact ⟨(fun h => nomatch h), (fun h => nomatch h)⟩
  | ub => exact absurd rfl h.1
  | unmod => exact ⟨(fun h => nomatch h), (fun h => nomatch h)⟩
  | hang => exact absurd rfl h.2

theorem IORes.safe_ok {α : Type} (a : α) : (IORes.ok a).Safe := ⟨by simp, by simp⟩
theorem IORes.safe_pure {α : Type} (a : α) : (pure a : IORes α).Safe := IORes.safe_ok a
theorem IORes.safe_err {α : Type} : (IORes.err : IORes α).Safe := ⟨by simp, by simp⟩
theorem IORes.safe_unmod {α : Type} : (IORes.unmod : IORes α).Safe := ⟨by simp, by simp⟩

theorem ensure_safe (c : Bool) : (ensure c).Safe := by
  unfold ensure; split
  · exact IORes.safe_ok _
  · exact IORes.safe_err

theorem freadAll_safe (n : Nat) (l : List UInt8) : (freadAll n l).Safe := by
  unfold freadAll; split
  · exact IORes.safe_err
  · exact IORes.safe_ok _

theorem freadAll_len {n : Nat} {l a b : List UInt8} (h : freadAll n l = .ok (a, b)) : a.length = n := by
  unfold freadAll at h
  split at h
  · cases h
  · next hc =>
    push Not at hc
    cases h
    rw [List.length_take]; omega

theorem wrAt_safe {α : Type} {n : Nat} (buf : Nat → α) {i : Nat} (v : α) (h : i < n) : (wrAt n buf i v).Safe := by
  unfold wrAt; rw [if_pos h]; exact IORes.safe_ok _

theorem rdTab_safe {α : Type} {l : List α} {i : Nat} (h : i < l.length) : (rdTab l i).Safe := by
  unfold rdTab; rw [List.getElem?_eq_getElem h]; exact IORes.safe_ok _

theorem foldlM_safe {α β : Type} (l : List β) (f : α → β → IORes α) (h : ∀ b ∈ l, ∀ a, (f a b).Safe) (a : α) :
    (l.foldlM f a).Safe := by
  induction l generalizing a with
  | nil => exact IORes.safe_ok _
  | cons b l ih =>
      rw [List.foldlM_cons]
      exact (h b (by simp) a).bind (fun a' _ => ih (fun c hc => h c (by simp [hc])) a')

/-! ### BMP -/

theorem readBMPHeader_safe (f : List UInt8) : (readBMPHeader f).Safe := by
  unfold readBMPHeader
  refine (freadAll_safe _ _).bind fun a _ => ?_
  refine (ensure_safe _).bind fun _ _ => ?_
  refine (freadAll_safe _ _).bind fun a _ => ?_
  exact (ensure_safe _).bind fun _ _ => IORes.safe_pure _

theorem readLut_safe : ∀ (n : Nat) (l : List UInt8), (readLut n l).Safe
  | 0, _ => by rw [readLut]; exact IORes.safe_ok _
  | n + 1, b :: g :: r :: _ :: rest => by
      rw [readLut]; exact (readLut_safe n rest).bind fun _ _ => IORes.safe_pure _
  | _ + 1, [] => IORes.safe_err
  | _ + 1, [_] => IORes.safe_err
  | _ + 1, [_, _] => IORes.safe_err
  | _ + 1, [_, _, _] => IORes.safe_err

theorem readLut_len : ∀ (n : Nat) (l lut : List UInt8), readLut n l = .ok lut → lut.length = n
  | 0, _, lut, h => by rw [readLut] at h; cases h; rfl
  | n + 1, b :: g :: r :: _ :: rest, lut, h => by
      rw [readLut] at h
      cases hr : readLut n rest with
      | ok l' =>
          rw [hr] at h
          cases h
          rw [List.length_cons, readLut_len n rest l' hr]
      | err => rw [hr] at h; cases h
      | ub => rw [hr] at h; cases h
      | unmod => rw [hr] at h; cases h
      | hang => rw [hr] at h; cases h
  | _ + 1, [], _, h => by cases h
  | _ + 1, [_], _, h => by cases h
  | _ + 1, [_, _], _, h => by cases h
  | _ + 1, [_, _, _], _, h => by cases h

theorem cell_lt {w h i j : Nat} (hj : j < h) (hi : i < w) : j * w + i < w * h := by
  have := row_bound (w := w) hj
  rw [Nat.mul_comm w h]; omega

theorem bmpRows_safe (w h : Nat) (lut : List UInt8) (hlut : 256 ≤ lut.length) (js : List Nat)
    (hjs : ∀ j ∈ js, j < h) (rest : List UInt8) (buf : Nat → UInt8) : (bmpRows w h lut js rest buf).Safe := by
  induction js generalizing rest buf with
  | nil => exact IORes.safe_ok _
  | cons j js ih =>
      rw [bmpRows]
      refine (freadAll_safe _ _).bind fun a ha => ?_
      have hl := freadAll_len (a := a.1) (b := a.2) ha
      refine IORes.Safe.bind ?_ fun b _ => ih (fun k hk => hjs k (by simp [hk])) _ _
      unfold bmpRow
      refine foldlM_safe _ _ ?_ _
      intro i hi b
      rw [List.mem_range] at hi
      have := scanSize_ge w
      refine (rdTab_safe (by omega)).bind fun s _ => ?_
      refine (rdTab_safe (Nat.lt_of_lt_of_le s.toNat_lt hlut)).bind fun v _ => ?_
      exact wrAt_safe _ _ (cell_lt (hjs j (by simp)) hi)

/-- C58, BMP files of 8 bits: no access outside the image or the tables when the header announces a table
of 256 colours or more. -/
theorem C58_bmp8_partial (f : List UInt8) (init : Nat → UInt8)
    (hc : ∀ hd rest, readBMPHeader f = .ok (hd, rest) → 256 ≤ hd.clrUsed) : (readBMP8 f init).Safe := by
  unfold readBMP8
  refine (readBMPHeader_safe f).bind fun a ha => ?_
  refine (ensure_safe _).bind fun _ _ => ?_
  refine (readLut_safe _ _).bind fun lut hl => ?_
  have h1 := readLut_len _ _ _ hl
  have h2 := hc a.1 a.2 ha
  split
  · exact IORes.safe_unmod
  · refine IORes.Safe.bind ?_ fun _ _ => IORes.safe_pure _
    exact bmpRows_safe _ _ _ (by omega) _ (fun j hj => List.mem_range.1 (List.mem_reverse.1 hj)) _ _

/-- C58 fails for BMP files of 8 bits whose header says 0 for the number of colours, the usual way to
announce 256: whatever the content of such a file, when it holds a first row, the table of size 0 is read. -/
theorem C58_bmp8_bug (f rest : List UInt8) (init : Nat → UInt8) (hd : BmpHdr)
    (hh : readBMPHeader f = .ok (hd, rest)) (h8 : hd.bitCount = 8) (hc : hd.clrUsed = 0)
    (hw : 0 < hd.width) (hw2 : hd.width + 4 < 2 ^ 31) (hh1 : 0 < hd.height) (hh2 : hd.height < 2 ^ 31)
    (hf : scanSize hd.width ≤ (f.drop hd.offBits).length) : readBMP8 f init = .ub := by
  unfold readBMP8
  rw [hh]
  simp only [IORes.bind_ok, ensure, h8, decide_true, if_true, hc, readLut]
  rw [if_neg (by omega)]
  obtain ⟨h', hh'⟩ : ∃ h', hd.height = h' + 1 := ⟨hd.height - 1, by omega⟩
  obtain ⟨w', hw'⟩ : ∃ w', hd.width = w' + 1 := ⟨hd.width - 1, by omega⟩
  have hs := scanSize_ge hd.width
  rw [hh', List.range_succ, List.reverse_append]
  simp only [List.reverse_cons, List.reverse_nil, List.nil_append, List.cons_append]
  rw [bmpRows]
  unfold freadAll
  rw [if_neg (by omega)]
  simp only [IORes.bind_ok]
  have hrow : ∀ j buf, bmpRow hd.width (h' + 1) [] ((f.drop hd.offBits).take (scanSize hd.width)) j buf = .ub := by
    intro j buf
    unfold bmpRow
    have hlen : 0 < ((f.drop hd.offBits).take (scanSize hd.width)).length := by
      rw [List.length_take]; omega
    rw [hw', List.range_succ_eq_map, List.foldlM_cons, ← hw']
    unfold rdTab
    rw [List.getElem?_eq_getElem hlen]
    rfl
  rw [hrow]
  rfl

/-- A file of one pixel with an empty table. -/
def bmpNoLut : List UInt8 := bmpHeaders 1082 1078 1 1 8 0 0 0 [0, 0, 0, 0, 0, 0, 0, 0] ++ List.replicate 1028 0

example : readBMPHeader bmpNoLut = .ok (⟨1078, 1, 1, 8, 0⟩, List.replicate 1028 0) ∧
    readBMP8 bmpNoLut (fun _ => 0) = .ub := by
  have h : readBMPHeader bmpNoLut = .ok (⟨1078, 1, 1, 8, 0⟩, List.replicate 1028 0) := by decide +kernel
  refine ⟨h, ?_⟩
  refine C58_bmp8_bug bmpNoLut _ (fun _ => 0) _ h rfl rfl ?_ ?_ ?_ ?_ ?_
  all_goals decide +kernel

/-- C58, RGB BMP files: no access outside the image or the row, whatever the file. -/
theorem C58_bmprgb (f : List UInt8) (init : Nat → UInt8) : (readBMPRGB f init).Safe := by
  unfold readBMPRGB
  refine (readBMPHeader_safe f).bind fun a _ => ?_
  refine (ensure_safe _).bind fun _ _ => ?_
  split
  · exact IORes.safe_unmod
  · refine IORes.Safe.bind ?_ fun _ _ => IORes.safe_pure _
    have key : ∀ js, (∀ j ∈ js, j < a.1.height) → ∀ rest buf,
        (bmpRowsRGB a.1.width a.1.height js rest buf).Safe := by
      intro js
      induction js with
      | nil => exact fun _ _ _ => IORes.safe_ok _
      | cons j js ih =>
          intro hjs rest buf
          rw [bmpRowsRGB]
          refine (freadAll_safe _ _).bind fun d hd => ?_
          have hl := freadAll_len (a := d.1) (b := d.2) hd
          refine IORes.Safe.bind ?_ fun b _ => ih (fun k hk => hjs k (by simp [hk])) _ _
          unfold bmpRowRGB
          refine foldlM_safe _ _ ?_ _
          intro i hi b
          rw [List.mem_range] at hi
          refine foldlM_safe _ _ ?_ _
          intro n hn b
          rw [List.mem_range] at hn
          refine (rdTab_safe (by omega)).bind fun v _ => ?_
          have := cell_lt (hjs j (by simp)) hi
          exact wrAt_safe _ _ (by omega)
    exact key _ (fun j hj => List.mem_range.1 (List.mem_reverse.1 hj)) _ _

/-! ### PGM -/

theorem skipComments_ne_ub : ∀ (fuel : Nat) (s : Strm) (buf : List UInt8), skipComments fuel s buf ≠ .ub
  | 0, _, _ => by simp [skipComments]
  | fuel + 1, s, buf => by
      rw [skipComments]
      simp only
      split
      · exact skipComments_ne_ub fuel _ _
      · simp

theorem readPbmInfo_ne_ub (s : Strm) (mv : Nat) : readPbmInfo s mv ≠ .ub := by
  unfold readPbmInfo
  simp only
  split
  · simp
  · split
    · simp
    · intro h
      have h' := skipComments_ne_ub (s.data.length + 2) (s.getline []).2.2 (s.getline []).1
      cases hk : skipComments (s.data.length + 2) (s.getline []).2.2 (s.getline []).1 with
      | ub => exact h' hk
      | ok a => rw [hk] at h; cases h
      | err => rw [hk] at h; cases h
      | unmod => rw [hk] at h; cases h
      | hang => rw [hk] at h; cases h

/-- C58, PGM files: nothing outside the image is accessed by the reader of a file that is not of type P2
(binary gray levels, and the types that it rejects). The reader may loop, see `C58_pgm_hang`. -/
theorem C58_pgm_partial (f : List UInt8) (mv : Nat) (init : Nat → UInt8)
    (hb : ∀ inf s, readPbmInfo (Strm.opened f) mv = .ok (inf, s) → inf.gray → inf.binary) :
    readPGM f mv init ≠ .ub := by
  unfold readPGM
  cases hi : readPbmInfo (Strm.opened f) mv with
  | ub => exact absurd hi (readPbmInfo_ne_ub _ _)
  | err => intro h; cases h
  | unmod => intro h; cases h
  | hang => intro h; cases h
  | ok a =>
      obtain ⟨inf, s⟩ := a
      rw [IORes.bind_ok]
      refine (IORes.Safe.bind (ensure_safe _) fun _ he => ?_).1
      have hg : inf.gray = true := by
        unfold ensure at he
        split at he
        · assumption
        · cases he
      simp only
      split
      · exact IORes.safe_unmod
      · rw [if_pos (hb inf s hi hg)]
        refine IORes.Safe.bind ?_ fun _ _ => IORes.safe_pure _
        refine foldlM_safe _ _ ?_ _
        intro i hi b
        rw [List.mem_range] at hi
        refine (rdTab_safe hi).bind fun v _ => ?_
        refine wrAt_safe _ _ (Nat.lt_of_lt_of_le hi ?_)
        unfold Strm.read
        split
        · simp
        · split
          · simp
          · simp only; omega

theorem wrAt_cases {α : Type} (n : Nat) (buf : Nat → α) (i : Nat) (v : α) :
    (i < n ∧ ∃ b, wrAt n buf i v = .ok b) ∨ (n ≤ i ∧ wrAt n buf i v = .ub) := by
  unfold wrAt
  by_cases h : i < n
  · exact Or.inl ⟨h, _, if_pos h⟩
  · exact Or.inr ⟨by omega, if_neg h⟩

/-- A write of four bytes is defined when the four of them are in the image. -/
theorem wrInt_cases (n : Nat) (buf : Nat → UInt8) (i v : Nat) :
    (i + 3 < n ∧ ∃ b, wrInt n buf i v = .ok b) ∨ (n ≤ i + 3 ∧ wrInt n buf i v = .ub) := by
  unfold wrInt
  have e : List.range 4 = [0, 1, 2, 3] := rfl
  rw [e]
  simp only [List.foldlM_cons, List.foldlM_nil]
  rcases wrAt_cases n buf (i + 0) (UInt8.ofNat (v / 256 ^ 0)) with ⟨h0, b0, e0⟩ | ⟨h0, e0⟩
  · rw [e0, IORes.bind_ok]
    rcases wrAt_cases n b0 (i + 1) (UInt8.ofNat (v / 256 ^ 1)) with ⟨h1, b1, e1⟩ | ⟨h1, e1⟩
    · rw [e1, IORes.bind_ok]
      rcases wrAt_cases n b1 (i + 2) (UInt8.ofNat (v / 256 ^ 2)) with ⟨h2, b2, e2⟩ | ⟨h2, e2⟩
      · rw [e2, IORes.bind_ok]
        rcases wrAt_cases n b2 (i + 3) (UInt8.ofNat (v / 256 ^ 3)) with ⟨h3, b3, e3⟩ | ⟨h3, e3⟩
        · exact Or.inl ⟨h3, b3, by rw [e3]; rfl⟩
        · exact Or.inr ⟨h3, by rw [e3]; rfl⟩
      · exact Or.inr ⟨by omega, by rw [e2]; rfl⟩
    · exact Or.inr ⟨by omega, by rw [e1]; rfl⟩
  · exact Or.inr ⟨by omega, by rw [e0]; rfl⟩

theorem pgmAscii_ub (n m : Nat) (is : List Nat) (s : Strm) (buf : Nat → UInt8) (h : ∃ i ∈ is, n ≤ i + 3) :
    pgmAscii n m is s buf = .ub := by
  induction is generalizing s buf with
  | nil => simp at h
  | cons i is ih =>
      rw [pgmAscii]
      simp only
      by_cases hm : m = 0
      · rw [if_pos hm]
      · rw [if_neg hm]
        rcases wrInt_cases n buf i ((s.getNat (2 ^ 31 - 1) 0).1 * 255 / m) with ⟨h0, b0, e0⟩ | ⟨h0, e0⟩
        · rw [e0, IORes.bind_ok]
          refine ih _ _ ?_
          obtain ⟨j, hj, hn⟩ := h
          rcases List.mem_cons.1 hj with rfl | hj
          · omega
          · exact ⟨j, hj, hn⟩
        · rw [e0]; rfl

/-- C58 fails for every text PGM file (type P2) with at least one pixel: the last pixels are written as
integers of four bytes, beyond the end of the image (or the maximum is 0 and divides). -/
theorem C58_pgm_ascii_bug (f : List UInt8) (mv : Nat) (init : Nat → UInt8) (inf : PbmInfo) (s : Strm)
    (hi : readPbmInfo (Strm.opened f) mv = .ok (inf, s)) (hg : inf.gray = true) (hb : inf.binary = false)
    (h0 : 0 < inf.width * inf.height) (h1 : inf.width * inf.height < 2 ^ 31) : readPGM f mv init = .ub := by
  have hwp : 0 < inf.width := Nat.pos_of_mul_pos_right h0
  have hhp : 0 < inf.height := Nat.pos_of_mul_pos_left h0
  have hw : inf.width ≤ inf.width * inf.height := Nat.le_mul_of_pos_right _ hhp
  have hh : inf.height ≤ inf.width * inf.height := Nat.le_mul_of_pos_left _ hwp
  unfold readPGM
  rw [hi]
  simp only [IORes.bind_ok, ensure, hg, if_true, hb]
  rw [if_neg (by omega), if_neg (by simp),
    pgmAscii_ub _ _ _ _ _ ⟨inf.width * inf.height - 1, List.mem_range.2 (by omega), by omega⟩]
  rfl

example : ∃ s, readPbmInfo (Strm.opened (strB "P2\n# c\n2 1\n255\n3 4\n")) 0 = .ok (⟨true, false, 2, 1, 255⟩, s) ∧
    readPGM (strB "P2\n# c\n2 1\n255\n3 4\n") 0 (fun _ => 0) = .ub := by
  have h : readPbmInfo (Strm.opened (strB "P2\n# c\n2 1\n255\n3 4\n")) 0
      = .ok (⟨true, false, 2, 1, 255⟩, ⟨strB "P2\n# c\n2 1\n255\n3 4\n", 15, false, false⟩) := by decide +kernel
  exact ⟨_, h, C58_pgm_ascii_bug _ _ _ _ _ h rfl rfl (by decide) (by decide)⟩

/-- The loop on comments does not stop once the stream is at its end on a comment, whatever the number of
turns. -/
theorem skipComments_hang (fuel : Nat) (s : Strm) (buf : List UInt8) (hs : s.good = false)
    (hb : buf.head? = some 35) : skipComments fuel s buf = .hang := by
  induction fuel generalizing s with
  | zero => rfl
  | succ fuel ih =>
      rw [skipComments]
      have e1 : s.tellg = (none, { s with fail := true }) := by
        unfold Strm.tellg; rw [hs]; rfl
      have hg : (Strm.mk s.data s.pos s.eof true).good = false := by unfold Strm.good; simp
      have e2 : (Strm.mk s.data s.pos s.eof true).getline buf
          = (buf, false, Strm.mk s.data s.pos s.eof true) := by
        unfold Strm.getline; rw [hg]; rfl
      rw [e1]
      simp only
      rw [e2]
      simp only [hb, if_true]
      exact ih _ hg

theorem getline_good {s s' : Strm} {buf line : List UInt8} {b : Bool} (h : s.getline buf = (line, b, s'))
    (hg : s'.good = true) : s'.rest.length < s.rest.length := by
  unfold Strm.getline at h
  split at h
  · cases h
    unfold Strm.good at hg; simp at hg
  · simp only at h
    split at h
    · next hl =>
      cases h
      unfold Strm.rest at hl ⊢
      simp only [List.length_drop] at hl ⊢
      omega
    · cases h
      unfold Strm.good at hg; simp at hg

/-- The bound on the loop of comments is not what stops it: when it is reached, the loop does not stop for
any bound. -/
theorem skipComments_fuel (fuel : Nat) (s : Strm) (buf : List UInt8) (hf : s.rest.length + 1 < fuel)
    (h : skipComments fuel s buf = .hang) : ∀ n, skipComments n s buf = .hang := by
  induction fuel generalizing s buf with
  | zero => omega
  | succ fuel ih =>
      intro n
      cases n with
      | zero => rfl
      | succ n =>
          rw [skipComments] at h ⊢
          simp only at h ⊢
          split at h
          · next hc =>
            rw [if_pos hc]
            cases hg : (s.tellg.2.getline buf).2.2.good with
            | false => exact skipComments_hang n _ _ hg hc
            | true =>
                refine ih _ _ ?_ h n
                have h1 : (s.tellg.2.getline buf).2.2.rest.length < s.tellg.2.rest.length :=
                  getline_good (s := s.tellg.2) (s' := (s.tellg.2.getline buf).2.2) rfl hg
                have h2 : s.tellg.2.rest = s.rest := by
                  unfold Strm.tellg; split <;> rfl
                rw [h2] at h1
                exact Nat.lt_of_lt_of_le (Nat.succ_lt_succ h1) (by omega)
          · cases h

/-- A PGM file that ends inside its comments is read for ever. -/
theorem C58_pgm_hang : readPGM (strB "P5\n# x") 0 (fun _ => 0) = .hang ∧
    ∀ n, skipComments n ((Strm.opened (strB "P5\n# x")).getline []).2.2 (strB "P5") = .hang := by
  have h1 : skipComments 8 ((Strm.opened (strB "P5\n# x")).getline []).2.2 (strB "P5") = .hang := by decide +kernel
  refine ⟨?_, skipComments_fuel 8 _ _ (by decide +kernel) h1⟩
  have h2 : readPbmInfo (Strm.opened (strB "P5\n# x")) 0 = .hang := by decide +kernel
  unfold readPGM
  rw [h2]
  rfl

example : ∀ inf s, readPbmInfo (Strm.opened (strB "P5\n2 1\n255\nab")) 0 = .ok (inf, s) → inf.gray → inf.binary := by
  have h : readPbmInfo (Strm.opened (strB "P5\n2 1\n255\nab")) 0
      = .ok (⟨true, true, 2, 1, 255⟩, ⟨strB "P5\n2 1\n255\nab", 11, false, false⟩) := by decide +kernel
  intro inf s h' _
  rw [h] at h'
  cases h'
  rfl

/-! ### VTK -/

theorem vtkLine_ne_hang (wrd : List UInt8) (ws : List (List UInt8)) (hd : VtkHdr) : vtkLine wrd ws hd ≠ .hang := by
  have hr : ∀ {β : Type} (k : Nat) (g : List UInt8 → IORes β), (∀ a, g a ≠ .hang) → (rdTab ws k >>= g) ≠ .hang := by
    intro β k g hg
    unfold rdTab
    cases ws[k]? with
    | none => intro h; cases h
    | some v => exact hg v
  unfold vtkLine
  split
  · refine hr _ _ fun a => ?_
    unfold ensure
    split <;> (intro h; cases h)
  · split
    · simp
    · split
      · simp
      · split
        · exact hr _ _ fun a => hr _ _ fun b => hr _ _ fun c => by intro h; cases h
        · split
          · exact hr _ _ fun a => by intro h; cases h
          · split
            · exact hr _ _ fun a => by intro h; cases h
            · split
              · exact hr _ _ fun a => by intro h; cases h
              · simp

/-- The bound on the number of lines of a VTK header is not reached. -/
theorem vtkHeader_stops (fuel : Nat) (s : Strm) (hd : VtkHdr) (hf : s.rest.length + 2 ≤ fuel) :
    vtkHeader fuel s hd ≠ .hang := by
  induction fuel generalizing s hd with
  | zero => omega
  | succ fuel ih =>
      rw [vtkHeader]
      cases hgl : s.getline [] with
      | mk line q =>
          obtain ⟨okay, s1⟩ := q
          simp only
          split
          · simp
          · next hok =>
            cases splitB (line.map upperB) with
            | nil => simp
            | cons wrd ws =>
                simp only
                split
                · simp
                · have hlt : s1.rest.length + 2 ≤ fuel := by
                    unfold Strm.getline at hgl
                    split at hgl
                    · cases hgl; simp at hok
                    · simp only at hgl
                      split at hgl
                      · next hl =>
                        cases hgl
                        unfold Strm.rest at hl hf ⊢
                        simp only [List.length_drop] at hl hf ⊢
                        omega
                      · cases hgl
                        have hne : s.rest ≠ [] := by
                          intro h0
                          rw [h0] at hok
                          simp at hok
                        have : 0 < s.rest.length := List.length_pos_iff.2 hne
                        unfold Strm.rest
                        simp only [List.length_drop]
                        omega
                  have h2 : s1.tellg.2.rest = s1.rest := by
                    unfold Strm.tellg; split <;> rfl
                  cases hl : vtkLine wrd (wrd :: ws) { hd with startPos := s1.tellg.1 } with
                  | ok a => exact ih _ _ (by rw [h2]; exact hlt)
                  | hang => exact absurd hl (vtkLine_ne_hang _ _ _)
                  | err => intro h; cases h
                  | ub => intro h; cases h
                  | unmod => intro h; cases h

theorem vtkBody_safe (swap : Bool) (n sz w : Nat) (val : List UInt8) (ls : List Nat)
    (hn : ∀ l ∈ ls, l * w + w ≤ n) (s : Strm) (buf : Nat → List UInt8) :
    (vtkBody swap n sz w val ls s buf).Safe := by
  induction ls generalizing s buf with
  | nil => exact IORes.safe_ok _
  | cons l ls ih =>
      have hl := hn l (by simp)
      have ih' := ih (fun k hk => hn k (by simp [hk]))
      rw [vtkBody]
      split
      · refine IORes.Safe.bind ?_ fun a _ => ih' _ _
        unfold vtkRowSwap
        refine IORes.Safe.bind ?_ fun a _ => IORes.safe_pure _
        refine foldlM_safe _ _ ?_ _
        intro i hi b
        rw [List.mem_range] at hi
        exact (wrAt_safe _ _ (by omega)).bind fun _ _ => IORes.safe_pure _
      · simp only
        refine IORes.Safe.bind ?_ fun a _ => ih' _ _
        unfold vtkRowRaw
        refine foldlM_safe _ _ ?_ _
        intro i hi b
        rw [List.mem_range] at hi
        exact wrAt_safe _ _ (by omega)

theorem vtkRows_bound (D : Dims) : ∀ l ∈ vtkRows D, l * D.w + D.w ≤ D.count := by
  intro l hl
  obtain ⟨z, y, hz, hy, rfl⟩ := (mem_vtkRows D l).1 hl
  unfold Dims.count
  refine row_bound (w := D.w) (n := D.d * D.h) ?_
  calc z * D.h + y < z * D.h + D.h := by omega
    _ = (z + 1) * D.h := by ring
    _ ≤ D.d * D.h := Nat.mul_le_mul_right _ hz

/-- C58, binary VTK files whose header is read without accident: nothing outside the image is written, and
the reader stops. -/
theorem C58_vtk_partial (ty : VtkTy) (sz : Nat) (little : Bool) (f val : List UInt8) (init : Nat → List UInt8)
    (hu : vtkHeader (f.length + 2) (Strm.opened f) {} ≠ .ub)
    (hb : ∀ hd s, vtkHeader (f.length + 2) (Strm.opened f) {} = .ok (hd, s) → hd.binary = true) :
    (readVTK ty sz little f val init).Safe := by
  unfold readVTK
  refine IORes.Safe.bind ⟨hu, vtkHeader_stops _ _ _ ?_⟩ fun a ha => ?_
  · simp [Strm.rest, Strm.opened]
  · refine (ensure_safe _).bind fun _ _ => ?_
    simp only
    split
    · exact IORes.safe_unmod
    · rw [if_neg (by rw [hb a.1 a.2 ha]; simp)]
      refine IORes.Safe.bind ?_ fun _ _ => IORes.safe_pure _
      exact vtkBody_safe _ _ _ _ _ _ (vtkRows_bound _) _ _

/-- The header of the files written meets the hypotheses. -/
example : (match vtkHeader ((writeVTK .u8 1 true ⟨1, 1, 1⟩ fun _ => [5]).length + 2)
    (Strm.opened (writeVTK .u8 1 true ⟨1, 1, 1⟩ fun _ => [5])) {} with
      | .ok a => a.1.binary
      | _ => false) = true := by decide +kernel

/-- C58 fails for a VTK file with an empty line in its header: `bufElems[0]` of an empty vector. -/
theorem C58_vtk_blank_bug :
    (match readVTK .u8 1 true (strB "# vtk DataFile Version 3.0\n\nBINARY\n") [0] (fun _ => [0]) with
      | .ub => true
      | _ => false) = true := by decide +kernel

/-- C58 fails for a VTK text file without colour line: the pixels are divided by a null coefficient. -/
theorem C58_vtk_ascii_bug :
    (match readVTK .u8 1 true (strB "ASCII\nDIMENSIONS 1 1 1\nSCALARS s unsigned_char\n7\n") [0] (fun _ => [0]) with
      | .ub => true
      | _ => false) = true := by decide +kernel

/-! ### C57, VTK: the images that are not read back -/

/-- C57 fails for VTK when the first byte of the data is a letter: the first line of data is taken for a line
of the header. The image of one pixel of value 65 is read as what the memory held. -/
theorem C57_vtk_letter_bug :
    (match readVTK .u8 1 true (writeVTK .u8 1 true ⟨1, 1, 1⟩ fun _ => [65]) [0] (fun _ => [0]) with
      | .ok r => decide (r.1 = ⟨1, 1, 1⟩ ∧ r.2 0 = [0])
      | _ => false) = true := by decide +kernel

/-- C57 fails for VTK when the first byte of the data is 10: the reader accesses an empty vector. -/
theorem C57_vtk_newline_bug :
    (match readVTK .u8 1 true (writeVTK .u8 1 true ⟨1, 1, 1⟩ fun _ => [10]) [0] (fun _ => [0]) with
      | .ub => true
      | _ => false) = true := by decide +kernel

/-- C57 fails for VTK for the pixel types other than UINT8 and UINT16: no type is written, and the reader
takes a third word where there are two. -/
theorem C57_vtk_type_bug :
    (match readVTK .i16 2 true (writeVTK .i16 2 true ⟨1, 1, 1⟩ fun _ => [0, 0]) [0, 0] (fun _ => [0, 0]) with
      | .ub => true
      | _ => false) = true := by decide +kernel

/-- The hypotheses of `C57_vtk_partial` hold for a volume of 16 bits. -/
example : headerLike (vtkFirst 2 false ⟨2, 2, 1⟩ fun i => [UInt8.ofNat i, 3]) = false := by decide

end Smil
