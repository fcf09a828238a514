import Verif.IOLemmas
import Mathlib.Data.List.Nodup
import Mathlib.Tactic.NormNum

/-!
# C57, C58: files

C57: reading the file produced by `write` gives the image back. C58: what the readers do with arbitrary
bytes.
-/

namespace Smil

/-! ### BMP, 8 bits -/

theorem scanSize_ge (w : Nat) : w ≤ scanSize w := by unfold scanSize; split <;> omega

theorem bmpRow_ok (w h : Nat) (lut scan : List UInt8) (j : Nat) (buf : Nat → UInt8) (hj : j < h)
    (hs : w ≤ scan.length) (hl : ∀ i, i < w → (scan.getD i 0).toNat < lut.length) :
    ∃ b', bmpRow w h lut scan j buf = .ok b' ∧ ∀ k, b' k =
      if j * w ≤ k ∧ k < j * w + w then lut.getD (scan.getD (k - j * w) 0).toNat 0 else buf k := by
  unfold bmpRow
  refine row_write (w * h) (j * w) w (fun i _ => lut.getD (scan.getD i 0).toNat 0) _ ?_ ?_ buf
  · intro b i hi
    have e1 : rdTab scan i = .ok (scan.getD i 0) := by
      unfold rdTab
      rw [List.getD_eq_getElem?_getD, List.getElem?_eq_getElem (by omega)]; rfl
    have e2 : rdTab lut (scan.getD i 0).toNat = .ok (lut.getD (scan.getD i 0).toNat 0) := by
      unfold rdTab
      have := hl i hi
      rw [List.getD_eq_getElem?_getD (l := lut), List.getElem?_eq_getElem this]; rfl
    rw [e1, IORes.bind_ok, e2, IORes.bind_ok]
  · have := row_bound (w := w) hj
    rw [Nat.mul_comm w h]; exact this

theorem bmpRows_write (w h : Nat) (hw : 0 < w) (im : Nat → UInt8) (pad : Nat → List UInt8)
    (hp : ∀ j, (pad j).length = scanSize w - w) (js : List Nat) (hjs : ∀ j ∈ js, j < h) (hnd : js.Nodup)
    (tail : List UInt8) (buf : Nat → UInt8) :
    ∃ b', bmpRows w h ((List.range 256).map UInt8.ofNat) js
        (js.flatMap (fun j => (List.range w).map (fun i => im (j * w + i)) ++ pad j) ++ tail) buf = .ok b' ∧
      (∀ j ∈ js, ∀ i, i < w → b' (j * w + i) = im (j * w + i)) ∧
      (∀ j, j ∉ js → ∀ i, i < w → b' (j * w + i) = buf (j * w + i)) := by
  induction js generalizing buf with
  | nil => exact ⟨buf, rfl, by simp, fun _ _ _ _ => rfl⟩
  | cons j js ih =>
      have hsc := scanSize_ge w
      set scan := (List.range w).map (fun i => im (j * w + i)) ++ pad j with hscan
      have hlen : scan.length = scanSize w := by
        rw [hscan, List.length_append, List.length_map, List.length_range, hp]; omega
      have hget : ∀ i, i < w → scan.getD i 0 = im (j * w + i) := by
        intro i hi
        rw [List.getD_eq_getElem?_getD, hscan, List.getElem?_append_left (by simpa using hi)]
        simp [hi]
      have hlut : ∀ b : UInt8, ((List.range 256).map UInt8.ofNat).getD b.toNat 0 = b := by
        intro b
        have := b.toNat_lt
        rw [List.getD_eq_getElem?_getD]
        simp only [List.getElem?_map, List.getElem?_range (show b.toNat < 256 by omega), Option.map_some,
          Option.getD_some, UInt8.ofNat_toNat]
      obtain ⟨b1, h1, h2⟩ := bmpRow_ok w h ((List.range 256).map UInt8.ofNat) scan j buf (hjs j (by simp))
        (by omega) (by
          intro i _
          have := (scan.getD i 0).toNat_lt
          rw [List.length_map, List.length_range]; omega)
      rw [List.nodup_cons] at hnd
      obtain ⟨b', h3, h4, h5⟩ := ih (fun k hk => hjs k (by simp [hk])) hnd.2 b1
      refine ⟨b', ?_, ?_, ?_⟩
      · rw [List.flatMap_cons, List.append_assoc, bmpRows, freadAll_append _ _ _ hlen (by omega)]
        simp only [IORes.bind_ok]
        rw [h1, IORes.bind_ok, h3]
      · intro k hk i hi
        rcases List.mem_cons.1 hk with rfl | hk
        · rw [h5 k hnd.1 i hi, h2, if_pos (by omega), hlut]
          rw [show k * w + i - k * w = i by omega, hget i hi]
        · exact h4 k hk i hi
      · intro k hk i hi
        rw [List.mem_cons, not_or] at hk
        rw [h5 k hk.2 i hi, h2, if_neg (row_disjoint (fun h => hk.1 h.symm) hi)]

/-- C57: 8 bit BMP files, whatever the bytes that the writer leaves unset. -/
theorem C57_bmp8 (im : Img UInt8) (xp : List UInt8) (pad : Nat → List UInt8) (init : Nat → UInt8)
    (hw : 0 < im.dims.w) (hw2 : im.dims.w + 4 < 2 ^ 31) (hh : im.dims.h < 2 ^ 31) (hx : xp.length = 8)
    (hp : ∀ j, (pad j).length = scanSize im.dims.w - im.dims.w) :
    ∃ r, readBMP8 (writeBMP8 im xp pad) init = .ok r ∧ r.dims = ⟨im.dims.w, im.dims.h, 1⟩ ∧
      ∀ x y, x < im.dims.w → y < im.dims.h → r.buf (y * im.dims.w + x) = im.buf (y * im.dims.w + x) := by
  obtain ⟨⟨w, h, d⟩, im⟩ := im
  simp only at hw hw2 hh hp ⊢
  set H := bmpHeaders (1078 + scanSize w * h) 1078 w h 8 0 256 256 xp with hH
  set P := (List.range 256).flatMap (fun i => [UInt8.ofNat i, UInt8.ofNat i, UInt8.ofNat i, 0]) with hP
  set R := (List.range h).reverse.flatMap (fun j => (List.range w).map (fun i => im (j * w + i)) ++ pad j) with hR
  have ew : writeBMP8 ⟨⟨w, h, d⟩, im⟩ xp pad = H ++ (P ++ R) := by
    unfold writeBMP8; simp only [← hH, ← hP, ← hR, List.append_assoc]
  have eP : P = ((List.range 256).map UInt8.ofNat).flatMap (fun i => [i, i, i, 0]) := by
    rw [hP, List.flatMap_map]
  have lH : H.length = 54 := by
    rw [hH]; unfold bmpHeaders; simp [leBytes_length, hx]
  have lP : P.length = 1024 := by rw [hP]; decide +kernel
  obtain ⟨b', h1, h2, -⟩ := bmpRows_write w h hw im pad hp (List.range h).reverse
    (fun j hj => by simpa using hj) (List.nodup_reverse.2 List.nodup_range) [] init
  rw [List.append_nil] at h1
  have hlut : readLut 256 (P ++ R) = .ok ((List.range 256).map UInt8.ofNat) := by
    have := readLut_write ((List.range 256).map UInt8.ofNat) R
    rw [List.length_map, List.length_range] at this
    rw [eP]; exact this
  refine ⟨⟨⟨w, h, 1⟩, b'⟩, ?_, rfl, fun x y hx hy => h2 y (by simpa using hy) x hx⟩
  unfold readBMP8
  rw [ew, hH, readBMPHeader_write _ _ _ _ _ _ _ _ _ _ hx]
  have m1 : w % 2 ^ 32 = w := Nat.mod_eq_of_lt (by omega)
  have m2 : h % 2 ^ 32 = h := Nat.mod_eq_of_lt (by omega)
  have m3 : 8 % 2 ^ 16 = 8 := by norm_num
  have m4 : 256 % 2 ^ 32 = 256 := by norm_num
  have m5 : 1078 % 2 ^ 32 = 1078 := by norm_num
  simp only [IORes.bind_ok, m1, m2, m3, m4, m5, ensure, decide_true, if_true]
  rw [hlut, IORes.bind_ok, if_neg (by omega)]
  have hdrop : (bmpHeaders (1078 + scanSize w * h) 1078 w h 8 0 256 256 xp ++ (P ++ R)).drop 1078 = R := by
    rw [← hH, ← List.append_assoc, List.drop_left' (by rw [List.length_append, lH, lP])]
  rw [hdrop, h1]
  rfl

/-! ### BMP, RGB -/

theorem rgb_pixel (n p : Nat) (data : List UInt8) (i : Nat) (hn : 3 * p + 3 ≤ n) (hd : 3 * i + 3 ≤ data.length)
    (b : Nat → UInt8) :
    ∃ b', (List.range 3).foldlM (fun b c => do
        let v ← rdTab data (3 * i + (2 - c))
        wrAt n b (3 * p + c) v) b = .ok b' ∧
      ∀ k, b' k = if 3 * p ≤ k ∧ k < 3 * p + 3 then data.getD (3 * i + (2 - (k - 3 * p))) 0 else b k := by
  refine row_write n (3 * p) 3 (fun c _ => data.getD (3 * i + (2 - c)) 0) _ ?_ hn b
  intro b c hc
  have e1 : rdTab data (3 * i + (2 - c)) = .ok (data.getD (3 * i + (2 - c)) 0) := by
    unfold rdTab
    rw [List.getD_eq_getElem?_getD, List.getElem?_eq_getElem (by omega)]; rfl
  rw [e1, IORes.bind_ok]

theorem rgb_row (w h : Nat) (data : List UInt8) (j : Nat) (hj : j < h) (hd : 3 * w ≤ data.length)
    (buf : Nat → UInt8) :
    ∃ b', bmpRowRGB w h data j buf = .ok b' ∧
      ∀ p c, c < 3 → b' (3 * p + c) =
        if j * w ≤ p ∧ p < j * w + w then data.getD (3 * (p - j * w) + (2 - c)) 0 else buf (3 * p + c) := by
  have hb := row_bound (w := w) hj
  unfold bmpRowRGB
  have key : ∀ m, m ≤ w → ∃ b', (List.range m).foldlM (fun b i => (List.range 3).foldlM (fun b n => do
      let v ← rdTab data (3 * i + (2 - n))
      wrAt (3 * (w * h)) b (3 * (j * w + i) + n) v) b) buf = .ok b' ∧
      ∀ p c, c < 3 → b' (3 * p + c) =
        if j * w ≤ p ∧ p < j * w + m then data.getD (3 * (p - j * w) + (2 - c)) 0 else buf (3 * p + c) := by
    intro m
    induction m with
    | zero => exact fun _ => ⟨buf, rfl, fun p c hc => by rw [if_neg (by omega)]⟩
    | succ m ih =>
        intro hm
        obtain ⟨b1, h1, h2⟩ := ih (by omega)
        obtain ⟨b2, h3, h4⟩ := rgb_pixel (3 * (w * h)) (j * w + m) data m
          (by rw [Nat.mul_comm w h]; omega) (by omega) b1
        refine ⟨b2, ?_, ?_⟩
        · rw [List.range_succ (n := m), List.foldlM_append, h1, IORes.bind_ok, List.foldlM_cons, h3]; rfl
        · intro p c hc
          rw [h4]
          by_cases hp : p = j * w + m
          · subst hp
            rw [if_pos (by omega), if_pos (by omega)]
            congr 1
            omega
          · rw [if_neg (by omega), h2 p c hc]
            by_cases hc2 : j * w ≤ p ∧ p < j * w + m
            · rw [if_pos hc2, if_pos (by omega)]
            · rw [if_neg hc2, if_neg (by omega)]
  exact key w (Nat.le_refl _)

theorem rgb_data (w : Nat) (f : Nat → UInt8 × UInt8 × UInt8) :
    ((List.range w).flatMap (fun i => [(f i).2.2, (f i).2.1, (f i).1])).length = w * 3 ∧
    ∀ i, i < w →
      ((List.range w).flatMap (fun i => [(f i).2.2, (f i).2.1, (f i).1])).getD (3 * i) 0 = (f i).2.2 ∧
      ((List.range w).flatMap (fun i => [(f i).2.2, (f i).2.1, (f i).1])).getD (3 * i + 1) 0 = (f i).2.1 ∧
      ((List.range w).flatMap (fun i => [(f i).2.2, (f i).2.1, (f i).1])).getD (3 * i + 2) 0 = (f i).1 := by
  induction w with
  | zero => simp
  | succ w ih =>
      obtain ⟨hl, hv⟩ := ih
      constructor
      · rw [List.range_succ, List.flatMap_append, List.length_append, hl]; simp; omega
      · intro i hi
        rw [List.range_succ, List.flatMap_append]
        by_cases hc : i < w
        · obtain ⟨a, b, c⟩ := hv i hc
          simp only [List.getD_eq_getElem?_getD] at a b c ⊢
          refine ⟨?_, ?_, ?_⟩
          · rw [List.getElem?_append_left (by rw [hl]; omega), a]
          · rw [List.getElem?_append_left (by rw [hl]; omega), b]
          · rw [List.getElem?_append_left (by rw [hl]; omega), c]
        · have : i = w := by omega
          subst this
          simp only [List.getD_eq_getElem?_getD]
          refine ⟨?_, ?_, ?_⟩
          · rw [List.getElem?_append_right (by rw [hl]; omega), hl, show 3 * i - i * 3 = 0 by omega]; simp
          · rw [List.getElem?_append_right (by rw [hl]; omega), hl, show 3 * i + 1 - i * 3 = 1 by omega]; simp
          · rw [List.getElem?_append_right (by rw [hl]; omega), hl, show 3 * i + 2 - i * 3 = 2 by omega]; simp

theorem rgb_rows (w h : Nat) (hw : 0 < w) (im : Nat → UInt8) (js : List Nat) (hjs : ∀ j ∈ js, j < h)
    (hnd : js.Nodup) (tail : List UInt8) (buf : Nat → UInt8) :
    ∃ b', bmpRowsRGB w h js
        (js.flatMap (fun j => (List.range w).flatMap (fun i =>
          [im (3 * (j * w + i) + 2), im (3 * (j * w + i) + 1), im (3 * (j * w + i))])) ++ tail) buf = .ok b' ∧
      (∀ j ∈ js, ∀ i, i < w → ∀ c, c < 3 → b' (3 * (j * w + i) + c) = im (3 * (j * w + i) + c)) ∧
      (∀ j, j ∉ js → ∀ i, i < w → ∀ c, c < 3 → b' (3 * (j * w + i) + c) = buf (3 * (j * w + i) + c)) := by
  induction js generalizing buf with
  | nil => exact ⟨buf, rfl, by simp, fun _ _ _ _ _ _ => rfl⟩
  | cons j js ih =>
      obtain ⟨hl, hv⟩ := rgb_data w (fun i => (im (3 * (j * w + i)), im (3 * (j * w + i) + 1), im (3 * (j * w + i) + 2)))
      simp only at hl hv
      set data := (List.range w).flatMap (fun i =>
          [im (3 * (j * w + i) + 2), im (3 * (j * w + i) + 1), im (3 * (j * w + i))]) with hdata
      obtain ⟨b1, h1, h2⟩ := rgb_row w h data j (hjs j (by simp)) (by omega) buf
      rw [List.nodup_cons] at hnd
      obtain ⟨b', h3, h4, h5⟩ := ih (fun k hk => hjs k (by simp [hk])) hnd.2 b1
      refine ⟨b', ?_, ?_, ?_⟩
      · rw [List.flatMap_cons, List.append_assoc, bmpRowsRGB, freadAll_append _ _ _ hl (by omega)]
        simp only [IORes.bind_ok]
        rw [h1, IORes.bind_ok, h3]
      · intro k hk i hi c hc
        rcases List.mem_cons.1 hk with rfl | hk
        · rw [h5 k hnd.1 i hi c hc, h2 _ c hc, if_pos (by omega)]
          rw [show k * w + i - k * w = i by omega]
          obtain ⟨a0, a1, a2⟩ := hv i hi
          have hc' : c = 0 ∨ c = 1 ∨ c = 2 := by omega
          rcases hc' with rfl | rfl | rfl
          · exact a2
          · exact a1
          · exact a0
        · exact h4 k hk i hi c hc
      · intro k hk i hi c hc
        rw [List.mem_cons, not_or] at hk
        rw [h5 k hk.2 i hi c hc, h2 _ c hc, if_neg (row_disjoint (fun h => hk.1 h.symm) hi)]

/-- C57: RGB BMP files. -/
theorem C57_bmprgb (w h : Nat) (im : Nat → UInt8) (si cu ci : Nat) (xp : List UInt8) (init : Nat → UInt8)
    (hw : 0 < w) (hw2 : w * 3 < 2 ^ 31) (hh : h < 2 ^ 31) (hx : xp.length = 8) :
    ∃ b', readBMPRGB (writeBMPRGB ⟨w, h, 1⟩ im si cu ci xp) init = .ok (⟨w, h, 1⟩, b') ∧
      ∀ x y c, x < w → y < h → c < 3 → b' (3 * (y * w + x) + c) = im (3 * (y * w + x) + c) := by
  set H := bmpHeaders (w * h * 3 + 54) 54 w h 24 si cu ci xp with hH
  have lH : H.length = 54 := by
    rw [hH]; unfold bmpHeaders; simp [leBytes_length, hx]
  obtain ⟨b', h1, h2, -⟩ := rgb_rows w h hw im (List.range h).reverse
    (fun j hj => by simpa using hj) (List.nodup_reverse.2 List.nodup_range) [] init
  rw [List.append_nil] at h1
  refine ⟨b', ?_, fun x y c hx hy hc => h2 y (by simpa using hy) x hx c hc⟩
  unfold readBMPRGB writeBMPRGB
  simp only
  rw [readBMPHeader_write _ _ _ _ _ _ _ _ _ _ hx]
  have m1 : w % 2 ^ 32 = w := Nat.mod_eq_of_lt (by omega)
  have m2 : h % 2 ^ 32 = h := Nat.mod_eq_of_lt (by omega)
  have m3 : 24 % 2 ^ 16 = 24 := by norm_num
  have m5 : 54 % 2 ^ 32 = 54 := by norm_num
  simp only [IORes.bind_ok, m1, m2, m3, m5, ensure, decide_true, if_true]
  rw [if_neg (by omega), ← hH, List.drop_left' lH, h1]
  rfl

/-! ### RAW -/

/-- C57: RAW files, for pixels of `sz` bytes, provided the image is not empty and the reader is given its
size. -/
theorem C57_raw (sz n : Nat) (hs : 0 < sz) (hn : 0 < n) (im init : Nat → List UInt8)
    (hl : ∀ i, i < n → (im i).length = sz) :
    ∃ b', readRAW sz n (writeRAW n im) init = .ok b' ∧ ∀ i, i < n → b' i = im i := by
  have key : ∀ m, m ≤ n → ((List.range m).flatMap im).length = sz * m ∧
      ∀ i, i < m → (((List.range m).flatMap im).drop (sz * i)).take sz = im i := by
    intro m
    induction m with
    | zero => simp
    | succ m ih =>
        intro hm
        obtain ⟨a, b⟩ := ih (by omega)
        have e : (List.range (m + 1)).flatMap im = (List.range m).flatMap im ++ im m := by
          rw [List.range_succ, List.flatMap_append]; simp
        constructor
        · rw [e, List.length_append, a, hl m (by omega)]; ring
        · intro i hi
          rw [e]
          by_cases hc : i < m
          · have : sz * i + sz ≤ sz * m := by
              calc sz * i + sz = sz * (i + 1) := by ring
                _ ≤ sz * m := Nat.mul_le_mul_left _ hc
            rw [List.drop_append_of_le_length (by omega), List.take_append_of_le_length (by
              rw [List.length_drop]; omega), b i hc]
          · have : i = m := by omega
            subst this
            rw [List.drop_left' a, List.take_of_length_le (by rw [hl i (by omega)])]
  obtain ⟨h1, h2⟩ := key n (Nat.le_refl _)
  have hgot : min n ((writeRAW n im).length / sz) = n := by
    unfold writeRAW
    rw [h1, Nat.mul_div_cancel_left _ hs, Nat.min_self]
  unfold readRAW
  simp only [hgot]
  rw [if_neg (by omega)]
  refine ⟨_, rfl, ?_⟩
  intro i hi
  simp only [hi, if_true]
  exact h2 i hi

/-- C57, C58 fail for RAW files of binary images: `sizeof(Bit) = 1`, so that `w * h` bytes are read
and written in a buffer of `8 * ⌈w / 64⌉ * h` bytes, too small for every width above 8. -/
theorem C58_raw_bit_bug (w h : Nat) (hw : 8 < w) (hh : 0 < h) : 8 * ((w + 63) / 64) * h < w * h :=
  Nat.mul_lt_mul_of_pos_right (by omega) hh

/-! ### PGM -/

theorem skip_one (fuel : Nat) (s : Strm) (line r buf : List UInt8) (h : s.At (line ++ 10 :: r))
    (hl : ∀ b ∈ line, b ≠ 10) :
    skipComments (fuel + 1) s buf =
      if line.head? = some 35 then skipComments fuel { s with pos := s.pos + line.length + 1 } line
      else .ok (some s.pos, { s with pos := s.pos + line.length + 1 }) := by
  rw [skipComments]
  rw [Strm.tellg_at h]
  simp only
  rw [(Strm.getline_at h hl buf).1]

/-- C57: binary PGM files, for a file name without a line feed. -/
theorem C57_pgm (im : Img UInt8) (fname : List UInt8) (mv : Nat) (init : Nat → UInt8)
    (hf : ∀ b ∈ fname, b ≠ 10) (hw : im.dims.w < 2 ^ 31) (hh : im.dims.h < 2 ^ 31)
    (hwh : im.dims.w * im.dims.h < 2 ^ 31) :
    ∃ r, readPGM (writePGM im fname) mv init = .ok r ∧ r.dims = ⟨im.dims.w, im.dims.h, 1⟩ ∧
      ∀ i, i < im.dims.w * im.dims.h → r.buf i = im.buf i := by
  obtain ⟨⟨w, h, d⟩, im⟩ := im
  simp only at hw hh hwh ⊢
  set data := (List.range (w * h)).map im with hdata
  have ldata : data.length = w * h := by rw [hdata, List.length_map, List.length_range]
  set T4 := decB 255 ++ 10 :: data with hT4
  set T3 := decB w ++ 32 :: (decB h ++ 10 :: T4) with hT3
  have h255 : decB 255 = [50, 53, 53] := by decide +kernel
  have ef : writePGM ⟨⟨w, h, d⟩, im⟩ fname = [80, 53] ++ 10 :: ((35 :: 32 :: fname) ++ 10 :: T3) := by
    unfold writePGM
    rw [hT3, hT4, h255]
    simp only [← hdata, List.append_assoc, List.cons_append, List.nil_append]
  set f := writePGM ⟨⟨w, h, d⟩, im⟩ fname with hfile
  have s0 : Strm.At (Strm.opened f) ([80, 53] ++ 10 :: ((35 :: 32 :: fname) ++ 10 :: T3)) := ⟨rfl, rfl, ef⟩
  obtain ⟨g0', s1'⟩ := Strm.getline_at s0 (by decide) []
  have g0 : (Strm.opened f).getline [] = ([80, 53], true, Strm.mk f 3 false false) := g0'
  have s1 : Strm.At (Strm.mk f 3 false false) ((35 :: 32 :: fname) ++ 10 :: T3) := s1'
  have hcom : ∀ b ∈ (35 : UInt8) :: 32 :: fname, b ≠ 10 := by
    intro b hb
    rcases List.mem_cons.1 hb with rfl | hb
    · decide
    · rcases List.mem_cons.1 hb with rfl | hb
      · decide
      · exact hf b hb
  set p2 := 3 + ((35 : UInt8) :: 32 :: fname).length + 1 with hp2
  have s2 : Strm.At (Strm.mk f p2 false false) T3 := (Strm.getline_at s1 hcom [80, 53]).2
  -- the line of the dimensions
  have s2' := s2
  have eT3 : T3 = (decB w ++ 32 :: decB h) ++ 10 :: T4 := by rw [hT3]; simp
  rw [eT3] at s2'
  have hdim : ∀ b ∈ decB w ++ 32 :: decB h, b ≠ 10 := by
    intro b hb
    rcases List.mem_append.1 hb with hb | hb
    · exact digit_not_nl (decB_digit w b hb)
    · rcases List.mem_cons.1 hb with rfl | hb
      · decide
      · exact digit_not_nl (decB_digit h b hb)
  have hhead : (decB w ++ 32 :: decB h).head? ≠ some 35 := by
    cases hd : decB w with
    | nil => exact absurd hd (decB_ne_nil w)
    | cons b l =>
        simp only [List.cons_append, List.head?_cons, ne_eq, Option.some.injEq]
        rintro rfl
        have := decB_digit w 35 (by rw [hd]; simp)
        revert this; decide
  have hskip : ∀ fuel, skipComments (fuel + 2) (Strm.mk f 3 false false) [80, 53]
      = .ok (some p2, Strm.mk f (p2 + (decB w ++ 32 :: decB h).length + 1) false false) := by
    intro fuel
    rw [skip_one (fuel + 1) _ _ _ _ s1 hcom]
    have e35 : ((35 : UInt8) :: 32 :: fname).head? = some 35 := rfl
    rw [if_pos e35]
    have := skip_one fuel _ _ _ (35 :: 32 :: fname) s2' hdim
    rw [if_neg hhead] at this
    exact this
  have s3 : Strm.At (Strm.mk f p2 false false) T3 := s2
  rw [hT3] at s3
  obtain ⟨n1, s4⟩ := Strm.getNat_at (ws := []) s3 (by simp) (by decide) (2 ^ 64 - 1) 0 (by omega)
  simp only [List.length_nil, Nat.add_zero] at n1 s4
  obtain ⟨n2, s5⟩ := Strm.getNat_at (ws := [32]) s4 (by decide) (by decide) (2 ^ 64 - 1) 0 (by omega)
  simp only at n2 s5
  rw [hT4] at s5
  obtain ⟨n3, s6⟩ := Strm.getNat_at (ws := [10]) s5 (by decide) (by decide) (2 ^ 32 - 1) mv (by norm_num)
  simp only at n3 s6
  set p6 := p2 + (decB w).length + [(32 : UInt8)].length + (decB h).length + [(10 : UInt8)].length + (decB 255).length with hp6
  have s7 : Strm.At (Strm.mk f (p6 + 1) false false) (data ++ []) := by
    refine ⟨rfl, rfl, ?_⟩
    have h1 := s6.rest
    simp only at h1
    rw [← List.drop_drop, h1, List.append_nil]
    rfl
  obtain ⟨r1, -⟩ := Strm.read_at s7 (w * h) ldata
  have hinfo : readPbmInfo (Strm.opened f) mv = .ok (⟨true, true, w, h, 255⟩, Strm.mk f (p6 + 1) false false) := by
    unfold readPbmInfo
    have edata : (Strm.opened f).data = f := rfl
    simp only [g0, edata]
    simp only [List.head?_cons, ne_eq, not_true_eq_false, false_and, if_false]
    have ty : atoiB (List.drop 1 [80, 53]) = 5 := by decide +kernel
    rw [ty]
    rw [if_neg (by omega), hskip]
    simp only [IORes.bind_ok]
    have hseek : ∀ q, Strm.seekg ⟨f, q, false, false⟩ (some p2) = ⟨f, p2, false, false⟩ := fun q => rfl
    rw [hseek, n1]
    simp only
    rw [n2]
    simp only
    rw [if_neg (by omega), n3]
    simp
  unfold readPGM
  rw [hinfo]
  simp only [IORes.bind_ok, ensure, if_true]
  rw [if_neg (by omega), r1]
  simp only [ldata]
  obtain ⟨b', h1, h2⟩ := row_write (w * h) 0 (w * h) (fun i _ => data.getD i 0)
    (fun b i => do
      let v ← rdTab data i
      wrAt (w * h) b i v) (by
    intro b i hi
    have e1 : rdTab data i = .ok (data.getD i 0) := by
      unfold rdTab
      rw [List.getD_eq_getElem?_getD, List.getElem?_eq_getElem (by omega)]; rfl
    rw [e1, IORes.bind_ok, Nat.zero_add]) (by omega) init
  rw [h1]
  refine ⟨_, rfl, rfl, ?_⟩
  intro i hi
  simp only
  rw [h2, if_pos (by omega), Nat.sub_zero, List.getD_eq_getElem?_getD, hdata]
  simp [hi]

/-- C57 fails for a PGM file whose name contains a line feed: the second line of the name is taken
for the dimensions. -/
theorem C57_pgm_name_bug :
    (match readPGM (writePGM ⟨⟨1, 1, 1⟩, fun _ => 7⟩ (strB "a\n2 2.pgm")) 255 (fun _ => 0) with
      | .ok r => decide (r.dims = ⟨1, 1, 1⟩)
      | _ => false) = false := by decide +kernel

end Smil
