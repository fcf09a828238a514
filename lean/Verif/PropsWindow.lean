import Verif.PropsTransform

/-!
# C21: translation, copy, crop, border
-/

namespace Smil
variable {α β : Type}

/-! ### Translation -/

/-- `out` is `im` moved by the vector `v`: at each point stands the pixel of `im` that arrives there, or `b` where
none arrives. -/
def IsTranslated (v : IntPoint) (b : α) (im out : Img α) : Prop :=
  out.dims = im.dims ∧ ∀ p, Img.In im.dims p →
    (∀ a, im.at? ⟨p.x - v.x, p.y - v.y, p.z - v.z⟩ = some a → out.at? p = some a) ∧
    (im.at? ⟨p.x - v.x, p.y - v.y, p.z - v.z⟩ = none → out.at? p = some b)

/-- The range of `int`. -/
def IsInt (v : Int) : Prop := -2 ^ 31 ≤ v ∧ v < 2 ^ 31

/-- The conversion of the difference to `int` does not change the outcome of the test. -/
theorem wrap_sub (k n : Nat) (v : Int) (hk : k < n) (hn : n < 2 ^ 31) (hv : IsInt v) :
    ((INT32.wrap ((k : Int) - v)).val < 0 ∨ (INT32.wrap ((k : Int) - v)).val ≥ n ↔
      (k : Int) - v < 0 ∨ (k : Int) - v ≥ n) ∧
    (¬ ((k : Int) - v < 0 ∨ (k : Int) - v ≥ n) → (INT32.wrap ((k : Int) - v)).val = (k : Int) - v) := by
  unfold IsInt at hv
  have hlo : INT32.lo = -2147483648 := by decide
  have hcard : INT32.card = 4294967296 := by decide
  have h : (INT32.wrap ((k : Int) - v)).val =
      -2147483648 + ((k : Int) - v - -2147483648) % 4294967296 := by
    unfold PT.wrap
    simp only [hlo, hcard]
  rw [h]
  norm_num at hn hv
  constructor
  · omega
  · omega

theorem or4_congr {a b c d a' b' c' d' : Prop} (h1 : a ∨ b ↔ a' ∨ b') (h2 : c ∨ d ↔ c' ∨ d') :
    (a ∨ b ∨ c ∨ d) ↔ (a' ∨ b' ∨ c' ∨ d') := by
  rw [← or_assoc, h1, h2, or_assoc]

theorem row_cells {w r r' i : Nat} (h : r * w ≤ i ∧ i < r * w + w) (h' : r' * w ≤ i ∧ i < r' * w + w) :
    r = r' := by
  rcases Nat.lt_trichotomy r r' with hlt | he | hlt
  · have := Nat.mul_le_mul_right w hlt
    rw [Nat.succ_mul] at this
    omega
  · exact he
  · have := Nat.mul_le_mul_right w hlt
    rw [Nat.succ_mul] at this
    omega

theorem row_inj {h k j k' j' : Nat} (hj : j < h) (hj' : j' < h) (e : k * h + j = k' * h + j') :
    k = k' ∧ j = j' := by
  have := row_cells (w := h) (r := k) (r' := k') (i := k * h + j) (by omega) (by omega)
  subst this
  exact ⟨rfl, by omega⟩

theorem setLine_spec (w : Nat) (f : Nat → α) (r : Nat) (l : Line α) :
    (∀ x, x < w → setLine w f r l (r * w + x) = l x) ∧
    ∀ i, ¬ (r * w ≤ i ∧ i < r * w + w) → setLine w f r l i = f i := by
  unfold setLine
  refine ⟨fun x hx => ?_, fun i hi => if_neg hi⟩
  rw [if_pos (by omega)]
  congr 1
  omega

/-- The condition on the vector: the lines that arrive in the image are not shifted by more than their length. -/
def ShiftFits (D : Dims) (v : IntPoint) : Prop :=
  |v.x| ≤ D.w ∨ (D.h : Int) ≤ |v.y| ∨ (D.d : Int) ≤ |v.z|

/-- The line `c` lies outside the translated image. -/
def lineOut (D : Dims) (v : IntPoint) (c : Nat × Nat) : Prop :=
  (c.1 : Int) - v.z < 0 ∨ (c.1 : Int) - v.z ≥ D.d ∨ (c.2 : Int) - v.y < 0 ∨ (c.2 : Int) - v.y ≥ D.h

instance (D : Dims) (v : IntPoint) (c : Nat × Nat) : Decidable (lineOut D v c) := by
  unfold lineOut; infer_instance

/-- The number of the line `c` and of the line that arrives there. -/
def lineNo (D : Dims) (c : Nat × Nat) : Nat := c.1 * D.h + c.2
/-- See `lineNo`. -/
def srcRow (D : Dims) (v : IntPoint) (c : Nat × Nat) : Nat :=
  ((c.1 : Int) - v.z).toNat * D.h + ((c.2 : Int) - v.y).toNat

/-- What the line `c` of the output holds at the offset `i`. -/
def movedVal (D : Dims) (v : IntPoint) (b : α) (g : Nat → α) (c : Nat × Nat) (i : Nat) : α :=
  if lineOut D v c ∨ ((i - lineNo D c * D.w : Nat) : Int) - v.x < 0 ∨ ((i - lineNo D c * D.w : Nat) : Int) - v.x ≥ D.w
  then b else g (srcRow D v c * D.w + (((i - lineNo D c * D.w : Nat) : Int) - v.x).toNat)

theorem transLine_spec (D : Dims) (v : IntPoint) (b : α) (inPl : Bool) (src : (Nat → α) → Nat → α) (g : Nat → α)
    (hD : D.h < 2 ^ 31 ∧ D.d < 2 ^ 31) (hv : IsInt v.y ∧ IsInt v.z) (hfit : ShiftFits D v)
    (hpl : inPl = true → v.z < 0 ∨ (v.z = 0 ∧ v.y < 0)) (c : Nat × Nat) (hc1 : c.1 < D.d) (hc2 : c.2 < D.h)
    (f : Nat → α)
    (hf : ∀ i, ¬ lineOut D v c → srcRow D v c * D.w ≤ i ∧ i < srcRow D v c * D.w + D.w → src f i = g i) :
    ∃ f', transLine D v.x v.y v.z b inPl src f c = some f' ∧
      (∀ i, (lineNo D c * D.w ≤ i ∧ i < lineNo D c * D.w + D.w) → f' i = movedVal D v b g c i) ∧
      ∀ i, ¬ (lineNo D c * D.w ≤ i ∧ i < lineNo D c * D.w + D.w) → f' i = f i := by
  have wz := wrap_sub c.1 D.d v.z hc1 hD.2 hv.2
  have wy := wrap_sub c.2 D.h v.y hc2 hD.1 hv.1
  have w4 := or4_congr wz.1 wy.1
  unfold transLine
  simp only
  by_cases hout : lineOut D v c
  · have hcond : (INT32.wrap ((c.1 : Int) - v.z)).val < 0 ∨ (INT32.wrap ((c.1 : Int) - v.z)).val ≥ D.d ∨
        (INT32.wrap ((c.2 : Int) - v.y)).val < 0 ∨ (INT32.wrap ((c.2 : Int) - v.y)).val ≥ D.h := w4.mpr hout
    rw [if_pos hcond]
    obtain ⟨s1, s2⟩ := setLine_spec D.w f (lineNo D c)
      (copyLine D.w (fun _ => b) fun i => f (lineNo D c * D.w + i))
    refine ⟨_, rfl, fun i hw => ?_, fun i hw => s2 i hw⟩
    unfold movedVal
    rw [if_pos (Or.inl hout)]
    have := s1 (i - lineNo D c * D.w) (by omega)
    rw [show lineNo D c * D.w + (i - lineNo D c * D.w) = i by omega] at this
    refine this.trans ?_
    rw [copyLine_apply, if_pos (by omega)]
  · have hnout : ¬ ((c.1 : Int) - v.z < 0 ∨ (c.1 : Int) - v.z ≥ D.d ∨ (c.2 : Int) - v.y < 0 ∨
      (c.2 : Int) - v.y ≥ D.h) := hout
    have hcond : ¬ ((INT32.wrap ((c.1 : Int) - v.z)).val < 0 ∨ (INT32.wrap ((c.1 : Int) - v.z)).val ≥ D.d ∨
        (INT32.wrap ((c.2 : Int) - v.y)).val < 0 ∨ (INT32.wrap ((c.2 : Int) - v.y)).val ≥ D.h) := fun h => hnout (w4.mp h)
    have ez := wz.2 (by omega)
    have ey := wy.2 (by omega)
    rw [if_neg hcond, ez, ey]
    rw [if_neg (by
      rintro ⟨h1, h2, h3, -⟩
      have h := hpl h1
      omega)]
    have hx : -(D.w : Int) ≤ v.x ∧ v.x ≤ D.w := by
      rcases hfit with h | h | h
      · exact abs_le.mp h
      · rcases le_abs.mp h with h | h <;> omega
      · rcases le_abs.mp h with h | h <;> omega
    obtain ⟨l, l1, l2⟩ := shiftLine_apply
      (fun i => src f (rasterIndex D.w D.h i ((c.2 : Int) - v.y).toNat ((c.1 : Int) - v.z).toNat)) v.x D.w
      (fun i => f (lineNo D c * D.w + i)) b hx.1 hx.2
    obtain ⟨s1, s2⟩ := setLine_spec D.w f (lineNo D c) l
    refine ⟨setLine D.w f (lineNo D c) l, by
      change Option.map _ (shiftLine _ _ _ (fun i => f (lineNo D c * D.w + i)) _) = _
      rw [l1]; rfl, fun i hw => ?_, fun i hw => s2 i hw⟩
    have := s1 (i - lineNo D c * D.w) (by omega)
    rw [show lineNo D c * D.w + (i - lineNo D c * D.w) = i by omega] at this
    rw [this, l2 _ (by omega)]
    unfold movedVal
    by_cases hxx : 0 ≤ ((i - lineNo D c * D.w : Nat) : Int) - v.x ∧ ((i - lineNo D c * D.w : Nat) : Int) - v.x < D.w
    · rw [if_pos hxx, if_neg (by
        rintro (h | h | h)
        · exact hout h
        · omega
        · omega)]
      have hidx : rasterIndex D.w D.h (((i - lineNo D c * D.w : Nat) : Int) - v.x).toNat
          ((c.2 : Int) - v.y).toNat ((c.1 : Int) - v.z).toNat =
          srcRow D v c * D.w + (((i - lineNo D c * D.w : Nat) : Int) - v.x).toNat := by
        simp only [rasterIndex, srcRow]; ring
      rw [hidx]
      exact hf _ hout ⟨by omega, by omega⟩
    · rw [if_neg hxx, if_pos (by right; omega)]

/-- **C21**, translation: the pixels are moved by the vector and the other points get the border value, whatever
the size and contents of the output. In place (`inPl`) this holds for vectors that move towards the lines
already processed. Missing: a vector longer than the lines, where the code accesses memory outside of them
(`C21_translate_bug`), and other vectors in place (`C21_inplace_bug`). -/
theorem C21_translate_partial (E : Env α) (inPl : Bool) (im : Img α) (v : IntPoint) (out : Img α) (b : α)
    (hi : im.alloc = true) (hs : out.dims = im.dims ∨ E.auto = true)
    (hD : im.dims.h < 2 ^ 31 ∧ im.dims.d < 2 ^ 31) (hv : IsInt v.y ∧ IsInt v.z)
    (hfit : ShiftFits im.dims v)
    (hpl : inPl = true → out = im ∧ (v.z < 0 ∨ (v.z = 0 ∧ v.y < 0))) :
    ∃ o, translate E inPl im v.x v.y v.z out b = some (.ok o) ∧ IsTranslated v b im o := by
  set D := im.dims with hDe
  set o := setSize E.raw D out with ho
  have key := foldlM_cells' (loop2 D.d D.h) (fun c i => lineNo D c * D.w ≤ i ∧ i < lineNo D c * D.w + D.w)
    (fun c i => inPl = true ∧ ¬ lineOut D v c ∧ srcRow D v c * D.w ≤ i ∧ i < srcRow D v c * D.w + D.w)
    (movedVal D v b im.buf) im.buf
    (transLine D v.x v.y v.z b inPl fun cur => if inPl then cur else im.buf)
    (by
      intro c hc f hf
      obtain ⟨hc1, hc2⟩ := (mem_loop2 _ _ _).mp hc
      refine transLine_spec D v b inPl _ im.buf hD hv hfit (fun h => (hpl h).2) c hc1 hc2 f ?_
      intro i h1 h2
      cases hpi : inPl with
      | false => rfl
      | true => exact hf i ⟨hpi, h1, h2⟩)
    (by
      refine List.Pairwise.imp_of_mem ?_ (loop2_lt D.d D.h)
      rintro c c' hc hc' hlt i hw
      obtain ⟨hc1, hc2⟩ := (mem_loop2 _ _ _).mp hc
      obtain ⟨hc1', hc2'⟩ := (mem_loop2 _ _ _).mp hc'
      refine ⟨fun hw' => ?_, ?_⟩
      · have := row_inj hc2 hc2' (row_cells hw hw')
        omega
      · rintro ⟨hp, hno, hw'⟩
        have hno' : ¬ ((c'.1 : Int) - v.z < 0 ∨ (c'.1 : Int) - v.z ≥ D.d ∨ (c'.2 : Int) - v.y < 0 ∨
          (c'.2 : Int) - v.y ≥ D.h) := hno
        have := row_inj hc2 (by omega) (row_cells hw hw')
        obtain ⟨-, h⟩ := hpl hp
        omega)
    o.buf
    (by
      rintro c hc i ⟨hp, -⟩
      obtain ⟨he, -⟩ := hpl hp
      rw [ho]
      unfold setSize
      rw [he, if_pos hDe.symm])
  obtain ⟨f, e1, e2, -⟩ := key
  refine ⟨⟨D, f⟩, ?_, rfl, fun p hp => ?_⟩
  · unfold translate
    rw [if_neg (by rw [hi]; simp), if_neg (by
      rintro ⟨h1, h2⟩
      rcases hs with h | h
      · exact h1 h
      · rw [h] at h2; simp at h2)]
    simp only [← hDe, ← ho]
    rw [e1]
    rfl
  · have hp' : 0 ≤ p.x ∧ p.x < D.w ∧ 0 ≤ p.y ∧ p.y < D.h ∧ 0 ≤ p.z ∧ p.z < D.d := hp
    have hrow : lineNo D (p.z.toNat, p.y.toNat) * D.w + p.x.toNat = offOf D p := by
      simp only [lineNo, offOf, rasterIndex]; ring
    have := e2 (p.z.toNat, p.y.toNat) ((mem_loop2 _ _ _).mpr (by simp only; omega)) (offOf D p)
      ⟨by omega, by omega⟩
    have hbuf : (⟨D, f⟩ : Img α).at? p = some (f (offOf D p)) := Img.buf_offOf (⟨D, f⟩ : Img α) p hp
    rw [hbuf, this]
    unfold movedVal
    have hxe : ((offOf D p - lineNo D (p.z.toNat, p.y.toNat) * D.w : Nat) : Int) = p.x := by omega
    simp only [hxe]
    have ez : ((p.z.toNat : Nat) : Int) = p.z := Int.toNat_of_nonneg hp'.2.2.2.2.1
    have ey : ((p.y.toNat : Nat) : Int) = p.y := Int.toNat_of_nonneg hp'.2.2.1
    have hiff : (lineOut D v (p.z.toNat, p.y.toNat) ∨ p.x - v.x < 0 ∨ p.x - v.x ≥ D.w) ↔
        ¬ Img.In D ⟨p.x - v.x, p.y - v.y, p.z - v.z⟩ := by
      simp only [lineOut, Img.In, ez, ey]
      omega
    by_cases hin : Img.In D ⟨p.x - v.x, p.y - v.y, p.z - v.z⟩
    · rw [if_neg (by rw [hiff]; exact not_not_intro hin)]
      have hat := Img.buf_offOf im _ hin
      refine ⟨fun a ha => ?_, fun hn => ?_⟩
      · rw [← ha, hat]
        congr 2
        simp only [srcRow, offOf, rasterIndex, ez, ey, hDe]; ring
      · rw [hat] at hn; cases hn
    · rw [if_pos (hiff.mpr hin)]
      refine ⟨fun a ha => absurd (im.at?_eq_some_in _ _ ha) hin, fun _ => rfl⟩

/-- **C21 fails** for the other vectors: `lineLen - dx` is an unsigned difference (DLineArith.hpp:107, 111) and the
loops run outside the lines. -/
theorem C21_translate_bug (E : Env α) (im : Img α) (v : IntPoint) (out : Img α) (b : α)
    (hi : im.alloc = true) (hs : out.dims = im.dims ∨ E.auto = true)
    (hD : im.dims.h < 2 ^ 31 ∧ im.dims.d < 2 ^ 31) (hv : IsInt v.y ∧ IsInt v.z)
    (hfit : ¬ ShiftFits im.dims v) : translate E false im v.x v.y v.z out b = none := by
  unfold ShiftFits at hfit
  push Not at hfit
  obtain ⟨h1, h2, h3⟩ := hfit
  rw [abs_lt] at h2 h3
  unfold translate
  rw [if_neg (by rw [hi]; simp), if_neg (by
    rintro ⟨h1, h2⟩
    rcases hs with h | h
    · exact h1 h
    · rw [h] at h2; simp at h2)]
  -- the first line that arrives
  have hmem : ((max v.z 0).toNat, (max v.y 0).toNat) ∈ loop2 im.dims.d im.dims.h := by
    rw [mem_loop2]; simp only; omega
  have wz := wrap_sub (max v.z 0).toNat im.dims.d v.z (by omega) hD.2 hv.2
  have wy := wrap_sub (max v.y 0).toNat im.dims.h v.y (by omega) hD.1 hv.1
  have := foldlM_none (loop2 im.dims.d im.dims.h)
    (transLine im.dims v.x v.y v.z b false fun cur => if false = true then cur else im.buf) _ hmem
    (by
      intro f
      unfold transLine
      simp only
      rw [if_neg (by
        rintro (h | h | h | h)
        · exact absurd (wz.1.mp (Or.inl h)) (by omega)
        · exact absurd (wz.1.mp (Or.inr h)) (by omega)
        · exact absurd (wy.1.mp (Or.inl h)) (by omega)
        · exact absurd (wy.1.mp (Or.inr h)) (by omega)), if_neg (by simp)]
      rw [(shiftLine_none _ _ _ _ _).mpr (by
        rcases lt_abs.mp h1 with h | h
        · right; exact h
        · left; omega)]
      rfl) (setSize E.raw im.dims out).buf
  simp only [this]
  rfl

/-- **C21 fails** in place for vectors pointing down: the lines read have been overwritten. A column translated
by one pixel downwards becomes constant. A horizontal shift in place breaks the promise of `restrict`. -/
theorem C21_inplace_bug :
    okRows (translate exEnvT true ⟨⟨1, 3, 1⟩, fun i => i + 1⟩ 0 1 0 ⟨⟨1, 3, 1⟩, fun i => i + 1⟩ 0) =
      [[[0], [0], [0]]] ∧
    okRows (translate exEnvT false ⟨⟨1, 3, 1⟩, fun i => i + 1⟩ 0 1 0 ⟨⟨1, 3, 1⟩, fun i => i + 1⟩ 0) =
      [[[0], [1], [2]]] ∧
    (translate exEnvT true exIm32 1 0 0 exIm32 0).isNone = true := by decide

/-- **C21**, translation, errors. -/
theorem C21_translate_errors (E : Env α) (inPl : Bool) (im : Img α) (dx dy dz : Int) (out : Img α) (b : α) :
    (im.alloc = false → translate E inPl im dx dy dz out b = some (.error (-99))) ∧
    (im.alloc = true → out.dims ≠ im.dims → E.auto = false →
      translate E inPl im dx dy dz out b = some (.error (-98))) := by
  unfold translate
  constructor
  · intro h; rw [if_pos h]; rfl
  · intro h1 h2 h3; rw [if_neg (by rw [h1]; simp), if_pos ⟨h2, h3⟩]; rfl

/-! ### Windows -/

/-- The point with coordinates given by dimensions. -/
def Dims.toPt (s : Dims) : IntPoint := ⟨s.w, s.h, s.d⟩
/-- `p` relative to the corner `s`. -/
def relTo (s : Dims) (p : IntPoint) : IntPoint := ⟨p.x - s.w, p.y - s.h, p.z - s.d⟩
/-- `p` moved by `s`. -/
def shiftBy (s : Dims) (p : IntPoint) : IntPoint := ⟨p.x + s.w, p.y + s.h, p.z + s.d⟩

/-- **C21**, copy: the pixels of the window of the input that fall in the output are copied at their place;
the other pixels of the output are unchanged. -/
theorem C21_copy (conv : α → β) (im : Img α) (s n : Dims) (out : Img β) (t : Dims)
    (hs : Img.In im.dims s.toPt) (ht : Img.In out.dims t.toPt) :
    ∃ o, copyWin conv im s n out t = some (1, o) ∧ o.dims = out.dims ∧
      (∀ q a, Img.In n q → im.at? (shiftBy s q) = some a → Img.In out.dims (shiftBy t q) →
        o.at? (shiftBy t q) = some (conv a)) ∧
      ∀ p, ¬ (Img.In n (relTo t p) ∧ Img.In im.dims (shiftBy s (relTo t p))) → o.at? p = out.at? p := by
  have hs' : s.w < im.dims.w ∧ s.h < im.dims.h ∧ s.d < im.dims.d := by
    unfold Img.In Dims.toPt at hs; simp only at hs; omega
  have ht' : t.w < out.dims.w ∧ t.h < out.dims.h ∧ t.d < out.dims.d := by
    unfold Img.In Dims.toPt at ht; simp only at ht; omega
  have hci : im.dims.count ≠ 0 := by have := offOf_lt hs; omega
  have hco : out.dims.count ≠ 0 := by have := offOf_lt ht; omega
  unfold copyWin
  rw [if_neg (by tauto), if_neg (by tauto), if_neg (by tauto)]
  simp only
  set rx := min (min n.w (im.dims.w - s.w)) (out.dims.w - t.w) with hrx
  set ry := min (min n.h (im.dims.h - s.h)) (out.dims.h - t.h) with hry
  set rz := min (min n.d (im.dims.d - s.d)) (out.dims.d - t.d) with hrz
  obtain ⟨f, e1, e2, e3⟩ := foldlM_points out.dims (loop3 rz ry rx)
    (fun c => ⟨((t.w + c.2.2 : Nat) : Int), ((t.h + c.2.1 : Nat) : Int), ((t.d + c.1 : Nat) : Int)⟩)
    (fun c => conv (im.px (s.w + c.2.2) (s.h + c.2.1) (s.d + c.1)))
    (copyStep conv im s out.dims t) (nodup_loop3 _ _ _)
    (by
      intro c hc
      rw [mem_loop3] at hc
      unfold Img.In
      simp only
      omega)
    (by
      intro c hc f
      rw [mem_loop3] at hc
      unfold copyStep
      rw [offOf_nat]
      exact putAt_ok rfl (rasterIndex_lt (by omega) (by omega) (by omega)))
    (by
      rintro ⟨k, j, i⟩ hc ⟨k', j', i'⟩ hc' he
      simp only [IntPoint.mk.injEq, Prod.mk.injEq] at *
      omega) out.buf
  refine ⟨⟨out.dims, f⟩, by rw [e1]; rfl, rfl, fun q a hq ha ho => ?_, fun p hp => ?_⟩
  · have hin := im.at?_eq_some_in _ _ ha
    unfold Img.In shiftBy at *
    simp only at *
    have := e2 (q.z.toNat, q.y.toNat, q.x.toNat) ((mem_loop3 _ _ _ _).mpr (by simp only; omega))
    have eq : (⟨((t.w + q.x.toNat : Nat) : Int), ((t.h + q.y.toNat : Nat) : Int), ((t.d + q.z.toNat : Nat) : Int)⟩ :
        IntPoint) = ⟨q.x + t.w, q.y + t.h, q.z + t.d⟩ := by
      rw [IntPoint.mk.injEq]; omega
    simp only [eq] at this
    rw [this]
    have hpx := px_at im (x := s.w + q.x.toNat) (y := s.h + q.y.toNat) (z := s.d + q.z.toNat)
      (by omega) (by omega) (by omega)
    have eq2 : (⟨((s.w + q.x.toNat : Nat) : Int), ((s.h + q.y.toNat : Nat) : Int), ((s.d + q.z.toNat : Nat) : Int)⟩ :
        IntPoint) = ⟨q.x + s.w, q.y + s.h, q.z + s.d⟩ := by
      rw [IntPoint.mk.injEq]; omega
    rw [eq2, ha] at hpx
    rw [Option.some.inj hpx]
  · refine e3 p fun c hc he => hp ?_
    rw [mem_loop3] at hc
    subst he
    unfold Img.In relTo shiftBy
    simp only
    omega

/-- **C21**, copy, errors: images without pixels, a start outside of the image; the output is unchanged. -/
theorem C21_copy_errors (conv : α → β) (im : Img α) (s n : Dims) (out : Img β) (t : Dims)
    (h : ¬ (Img.In im.dims s.toPt ∧ Img.In out.dims t.toPt)) :
    ∃ c, copyWin conv im s n out t = some (c, out) ∧ c < 0 := by
  unfold copyWin
  by_cases h0 : im.dims.count = 0 ∨ out.dims.count = 0
  · exact ⟨_, if_pos h0, by decide⟩
  rw [if_neg h0]
  by_cases h1 : ¬ (s.w < im.dims.w ∧ s.h < im.dims.h ∧ s.d < im.dims.d)
  · exact ⟨_, if_pos h1, by decide⟩
  rw [if_neg h1]
  by_cases h2 : ¬ (t.w < out.dims.w ∧ t.h < out.dims.h ∧ t.d < out.dims.d)
  · exact ⟨_, if_pos h2, by decide⟩
  exfalso
  apply h
  unfold Img.In Dims.toPt
  simp only
  omega

/-- `copy(imIn, imOut)` of different types with different sizes copies the common window, of the same sizes
everything; of the same type it also resizes the output. -/
theorem C21_copy_whole (conv : α → β) (raw : Nat → α) (im out1 : Img α) (out : Img β) (hi : im.dims.count ≠ 0)
    (ho : out.dims.count ≠ 0) (ho1 : out1.dims.count ≠ 0) :
    (∃ o, copyCast conv im out = some (1, o) ∧ o.dims = out.dims ∧
      ∀ p, Img.In out.dims p → o.at? p = match im.at? p with
        | some a => some (conv a)
        | none => out.at? p) ∧
    ∃ o, copySame raw im out1 = some (1, o) ∧ o.Same im := by
  constructor
  · unfold copyCast
    rw [if_neg (by tauto)]
    by_cases hd : out.dims ≠ im.dims
    · rw [if_pos hd]
      have pos : ∀ D : Dims, D.count ≠ 0 → Img.In D (⟨0, 0, 0⟩ : Dims).toPt := by
        intro D h
        unfold Dims.count at h
        have h1 : D.w ≠ 0 := fun e => h (by rw [e]; simp)
        have h2 : D.h ≠ 0 := fun e => h (by rw [e]; simp)
        have h3 : D.d ≠ 0 := fun e => h (by rw [e]; simp)
        unfold Img.In Dims.toPt
        simp only
        omega
      obtain ⟨o, e1, e2, e3, e4⟩ := C21_copy conv im ⟨0, 0, 0⟩ im.dims out ⟨0, 0, 0⟩ (pos _ hi) (pos _ ho)
      refine ⟨o, e1, e2, fun p hp => ?_⟩
      have ep : shiftBy ⟨0, 0, 0⟩ p = p := by cases p; simp [shiftBy]
      have er : relTo ⟨0, 0, 0⟩ p = p := by cases p; simp [relTo]
      cases ha : im.at? p with
      | some a =>
        have := e3 p a (im.at?_eq_some_in _ _ ha) (by rw [ep]; exact ha) (by rw [ep]; exact hp)
        rwa [ep] at this
      | none =>
        refine e4 p fun h => ?_
        rw [er] at h
        rw [im.at?_some p h.1] at ha
        cases ha
    · rw [if_neg hd]
      rw [ne_eq, not_not] at hd
      refine ⟨_, rfl, rfl, fun p hp => ?_⟩
      have hp2 : Img.In im.dims p := by rw [← hd]; exact hp
      rw [Img.buf_offOf im p hp2]
      refine (Img.buf_offOf (⟨out.dims, fun i => if i < im.dims.count then conv (im.buf i) else out.buf i⟩ : Img β) p hp).trans ?_
      simp only
      rw [hd, if_pos (offOf_lt hp2)]
  · unfold copySame
    rw [if_neg (by tauto)]
    refine ⟨_, rfl, rfl, fun p => ?_⟩
    by_cases hp : Img.In im.dims p
    · rw [Img.buf_offOf im p hp]
      refine (Img.buf_offOf (⟨im.dims, copyLine im.dims.count im.buf (setSize raw im.dims out1).buf⟩ : Img α) p hp).trans ?_
      simp only
      rw [copyLine_apply, if_pos (offOf_lt hp)]
    · rw [im.at?_none p hp]
      exact Img.at?_none _ p hp

/-- **C21**, crop: with a start inside the image and sizes that are not zero, the output is exactly the window, cut
at the limits of the image. -/
theorem C21_crop (raw : Nat → α) (im : Img α) (s n : Dims) (out : Img α) (hs : Img.In im.dims s.toPt)
    (hn : 0 < n.w ∧ 0 < n.h ∧ 0 < n.d) (h64 : im.dims.w < 2 ^ 64 ∧ im.dims.h < 2 ^ 64 ∧ im.dims.d < 2 ^ 64) :
    ∃ o, crop raw im s n out = some (1, o) ∧
      o.dims = ⟨min n.w (im.dims.w - s.w), min n.h (im.dims.h - s.h), min n.d (im.dims.d - s.d)⟩ ∧
      ∀ q, Img.In o.dims q → o.at? q = im.at? (shiftBy s q) := by
  have hs' : s.w < im.dims.w ∧ s.h < im.dims.h ∧ s.d < im.dims.d := by
    unfold Img.In Dims.toPt at hs; simp only at hs; omega
  have hci : im.dims.count ≠ 0 := by have := offOf_lt hs; omega
  have hsub : ∀ a b : Nat, b < a → a < 2 ^ 64 → (a + (2 ^ 64 - b)) % 2 ^ 64 = a - b := by
    intro a b h1 h2; omega
  unfold crop
  rw [if_neg hci]
  simp only
  rw [hsub _ _ hs'.1 h64.1, hsub _ _ hs'.2.1 h64.2.1, hsub _ _ hs'.2.2 h64.2.2]
  set r : Dims := ⟨min n.w (im.dims.w - s.w), min n.h (im.dims.h - s.h), min n.d (im.dims.d - s.d)⟩ with hr
  have hrp : 0 < r.w ∧ 0 < r.h ∧ 0 < r.d := by rw [hr]; simp only; omega
  obtain ⟨o, e1, e2, e3, -⟩ := C21_copy id im s r (setSize raw r out) ⟨0, 0, 0⟩ hs (by
    rw [setSize_dims]; unfold Img.In Dims.toPt; simp only; omega)
  rw [setSize_dims] at e2 e3
  refine ⟨o, e1, e2, fun q hq => ?_⟩
  rw [e2] at hq
  have hin : Img.In im.dims (shiftBy s q) := by
    have h1 : r.w ≤ im.dims.w - s.w := by rw [hr]; simp only; omega
    have h2 : r.h ≤ im.dims.h - s.h := by rw [hr]; simp only; omega
    have h3 : r.d ≤ im.dims.d - s.d := by rw [hr]; simp only; omega
    unfold Img.In shiftBy at *
    simp only
    omega
  have ep : shiftBy ⟨0, 0, 0⟩ q = q := by cases q; simp [shiftBy]
  have := e3 q _ hq (im.at?_some _ hin) (by rw [ep]; exact hq)
  rw [ep] at this
  rw [this, im.at?_some _ hin]
  rfl

/-- **C21**, crop with a start outside the image or an empty size: an error is returned, but only after the output
has been resized; in particular the in-place `crop` loses the image. -/
theorem C21_crop_errors_partial (raw : Nat → α) (im : Img α) (s n : Dims) (out : Img α)
    (h : ¬ Img.In im.dims s.toPt ∨ n.w = 0 ∨ n.h = 0 ∨ n.d = 0) :
    ∃ c o, crop raw im s n out = some (c, o) ∧ c < 0 := by
  unfold crop
  by_cases h0 : im.dims.count = 0
  · exact ⟨_, _, if_pos h0, by decide⟩
  rw [if_neg h0]
  simp only
  obtain ⟨c, e1, e2⟩ := C21_copy_errors id im s
    ⟨min n.w ((im.dims.w + (2 ^ 64 - s.w)) % 2 ^ 64), min n.h ((im.dims.h + (2 ^ 64 - s.h)) % 2 ^ 64),
      min n.d ((im.dims.d + (2 ^ 64 - s.d)) % 2 ^ 64)⟩
    (setSize raw ⟨min n.w ((im.dims.w + (2 ^ 64 - s.w)) % 2 ^ 64),
      min n.h ((im.dims.h + (2 ^ 64 - s.h)) % 2 ^ 64), min n.d ((im.dims.d + (2 ^ 64 - s.d)) % 2 ^ 64)⟩ out)
    ⟨0, 0, 0⟩ (by
      rintro ⟨h1, h2⟩
      rcases h with h | h
      · exact h h1
      · rw [setSize_dims] at h2
        unfold Img.In Dims.toPt at h2
        simp only at h2
        omega)
  exact ⟨c, _, e1, e2⟩

/-- **C21**: `crop(im, 5, 0, 0, 4, 1, 1)` on an image of width 3 answers an error and leaves an uninitialised image
of width 4. -/
theorem C21_crop_bug :
    crop (fun _ => 7) (⟨⟨3, 1, 1⟩, fun i => i + 1⟩ : Img Nat) ⟨5, 0, 0⟩ ⟨4, 1, 1⟩ ⟨⟨3, 1, 1⟩, fun i => i + 1⟩ =
      some (-100, ⟨⟨4, 1, 1⟩, fun _ => 7⟩) := by
  rfl

/-- **C21**, border: the image with `b` pixels of value `v` around each slice and, for images with several slices,
`b` slices before and after. -/
theorem C21_addBorder (raw : Nat → α) (im : Img α) (b : Nat) (out : Img α) (v : α) (hi : im.dims.count ≠ 0) :
    ∃ o, addBorder raw im b out v = some (1, o) ∧
      o.dims = ⟨im.dims.w + 2 * b, im.dims.h + 2 * b,
        if im.dims.d = 1 then 1 else im.dims.d + 2 * b⟩ ∧
      ∀ p, Img.In o.dims p → o.at? p =
        some ((im.at? ⟨p.x - b, p.y - b, if im.dims.d = 1 then p.z else p.z - b⟩).getD v) := by
  have hpos : 0 < im.dims.w ∧ 0 < im.dims.h ∧ 0 < im.dims.d := by
    unfold Dims.count at hi
    refine ⟨Nat.pos_of_ne_zero ?_, Nat.pos_of_ne_zero ?_, Nat.pos_of_ne_zero ?_⟩ <;>
    · intro h; exact hi (by rw [h]; simp)
  -- both cases are the copy of the whole image at `(b, b, c)`
  have main : ∀ (c D2 : Nat), c + im.dims.d ≤ D2 → (c = 0 → D2 = im.dims.d ∨ b = 0) →
      ∃ o, copyWin id im ⟨0, 0, 0⟩ im.dims
        ⟨⟨im.dims.w + 2 * b, im.dims.h + 2 * b, D2⟩,
          fillLine (⟨im.dims.w + 2 * b, im.dims.h + 2 * b, D2⟩ : Dims).count v
            (setSize raw ⟨im.dims.w + 2 * b, im.dims.h + 2 * b, D2⟩ out).buf⟩ ⟨b, b, c⟩ = some (1, o) ∧
        o.dims = ⟨im.dims.w + 2 * b, im.dims.h + 2 * b, D2⟩ ∧
        ∀ p, Img.In o.dims p → o.at? p = some ((im.at? ⟨p.x - b, p.y - b, p.z - c⟩).getD v) := by
    intro c D2 hc _
    set Do : Dims := ⟨im.dims.w + 2 * b, im.dims.h + 2 * b, D2⟩ with hDo
    set oo : Img α := ⟨Do, fillLine Do.count v (setSize raw Do out).buf⟩ with hoo
    obtain ⟨o, e1, e2, e3, e4⟩ := C21_copy id im ⟨0, 0, 0⟩ im.dims oo ⟨b, b, c⟩
      (by unfold Img.In Dims.toPt; simp only; omega)
      (by unfold Img.In Dims.toPt; rw [hoo, hDo]; simp only; omega)
    refine ⟨o, e1, e2, fun p hp => ?_⟩
    rw [e2] at hp
    have er : relTo ⟨b, b, c⟩ p = ⟨p.x - b, p.y - b, p.z - c⟩ := rfl
    have es : shiftBy ⟨0, 0, 0⟩ (relTo ⟨b, b, c⟩ p) = relTo ⟨b, b, c⟩ p := by simp [shiftBy]
    have et : shiftBy ⟨b, b, c⟩ (relTo ⟨b, b, c⟩ p) = p := by cases p; simp [shiftBy, relTo]
    rw [← er]
    cases ha : im.at? (relTo ⟨b, b, c⟩ p) with
    | some a =>
      have := e3 (relTo ⟨b, b, c⟩ p) a (im.at?_eq_some_in _ _ ha) (by rw [es]; exact ha) (by rw [et]; exact hp)
      rw [et] at this
      exact this
    | none =>
      rw [e4 p (by
        rintro ⟨h1, -⟩
        rw [im.at?_some _ h1] at ha
        cases ha)]
      rw [Img.buf_offOf oo p hp]
      simp only [Option.getD_none]
      rw [hoo]
      simp only
      rw [fillLine_apply, if_pos (offOf_lt hp)]
  unfold addBorder
  rw [if_neg hi]
  simp only
  by_cases hd : im.dims.d > 1
  · rw [if_pos hd, if_neg (by omega)]
    obtain ⟨o, e1, e2, e3⟩ := main b (im.dims.d + 2 * b) (by omega) (fun h => Or.inr h)
    simp only [setSize_dims]
    rw [e1]
    refine ⟨o, rfl, e2, fun p hp => ?_⟩
    rw [if_neg (by omega)]
    exact e3 p hp
  · have h1 : im.dims.d = 1 := by omega
    rw [if_neg hd, if_pos h1]
    obtain ⟨o, e1, e2, e3⟩ := main 0 1 (by omega) (fun _ => Or.inl h1.symm)
    simp only [setSize_dims]
    have hdim : im.dims = ⟨im.dims.w, im.dims.h, 1⟩ := by rw [← h1]
    rw [← hdim, e1]
    refine ⟨o, rfl, e2, fun p hp => ?_⟩
    rw [if_pos h1]
    have := e3 p hp
    simpa using this

/-! ### Examples -/

example : okRows (translate exEnvT false exIm32 1 (-1) 0 ⟨⟨1, 1, 1⟩, fun _ => 9⟩ 0) =
    [[[0, 4, 5], [0, 0, 0]]] := by decide
example : okRows (translate exEnvT true exIm32 1 (-1) 0 exIm32 0) = [[[0, 4, 5], [0, 0, 0]]] := by decide
example : (translate exEnvT false exIm32 4 0 0 exIm32 0).isNone = true := by decide
example : okRows (translate exEnvT false exIm32 4 2 0 exIm32 0) = [[[0, 0, 0], [0, 0, 0]]] := by decide
example : (copyWin id exIm32 ⟨1, 0, 0⟩ ⟨5, 1, 1⟩ ⟨⟨4, 2, 1⟩, fun _ => 0⟩ ⟨1, 1, 0⟩).map (fun r => r.2.toRows) =
    some [[[0, 0, 0, 0], [0, 2, 3, 0]]] := by decide
example : (crop (fun _ => 7) exIm32 ⟨1, 1, 0⟩ ⟨9, 9, 9⟩ exIm32).map (fun r => r.2.toRows) = some [[[5, 6]]] := by
  decide
example : (addBorder (fun _ => 7) exIm32 1 exIm32 0).map (fun r => r.2.toRows) =
    some [[[0, 0, 0, 0, 0], [0, 1, 2, 3, 0], [0, 4, 5, 6, 0], [0, 0, 0, 0, 0]]] := by decide

end Smil
