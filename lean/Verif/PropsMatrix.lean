import Verif.MatrixLemmas

/-!
# C68: transposition and product of matrices

`matTranspose` moves every pixel to the permuted coordinates and permutes the sizes; `matMultiply` computes the products of lines and columns modulo the
number of values of the type, so that the usual laws hold. Exceptions: signed overflow for `UINT16` (integer promotion) and `INT32`,
output equal to the first input.
-/

namespace Smil
variable {α : Type}

/-! ### Transposition -/

/-- **C68** (`matTranspose`). For each order the sizes are permuted and every pixel is moved to the permuted coordinates; `xyz` and `xy` copy; the empty string is `yxz`. -/
theorem C68_transpose (E : Env α) (im out : Img α) (ha : im.alloc = true) (hb : out.alloc = true) :
    (∀ o ∈ ["", "yx", "yxz"], ∃ r, matTranspose E im out o = .ok r ∧
      IsMoved (fun p => ⟨p.y, p.x, p.z⟩) ⟨im.dims.h, im.dims.w, im.dims.d⟩ im r) ∧
    (∃ r, matTranspose E im out "xzy" = .ok r ∧ IsMoved (fun p => ⟨p.x, p.z, p.y⟩) ⟨im.dims.w, im.dims.d, im.dims.h⟩ im r) ∧
    (∃ r, matTranspose E im out "yzx" = .ok r ∧ IsMoved (fun p => ⟨p.y, p.z, p.x⟩) ⟨im.dims.h, im.dims.d, im.dims.w⟩ im r) ∧
    (∃ r, matTranspose E im out "zxy" = .ok r ∧ IsMoved (fun p => ⟨p.z, p.x, p.y⟩) ⟨im.dims.d, im.dims.w, im.dims.h⟩ im r) ∧
    (∃ r, matTranspose E im out "zyx" = .ok r ∧ IsMoved (fun p => ⟨p.z, p.y, p.x⟩) ⟨im.dims.d, im.dims.h, im.dims.w⟩ im r) ∧
    ∀ o ∈ ["xy", "xyz"], matTranspose E im out o = .ok im := by
  have key : ∀ (lut : Nat × Nat × Nat) (hl : lut ∈ [(1, 0, 2), (0, 2, 1), (1, 2, 0), (2, 0, 1), (2, 1, 0)]),
      ∀ (f : IntPoint → IntPoint) (D : Dims),
      (∀ p : IntPoint, Img.In im.dims p → (f p).x.toNat = axisOf (p.x.toNat, p.y.toNat, p.z.toNat) lut.1 ∧
        (f p).y.toNat = axisOf (p.x.toNat, p.y.toNat, p.z.toNat) lut.2.1 ∧
        (f p).z.toNat = axisOf (p.x.toNat, p.y.toNat, p.z.toNat) lut.2.2) →
      (∀ p, Img.In D (f p) ↔ Img.In im.dims p) →
      D = ⟨axisOf (im.dims.w, im.dims.h, im.dims.d) lut.1, axisOf (im.dims.w, im.dims.h, im.dims.d) lut.2.1,
        axisOf (im.dims.w, im.dims.h, im.dims.d) lut.2.2⟩ →
      IsMoved f D im (transposeBy E.raw lut im) := by
    intro lut hl f D hf hin hD
    obtain ⟨h1, h2⟩ := transposeBy_px E.raw lut im hl
    refine moved_of_px (h1.trans hD.symm) hin fun p hp => ?_
    obtain ⟨e1, e2, e3⟩ := hf p hp
    rw [e1, e2, e3]
    unfold Img.In at hp
    exact h2 (p.x.toNat, p.y.toNat, p.z.toNat) (by dsimp only; omega) (by dsimp only; omega) (by dsimp only; omega)
  refine ⟨?_, ?_, ?_, ?_, ?_, ?_⟩
  · intro o ho
    refine ⟨_, transpose_lut E im out o (1, 0, 2) ha hb ?_ ?_, key _ (by simp) _ _ ?_ ?_ ?_⟩
    · simp only [List.mem_cons, List.not_mem_nil, or_false] at ho
      rcases ho with rfl | rfl | rfl <;> decide
    · simp only [List.mem_cons, List.not_mem_nil, or_false] at ho
      rcases ho with rfl | rfl | rfl <;> decide
    · intro p _; simp [axisOf]
    · intro p; unfold Img.In; dsimp only; omega
    · simp [axisOf]
  · refine ⟨_, transpose_lut E im out _ (0, 2, 1) ha hb (by decide) (by decide), key _ (by simp) _ _ ?_ ?_ ?_⟩
    · intro p _; simp [axisOf]
    · intro p; unfold Img.In; dsimp only; omega
    · simp [axisOf]
  · refine ⟨_, transpose_lut E im out _ (1, 2, 0) ha hb (by decide) (by decide), key _ (by simp) _ _ ?_ ?_ ?_⟩
    · intro p _; simp [axisOf]
    · intro p; unfold Img.In; dsimp only; omega
    · simp [axisOf]
  · refine ⟨_, transpose_lut E im out _ (2, 0, 1) ha hb (by decide) (by decide), key _ (by simp) _ _ ?_ ?_ ?_⟩
    · intro p _; simp [axisOf]
    · intro p; unfold Img.In; dsimp only; omega
    · simp [axisOf]
  · refine ⟨_, transpose_lut E im out _ (2, 1, 0) ha hb (by decide) (by decide), key _ (by simp) _ _ ?_ ?_ ?_⟩
    · intro p _; simp [axisOf]
    · intro p; unfold Img.In; dsimp only; omega
    · simp [axisOf]
  · intro o ho
    unfold matTranspose
    rw [if_neg (by simp [ha, hb]), if_pos]
    simp only [List.mem_cons, List.not_mem_nil, or_false] at ho
    rcases ho with rfl | rfl <;> decide

example : ((matTranspose ⟨1, true, fun _ => 0, fun _ => 0⟩ (⟨⟨3, 2, 1⟩, id⟩ : Img Nat) ⟨⟨1, 1, 1⟩, id⟩ "yx").toOption.map Img.toRows) =
    some [[[0, 3], [1, 4], [2, 5]]] := by decide
example : ((matTranspose ⟨1, true, fun _ => 0, fun _ => 0⟩ (⟨⟨2, 3, 2⟩, id⟩ : Img Nat) ⟨⟨1, 1, 1⟩, id⟩ "zxy").toOption.map Img.toRows) =
    some [[[0, 6], [1, 7]], [[2, 8], [3, 9]], [[4, 10], [5, 11]]] := by decide

/-- The inverse of an order. -/
def OrderInv (o o' : String) : Prop :=
  (o, o') ∈ [("", "yx"), ("yx", "yx"), ("yxz", "yxz"), ("xzy", "xzy"), ("zyx", "zyx"), ("yzx", "zxy"), ("zxy", "yzx"), ("xyz", "xyz")]

/-- **C68** (involution). An order followed by its inverse gives the image back. -/
theorem C68_transpose_inv (E : Env α) (im out out' : Img α) (o o' : String) (h : OrderInv o o') (ha : im.alloc = true)
    (hb : out.alloc = true) (hb' : out'.alloc = true) :
    ∃ r r', matTranspose E im out o = .ok r ∧ matTranspose E r out' o' = .ok r' ∧ Img.Same r' im := by
  have hpos : 0 < im.dims.w ∧ 0 < im.dims.h ∧ 0 < im.dims.d := by
    unfold Img.alloc at ha
    have := of_decide_eq_true ha
    unfold Dims.count at this
    refine ⟨?_, ?_, ?_⟩ <;> (by_contra hc; simp_all)
  obtain ⟨h1, h2, h3, h4, h5, h6⟩ := C68_transpose E im out ha hb
  unfold OrderInv at h
  simp only [List.mem_cons, Prod.mk.injEq, List.not_mem_nil, or_false] at h
  rcases h with ⟨rfl, rfl⟩ | ⟨rfl, rfl⟩ | ⟨rfl, rfl⟩ | ⟨rfl, rfl⟩ | ⟨rfl, rfl⟩ | ⟨rfl, rfl⟩ | ⟨rfl, rfl⟩ | ⟨rfl, rfl⟩
  · obtain ⟨r, hr, hm⟩ := h1 "" (by simp)
    obtain ⟨k, -⟩ := C68_transpose E r out' (alloc_perm (by rw [hm.1]; exact ⟨hpos.2.1, hpos.1, hpos.2.2⟩)) hb'
    obtain ⟨r', hr', hm'⟩ := k "yx" (by simp)
    exact ⟨r, r', hr, hr', moved_inv hm hm' (fun _ => rfl) (by rw [hm.1])⟩
  · obtain ⟨r, hr, hm⟩ := h1 "yx" (by simp)
    obtain ⟨k, -⟩ := C68_transpose E r out' (alloc_perm (by rw [hm.1]; exact ⟨hpos.2.1, hpos.1, hpos.2.2⟩)) hb'
    obtain ⟨r', hr', hm'⟩ := k "yx" (by simp)
    exact ⟨r, r', hr, hr', moved_inv hm hm' (fun _ => rfl) (by rw [hm.1])⟩
  · obtain ⟨r, hr, hm⟩ := h1 "yxz" (by simp)
    obtain ⟨k, -⟩ := C68_transpose E r out' (alloc_perm (by rw [hm.1]; exact ⟨hpos.2.1, hpos.1, hpos.2.2⟩)) hb'
    obtain ⟨r', hr', hm'⟩ := k "yxz" (by simp)
    exact ⟨r, r', hr, hr', moved_inv hm hm' (fun _ => rfl) (by rw [hm.1])⟩
  · obtain ⟨r, hr, hm⟩ := h2
    obtain ⟨-, ⟨r', hr', hm'⟩, -⟩ := C68_transpose E r out' (alloc_perm (by rw [hm.1]; exact ⟨hpos.1, hpos.2.2, hpos.2.1⟩)) hb'
    exact ⟨r, r', hr, hr', moved_inv hm hm' (fun _ => rfl) (by rw [hm.1])⟩
  · obtain ⟨r, hr, hm⟩ := h5
    obtain ⟨-, -, -, -, ⟨r', hr', hm'⟩, -⟩ := C68_transpose E r out' (alloc_perm (by rw [hm.1]; exact ⟨hpos.2.2, hpos.2.1, hpos.1⟩)) hb'
    exact ⟨r, r', hr, hr', moved_inv hm hm' (fun _ => rfl) (by rw [hm.1])⟩
  · obtain ⟨r, hr, hm⟩ := h3
    obtain ⟨-, -, -, ⟨r', hr', hm'⟩, -⟩ := C68_transpose E r out' (alloc_perm (by rw [hm.1]; exact ⟨hpos.2.1, hpos.2.2, hpos.1⟩)) hb'
    exact ⟨r, r', hr, hr', moved_inv hm hm' (fun _ => rfl) (by rw [hm.1])⟩
  · obtain ⟨r, hr, hm⟩ := h4
    obtain ⟨-, -, ⟨r', hr', hm'⟩, -⟩ := C68_transpose E r out' (alloc_perm (by rw [hm.1]; exact ⟨hpos.2.2, hpos.1, hpos.2.1⟩)) hb'
    exact ⟨r, r', hr, hr', moved_inv hm hm' (fun _ => rfl) (by rw [hm.1])⟩
  · obtain ⟨-, -, -, -, -, h6'⟩ := C68_transpose E im out' ha hb'
    exact ⟨im, im, h6 "xyz" (by simp), h6' "xyz" (by simp), Img.Same.refl im⟩

/-! ### Product -/

variable {t : PT}

/-- **C68** (`matMultiply`). For the 8 bit types, `INT16` and `UINT32`, the output is the matrix product modulo the number of values of the type. -/
theorem C68_multiply (E : Env (Px t)) (a b : Img (Px t)) (ht : ProdOk t) (ha : a.alloc = true) (hb : b.alloc = true)
    (hda : a.dims.d = 1) (hdb : b.dims.d = 1) (hw : a.dims.w = b.dims.h) :
    ∃ c, matMultiply E a b = some (.ok c) ∧ IsProduct a b c := by
  have hpos : 0 < b.dims.w ∧ 0 < b.dims.h ∧ 0 < b.dims.d := by
    unfold Img.alloc at hb
    have := of_decide_eq_true hb
    unfold Dims.count at this
    refine ⟨?_, ?_, ?_⟩ <;> (by_contra hc; simp_all)
  obtain ⟨k, -⟩ := C68_transpose E b ⟨⟨b.dims.h, b.dims.w, 1⟩, E.raw⟩ hb (alloc_perm ⟨hpos.2.1, hpos.1, Nat.one_pos⟩)
  obtain ⟨tr, htr, hm⟩ := k "yxz" (by simp)
  obtain ⟨o, ho, hs⟩ := matBuf_ok ht a.buf tr.buf a.dims.w a.dims.h b.dims.w E.raw
  refine ⟨⟨⟨b.dims.w, a.dims.h, 1⟩, o⟩, ?_, rfl, fun x y hx hy => ?_⟩
  · unfold matMultiply
    rw [if_neg (by simp [ha, hb]), if_neg (by simp [hda, hdb]), if_neg (by simp [hw]), htr]
    simp only [ho, Option.map_some]
  · have := hs x y hx hy
    have e1 : (⟨⟨b.dims.w, a.dims.h, 1⟩, o⟩ : Img (Px t)).px x y 0 = o (y * b.dims.w + x) := by
      unfold Img.px rasterIndex; dsimp only; congr 1; ring
    rw [e1]
    refine this.trans (dvd_of_eq ?_) |>.trans (dvd_refl _)
    congr 1
    refine Finset.sum_congr rfl fun i hi => ?_
    have hi := Finset.mem_range.mp hi
    have e2 : a.px i y 0 = a.buf (y * a.dims.w + i) := by
      unfold Img.px rasterIndex; congr 1; ring
    have e3 : b.px x i 0 = tr.buf (x * a.dims.w + i) := by
      have h1 := hm.2 ⟨x, i, 0⟩
      rw [Img.at?_some b _ (by unfold Img.In; dsimp only; omega),
        Img.at?_some tr _ (by rw [hm.1]; unfold Img.In; dsimp only; omega)] at h1
      simp only [Int.toNat_natCast, Option.some.injEq] at h1
      refine (h1.symm.trans ?_)
      unfold Img.px rasterIndex
      rw [hm.1]
      dsimp only
      congr 1
      simp only [Int.toNat_zero]
      rw [hw]; ring
    rw [e2, e3]

/-- **C68** (associativity). `(a b) c` and `a (b c)` are the same image, in the modular arithmetic of the pixels. -/
theorem C68_assoc (E : Env (Px t)) (a b c : Img (Px t)) (ht : ProdOk t) (ha : a.alloc = true) (hb : b.alloc = true) (hc : c.alloc = true)
    (hda : a.dims.d = 1) (hdb : b.dims.d = 1) (hdc : c.dims.d = 1) (h1 : a.dims.w = b.dims.h) (h2 : b.dims.w = c.dims.h) :
    ∃ ab bc l r, matMultiply E a b = some (.ok ab) ∧ matMultiply E ab c = some (.ok l) ∧ matMultiply E b c = some (.ok bc) ∧
      matMultiply E a bc = some (.ok r) ∧ Img.Same l r := by
  obtain ⟨ab, e1, p1⟩ := C68_multiply E a b ht ha hb hda hdb h1
  obtain ⟨bc, e2, p2⟩ := C68_multiply E b c ht hb hc hdb hdc h2
  have qa := alloc_pos3 ha
  have qb := alloc_pos3 hb
  have qc := alloc_pos3 hc
  obtain ⟨l, e3, p3⟩ := C68_multiply E ab c ht (alloc_perm (by rw [p1.1]; exact ⟨qb.1, qa.2.1, Nat.one_pos⟩)) hc (by rw [p1.1]) hdc
    (by rw [p1.1]; exact h2)
  obtain ⟨r, e4, p4⟩ := C68_multiply E a bc ht ha (alloc_perm (by rw [p2.1]; exact ⟨qc.1, qb.2.1, Nat.one_pos⟩)) hda (by rw [p2.1])
    (by rw [p2.1]; exact h1)
  exact ⟨ab, bc, l, r, e1, e3, e2, e4, product_assoc p1 p3 p2 p4 h1⟩

/-- **C68** (transposed product). The transpose of `a b` is the product of the transposes of `b` and `a`. -/
theorem C68_transpose_multiply (E : Env (Px t)) (a b out : Img (Px t)) (ht : ProdOk t) (ha : a.alloc = true) (hb : b.alloc = true)
    (ho : out.alloc = true) (hda : a.dims.d = 1) (hdb : b.dims.d = 1) (h1 : a.dims.w = b.dims.h) :
    ∃ ab abT aT bT p, matMultiply E a b = some (.ok ab) ∧ matTranspose E ab out "yx" = .ok abT ∧ matTranspose E a out "yx" = .ok aT ∧
      matTranspose E b out "yx" = .ok bT ∧ matMultiply E bT aT = some (.ok p) ∧ Img.Same abT p := by
  obtain ⟨ab, e1, p1⟩ := C68_multiply E a b ht ha hb hda hdb h1
  have qa := alloc_pos3 ha
  have qb := alloc_pos3 hb
  obtain ⟨aT, e2, m2⟩ := (C68_transpose E a out ha ho).1 "yx" (by simp)
  obtain ⟨bT, e3, m3⟩ := (C68_transpose E b out hb ho).1 "yx" (by simp)
  obtain ⟨abT, e4, m4⟩ := (C68_transpose E ab out (alloc_perm (by rw [p1.1]; exact ⟨qb.1, qa.2.1, Nat.one_pos⟩)) ho).1 "yx" (by simp)
  obtain ⟨p, e5, p5⟩ := C68_multiply E bT aT ht (alloc_perm (by rw [m3.1]; exact ⟨qb.2.1, qb.1, qb.2.2⟩))
    (alloc_perm (by rw [m2.1]; exact ⟨qa.2.1, qa.1, qa.2.2⟩)) (by rw [m3.1]; exact hdb) (by rw [m2.1]; exact hda) (by rw [m2.1, m3.1]; exact h1.symm)
  refine ⟨ab, abT, aT, bT, p, e1, e4, e2, e3, e5, ?_⟩
  have trans : ∀ (u uT : Img (Px t)), IsMoved (fun p => ⟨p.y, p.x, p.z⟩) ⟨u.dims.h, u.dims.w, u.dims.d⟩ u uT → u.dims.d = 1 →
      ∀ x y, x < u.dims.w → y < u.dims.h → uT.px y x 0 = u.px x y 0 := by
    intro u uT hm hd x y hx hy
    have h := hm.2 ⟨x, y, 0⟩
    rw [Img.at?_some u _ (by unfold Img.In; dsimp only; omega), Img.at?_some uT _ (by rw [hm.1]; unfold Img.In; dsimp only; omega)] at h
    simpa using h
  refine product_unique (a := bT) (b := aT) ⟨?_, ?_⟩ p5
  · rw [m4.1, p1.1, m3.1, m2.1]
  · intro x y hx hy
    rw [m2.1] at hx
    rw [m3.1] at hy
    dsimp only at hx hy
    have h := p1.2 y x hy hx
    rw [trans ab abT m4 (by rw [p1.1]) y x (by rw [p1.1]; exact hy) (by rw [p1.1]; exact hx)]
    refine h.trans (dvd_of_eq ?_)
    congr 1
    rw [m3.1]
    dsimp only
    rw [← h1]
    refine Finset.sum_congr rfl fun i hi => ?_
    have hi := Finset.mem_range.mp hi
    rw [trans b bT m3 hdb y i hy (by omega), trans a aT m2 hda i x hi hx, mul_comm]

theorem C68_errors (E : Env (Px t)) (a b : Img (Px t)) :
    (a.alloc = false ∨ b.alloc = false → matMultiply E a b = some (.error errBadAllocation)) ∧
    (a.alloc = true → b.alloc = true → a.dims.d ≠ 1 ∨ b.dims.d ≠ 1 → matMultiply E a b = some (.error errNotImplemented)) ∧
    (a.alloc = true → b.alloc = true → a.dims.d = 1 → b.dims.d = 1 → a.dims.w ≠ b.dims.h → matMultiply E a b = some (.error errRes)) := by
  refine ⟨fun h => ?_, fun h1 h2 h3 => ?_, fun h1 h2 h3 h4 h5 => ?_⟩
  · unfold matMultiply; rw [if_pos h]
  · unfold matMultiply; rw [if_neg (by simp [h1, h2]), if_pos h3]
  · unfold matMultiply; rw [if_neg (by simp [h1, h2]), if_neg (by simp [h3, h4]), if_pos h5]

/-- **C68** (unknown orders). -/
theorem C68_order_error (E : Env α) (im out : Img α) (o : String) (ha : im.alloc = true) (hb : out.alloc = true)
    (ho : o ∉ ["", "xyz", "xy", "yxz", "yx", "xzy", "yzx", "zxy", "zyx"]) : matTranspose E im out o = .error errRes := by
  simp only [List.mem_cons, List.not_mem_nil, or_false, not_or] at ho
  unfold matTranspose transLut
  simp [ha, hb, ho]

def exEnvMat (t : PT) : Env (Px t) := ⟨1, true, fun _ => t.wrap 9, fun _ => t.wrap 9⟩

example : ((matMultiply (exEnvMat UINT8) ⟨⟨2, 2, 1⟩, fun i => UINT8.wrap (i + 1)⟩ ⟨⟨3, 2, 1⟩, fun i => UINT8.wrap (50 * i)⟩).map fun e =>
    e.toOption.map fun c => c.toRows.map (·.map (·.map Px.val))) = some (some [[[44, 194, 88], [88, 182, 20]]]) := by decide

/-- **C68** (exception). Two `UINT16` pixels are multiplied as `int`, which overflows. -/
theorem C68_uint16_ub : matMultiply (exEnvMat UINT16) ⟨⟨1, 1, 1⟩, fun _ => ⊤⟩ ⟨⟨1, 1, 1⟩, fun _ => ⊤⟩ = none := by
  have : (matMultiply (exEnvMat UINT16) ⟨⟨1, 1, 1⟩, fun _ => ⊤⟩ ⟨⟨1, 1, 1⟩, fun _ => ⊤⟩).isNone = true := by decide
  exact Option.isNone_iff_eq_none.mp this

/-- **C68** (exception). With the first matrix as output, the values already written are used as factors. -/
theorem C68_inplace_bug : ∃ (a b r : Img (Px UINT8)), matMultiplySelf (exEnvMat UINT8) a b = some (.ok r) ∧ ¬ IsProduct a b r := by
  have h : ((matMultiplySelf (exEnvMat UINT8) ⟨⟨2, 1, 1⟩, fun i => UINT8.wrap (i + 1)⟩
      ⟨⟨2, 2, 1⟩, fun i => UINT8.wrap (if i = 1 ∨ i = 2 then 1 else 0)⟩).map fun e =>
      e.toOption.map fun c => (c.px 1 0 0).val) = some (some 2) := by decide
  cases hr : matMultiplySelf (exEnvMat UINT8) ⟨⟨2, 1, 1⟩, fun i => UINT8.wrap (i + 1)⟩
      ⟨⟨2, 2, 1⟩, fun i => UINT8.wrap (if i = 1 ∨ i = 2 then 1 else 0)⟩ with
  | none => rw [hr] at h; cases h
  | some e =>
    rw [hr] at h
    cases e with
    | error c => simp [Except.toOption] at h
    | ok r =>
      simp only [Option.map_some, Except.toOption, Option.some.injEq] at h
      refine ⟨_, _, r, hr, fun hp => ?_⟩
      have := hp.2 1 0 (by decide) (by decide)
      rw [h] at this
      revert this
      decide

end Smil
