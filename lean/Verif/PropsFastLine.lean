import Verif.FastLineUse
import Verif.PropsBuild

/-!
# C64: dilations and erosions along lines

The specification: the segment of half-length `r` around a pixel, along the digital line of slope `dy / dx` that passes
through it, where the line of the origin goes up by `⌈x * |dy| / |dx|⌉`.
-/

namespace Smil
variable {α : Type} [LinearOrder α]

/-- The least integer that is at least `a / b`. -/
def ceilDiv (a b : Int) : Int := -(-a / b)

/-- `q` is on the segment of half-length `r` around `p` in the direction `(dx, dy)`. -/
def segRel (dx dy : Int) (r : Nat) (q p : IntPoint) : Prop :=
  q.z = p.z ∧
  if dy.natAbs ≤ dx.natAbs then
    (q.x ≤ p.x + r ∧ p.x ≤ q.x + r) ∧
      q.y - p.y = (dx * dy).sign * (ceilDiv (q.x * dy.natAbs) dx.natAbs - ceilDiv (p.x * dy.natAbs) dx.natAbs)
  else
    (q.y ≤ p.y + r ∧ p.y ≤ q.y + r) ∧
      q.x - p.x = (dx * dy).sign * (ceilDiv (q.y * dx.natAbs) dy.natAbs - ceilDiv (p.y * dx.natAbs) dy.natAbs)

theorem segRel_symm {dx dy : Int} {r : Nat} {q p : IntPoint} : segRel dx dy r q p ↔ segRel dx dy r p q := by
  have h : ∀ {q p : IntPoint}, segRel dx dy r q p → segRel dx dy r p q := by
    intro q p
    unfold segRel
    split_ifs with hc
    · rintro ⟨h1, ⟨h2, h3⟩, h4⟩
      exact ⟨h1.symm, ⟨h3, h2⟩, by linarith⟩
    · rintro ⟨h1, ⟨h2, h3⟩, h4⟩
      exact ⟨h1.symm, ⟨h3, h2⟩, by linarith⟩
  exact ⟨h, h⟩

theorem ceilDiv_zero (b : Int) : ceilDiv 0 b = 0 := by simp [ceilDiv]

/-- Horizontal segments. -/
theorem segRel_hor (dx : Int) (r : Nat) (q p : IntPoint) :
    segRel dx 0 r q p ↔ q.z = p.z ∧ q.y = p.y ∧ q.x ≤ p.x + r ∧ p.x ≤ q.x + r := by
  unfold segRel
  rw [if_pos (by simp)]
  simp only [mul_zero, Int.sign_zero, zero_mul]
  omega

/-- Vertical segments. -/
theorem segRel_ver (dy : Int) (hdy : dy ≠ 0) (r : Nat) (q p : IntPoint) :
    segRel 0 dy r q p ↔ q.z = p.z ∧ q.x = p.x ∧ q.y ≤ p.y + r ∧ p.y ≤ q.y + r := by
  unfold segRel
  rw [if_neg (by simp; omega)]
  simp only [zero_mul, Int.sign_zero]
  omega

/-- Segments along a diagonal. -/
theorem segRel_diag (dx dy : Int) (h : dx.natAbs = dy.natAbs) (hdx : dx ≠ 0) (r : Nat) (q p : IntPoint) :
    segRel dx dy r q p ↔ q.z = p.z ∧ (q.x ≤ p.x + r ∧ p.x ≤ q.x + r) ∧ q.y - p.y = (dx * dy).sign * (q.x - p.x) := by
  have e : ∀ a : Int, ceilDiv (a * dy.natAbs) dx.natAbs = a := by
    intro a
    unfold ceilDiv
    rw [h, ← neg_mul, Int.mul_ediv_cancel _ (by omega)]
    omega
  unfold segRel
  rw [if_pos (by omega), e, e]

/-- The directions and sizes that the code handles. -/
def LineOk (D : Dims) (dx dy : Int) (r : Nat) : Prop :=
  (dy = 0 ∧ D.w ≠ 1 ∧ D.w ≠ 2 * r + 1) ∨ (dy ≠ 0 ∧ dx = 0 ∧ D.h ≠ 1 ∧ D.h ≠ 2 * r + 1) ∨
    (dx ≠ 0 ∧ dx = -dy) ∨ (0 < dx * dy ∧ dx.natAbs ≠ dy.natAbs)

theorem sign_pos {dx dy : Int} (h : 0 < dx * dy) : (dx > 0 ∧ dy > 0) ∨ (dx < 0 ∧ dy < 0) := by
  rcases lt_trichotomy dx 0 with h1 | h1 | h1
  · exact .inr ⟨h1, by nlinarith⟩
  · rw [h1] at h; simp at h
  · exact .inl ⟨h1, by nlinarith⟩

/-- The body of `lineDilate`, on any direction and size it handles. -/
theorem gray_spec (im : Img α) (dx dy : Int) (r : Nat) (raw : Nat → VH α) (same : Bool) (o : Nat → α)
    (hd : im.dims.d = 1) (ha : im.alloc = true) (hw : im.dims.w < 2 ^ 31) (hh : im.dims.h < 2 ^ 31) (hr : r < 2 ^ 30)
    (hok : LineOk im.dims dx dy r) (hs : same = true → ∀ i, o i = im.buf i) :
    ∃ b', grayDilate im.dims.w im.dims.h (2 * r + 1) dx dy raw same im.buf o = some b' ∧
      IsDilBy (segRel dx dy r) im ⟨im.dims, b'⟩ := by
  obtain ⟨hw0, hh0⟩ := alloc_pos ha
  rcases hok with ⟨rfl, h1, h2⟩ | ⟨hdy, rfl, h1, h2⟩ | ⟨hdx, hdd⟩ | ⟨hpos, hne⟩
  · obtain ⟨b', e, h⟩ := run_hor im.dims.w im.dims.h r raw same im.buf o dx hw0 (by omega) (by omega) h1 h2
      (fun h i _ => hs h i)
    refine ⟨b', e, isDilBy_of_lub im b' fun p hp => ?_⟩
    refine run_imageX im hd b' r _ _ _ h ?_ p hp ?_
    · intro q p hq hp i hi hb
      obtain ⟨-, z1, x1, y1, -, -⟩ := off_flat hd hp
      obtain ⟨-, z2, x2, y2, -, -⟩ := off_flat hd hq
      rw [segRel_hor]
      omega
    · obtain ⟨-, z1, x1, y1, -, h6⟩ := off_flat hd hp
      exact ⟨p.y.toNat, h6, by omega⟩
  · obtain ⟨b', e, h⟩ := run_ver im.dims.w im.dims.h r raw same im.buf o dy hdy hh0 (by omega) (by omega) h1 h2
      (fun h i _ => hs h i)
    refine ⟨b', e, isDilBy_of_lub im b' fun p hp => ?_⟩
    refine run_imageY im hd b' r _ _ _ h ?_ p hp ?_
    · intro q p hq hp i hi hb
      obtain ⟨-, z1, x1, y1, -, -⟩ := off_flat hd hp
      obtain ⟨-, z2, x2, y2, -, -⟩ := off_flat hd hq
      rw [segRel_ver _ hdy]
      omega
    · obtain ⟨-, z1, x1, y1, h6, -⟩ := off_flat hd hp
      exact ⟨p.x.toNat, h6, by omega⟩
  · obtain ⟨ls, K, a0, n, g1, g2, g3⟩ := famMinus im.dims.w im.dims.h 1 im.dims.w (lineNegDiag im.dims.w im.dims.h 0)
      hw0 hh0 (fun s hs => lineNegDiag_spec _ _ hh0 s hs)
    obtain ⟨b', e, h, -⟩ := run_slant im.dims.w im.dims.h r raw same im.buf o dx dy hdx (by omega) _ _ _ _
      (offOk_hor _ _) (le_max_left _ _) (by omega) (by omega) ls K _ a0 n (by
        unfold slantLines
        rw [if_pos (by omega), if_pos hdd]
        exact g1) g2 (fun h i _ => hs h i)
    refine ⟨b', e, isDilBy_of_lub im b' fun p hp => ?_⟩
    refine run_imageX im hd b' r _ _ _ h ?_ p hp ?_
    · intro q p hq hp i hi hb
      obtain ⟨-, z1, x1, y1, -, -⟩ := off_flat hd hp
      obtain ⟨-, z2, x2, y2, -, -⟩ := off_flat hd hq
      rw [segRel_diag dx dy (by omega) hdx]
      have hsg : (dx * dy).sign = -1 := by
        rw [Int.sign_eq_neg_one_iff_neg]
        rw [hdd]
        rcases lt_or_gt_of_ne hdx with h | h <;> nlinarith
      rw [hsg]
      omega
    · obtain ⟨-, z1, x1, y1, h5, h6⟩ := off_flat hd hp
      obtain ⟨i, hi, hb⟩ := g3 _ h5 _ h6
      exact ⟨i, hi, by omega⟩
  · have hsg : (dx * dy).sign = 1 := Int.sign_eq_one_of_pos hpos
    have hsp := sign_pos hpos
    have hdx : dx ≠ 0 := by omega
    have hdy : dy ≠ 0 := by omega
    by_cases hm : dx.natAbs > dy.natAbs
    · have hb := bresFn_bresC dx.natAbs dy.natAbs (by omega) (by omega)
      obtain ⟨ls, K, a0, n, g1, g2, g3⟩ := famPlus im.dims.w im.dims.h 1 im.dims.w
        (bresLine dx.natAbs dy.natAbs 1 im.dims.w im.dims.w im.dims.h 0) _ hb ((im.dims.h : Int) - 1) hw0 (by omega)
        (by omega) (fun s => by
          have := bresLine_spec dx.natAbs dy.natAbs im.dims.w im.dims.h 1 im.dims.w (by omega) (by omega) s
          exact_mod_cast this)
      obtain ⟨b', e, h, -⟩ := run_slant im.dims.w im.dims.h r raw same im.buf o dx dy hdx hdy _ _ _ _
        (offOk_hor _ _) (le_max_left _ _) (by omega) (by omega) ls K _ a0 n (by
          unfold slantLines
          rw [if_neg hne, if_pos hm, if_pos hsp]
          exact g1) g2 (fun h i _ => hs h i)
      refine ⟨b', e, isDilBy_of_lub im b' fun p hp => ?_⟩
      refine run_imageX im hd b' r _ _ _ h ?_ p hp ?_
      · intro q p hq hp i hi hb
        obtain ⟨-, z1, x1, y1, -, -⟩ := off_flat hd hp
        obtain ⟨-, z2, x2, y2, -, -⟩ := off_flat hd hq
        unfold segRel ceilDiv
        rw [if_pos (by omega), hsg]
        have e1 := bresC_ceil dx.natAbs dy.natAbs p.x.toNat (by omega)
        have e2 := bresC_ceil dx.natAbs dy.natAbs q.x.toNat (by omega)
        rw [Int.toNat_of_nonneg x1] at e1
        rw [Int.toNat_of_nonneg x2] at e2
        rw [← e1, ← e2]
        omega
      · obtain ⟨-, z1, x1, y1, h5, h6⟩ := off_flat hd hp
        obtain ⟨i, hi, hb⟩ := g3 _ h5 _ h6 (by omega)
        exact ⟨i, hi, by omega⟩
    · have hb := bresFn_bresC dy.natAbs dx.natAbs (by omega) (by omega)
      obtain ⟨ls, K, a0, n, g1, g2, g3⟩ := famPlus im.dims.h im.dims.w im.dims.w 1
        (bresLine dy.natAbs dx.natAbs im.dims.w 1 im.dims.h im.dims.w 0) _ hb ((im.dims.w : Int) - 1) hh0 (by omega)
        (by omega) (fun s => by
          have := bresLine_spec dy.natAbs dx.natAbs im.dims.h im.dims.w im.dims.w 1 (by omega) (by omega) s
          exact_mod_cast this)
      obtain ⟨b', e, h, -⟩ := run_slant im.dims.w im.dims.h r raw same im.buf o dx dy hdx hdy _ _ _ _
        (offOk_ver _ _) (le_max_right _ _) (by omega) (by omega) ls K _ a0 n (by
          unfold slantLines
          rw [if_neg hne, if_neg hm, if_pos hsp, Nat.add_comm im.dims.w im.dims.h]
          exact g1) g2 (fun h i _ => hs h i)
      refine ⟨b', e, isDilBy_of_lub im b' fun p hp => ?_⟩
      refine run_imageY im hd b' r _ _ _ h ?_ p hp ?_
      · intro q p hq hp i hi hb
        obtain ⟨-, z1, x1, y1, -, -⟩ := off_flat hd hp
        obtain ⟨-, z2, x2, y2, -, -⟩ := off_flat hd hq
        unfold segRel ceilDiv
        rw [if_neg (by omega), hsg]
        have e1 := bresC_ceil dy.natAbs dx.natAbs p.y.toNat (by omega)
        have e2 := bresC_ceil dy.natAbs dx.natAbs q.y.toNat (by omega)
        rw [Int.toNat_of_nonneg y1] at e1
        rw [Int.toNat_of_nonneg y2] at e2
        rw [← e1, ← e2]
        omega
      · obtain ⟨-, z1, x1, y1, h5, h6⟩ := off_flat hd hp
        obtain ⟨i, hi, hb⟩ := g3 _ h6 _ h5 (by omega)
        exact ⟨i, hi, by omega⟩

/-- **C64**, dilation. On every 2D image, for every radius and for every direction the code handles (see `LineOk`: lines
and columns of a length other than 1 and `2 * r + 1`, the descending diagonal, all slopes with `dx * dy > 0` but the
diagonal), `lineDilate` returns at each pixel the greatest value of the segment of half-length `r` around it, in place
or not, whatever the arrays and the output held before. (partial: the other directions, see `C64_posdiag`,
`C64_width_ub` and the `_bug` theorems below; the computation of `dx`, `dy` and `r` from the angle.) -/
theorem C64_dilate_partial (E : Env α) (same : Bool) (dx dy : Int) (r : Nat) (raw : Nat → VH α) (im out : Img α)
    (h : Accepts E im out) (hd : im.dims.d = 1) (hw : im.dims.w < 2 ^ 31) (hh : im.dims.h < 2 ^ 31) (hr : r < 2 ^ 30)
    (hok : LineOk im.dims dx dy r) :
    ∃ res, lineDilate E same dx dy r raw im out = some (.ok res) ∧ IsDilBy (segRel dx dy r) im res := by
  obtain ⟨o, ho, e⟩ := lineDilate_of (same := same) (dx := dx) (dy := dy) (r := r) (raw := raw) h hd
  obtain ⟨b', e', hb⟩ := gray_spec im dx dy r raw same (if same then im.buf else o.buf) hd h.1 hw hh hr hok
    (by intro hs i; rw [if_pos hs])
  exact ⟨_, by rw [e, e']; rfl, hb⟩

/-- The rejections of `lineDilate`. -/
theorem C64_errors (E : Env α) (same : Bool) (dx dy : Int) (r : Nat) (raw : Nat → VH α) (im out : Img α) :
    (im.alloc = false ∨ out.alloc = false → lineDilate E same dx dy r raw im out = some (.error errBadAllocation)) ∧
    (im.alloc = true → out.alloc = true → out.dims ≠ im.dims → E.auto = false →
      lineDilate E same dx dy r raw im out = some (.error errBadSize)) ∧
    (Accepts E im out → im.dims.d > 1 → lineDilate E same dx dy r raw im out = some (.error (-100))) := by
  refine ⟨fun h => ?_, fun h1 h2 h3 h4 => ?_, fun h hd => ?_⟩
  · unfold lineDilate checkSize
    rw [if_pos h]
  · unfold lineDilate checkSize
    rw [if_neg (by simp [h1, h2]), if_neg h3, if_neg (by simp [h4])]
  · obtain ⟨o, ho, -⟩ := checkSize_acc E im out h
    unfold lineDilate
    rw [ho]
    dsimp only
    rw [if_pos hd]

/-- The ascending diagonal: every pixel is right but the last one of the first column, which keeps what the output held
before (line 459 begins with `height - 2`). -/
theorem C64_posdiag_bug (E : Env α) (same : Bool) (dx : Int) (hdx : dx ≠ 0) (r : Nat) (raw : Nat → VH α) (im out : Img α)
    (h : Accepts E im out) (hdim : out.dims = im.dims) (hd : im.dims.d = 1) (hw : im.dims.w < 2 ^ 31)
    (hh : im.dims.h < 2 ^ 31) (hr : r < 2 ^ 30) :
    ∃ res, lineDilate E same dx dx r raw im out = some (.ok res) ∧ res.dims = im.dims ∧
      (∀ p, Img.In im.dims p → p ≠ ⟨0, im.dims.h - 1, 0⟩ →
        ∃ v, res.at? p = some v ∧ IsLUB { u | ∃ q, segRel dx dx r q p ∧ im.at? q = some u } v) ∧
      res.at? ⟨0, im.dims.h - 1, 0⟩ = (if same then im else out).at? ⟨0, im.dims.h - 1, 0⟩ := by
  obtain ⟨hw0, hh0⟩ := alloc_pos h.1
  obtain ⟨o, ho, e⟩ := lineDilate_of (same := same) (dx := dx) (dy := dx) (r := r) (raw := raw) h hd
  have hoo : o = out := by
    unfold checkSize at ho
    rw [if_neg (by simp [h.1, h.2.1]), if_pos hdim] at ho
    cases ho; rfl
  subst hoo
  obtain ⟨ls, K, a0, n, g1, g2, g3⟩ := famPlus im.dims.w im.dims.h 1 im.dims.w (linePosDiag im.dims.w im.dims.h 0) id
    bresFn_id ((im.dims.h : Int) - 2) hw0 (by omega) (by omega) (fun s => by
      simpa using linePosDiag_spec im.dims.w im.dims.h s)
  obtain ⟨b', e', hb, hn⟩ := run_slant im.dims.w im.dims.h r raw same im.buf (if same then im.buf else o.buf) dx dx hdx hdx
    _ _ _ _ (offOk_hor _ _) (le_max_left _ _) (by omega) (by omega) ls K _ a0 n (by
      unfold slantLines
      rw [if_pos rfl, if_neg (by omega)]
      exact g1) g2 (by intro hs i _; rw [if_pos hs])
  refine ⟨⟨im.dims, b'⟩, by rw [e, e']; rfl, rfl, fun p hp hne => ?_, ?_⟩
  · refine ⟨_, Img.buf_offOf (⟨im.dims, b'⟩ : Img α) p hp, ?_⟩
    refine run_imageX im hd b' r _ _ _ hb ?_ p hp ?_
    · intro q p hq hp i hi hb
      obtain ⟨-, z1, x1, y1, -, -⟩ := off_flat hd hp
      obtain ⟨-, z2, x2, y2, -, -⟩ := off_flat hd hq
      rw [segRel_diag dx dx rfl hdx]
      have hsg : (dx * dx).sign = 1 := by
        apply Int.sign_eq_one_of_pos
        rcases lt_or_gt_of_ne hdx with h | h <;> nlinarith
      rw [hsg]
      simp only [id] at hb ⊢
      omega
    · obtain ⟨-, z1, x1, y1, h5, h6⟩ := off_flat hd hp
      have hle : p.y - p.x ≤ (im.dims.h : Int) - 2 := by
        by_contra hc
        apply hne
        obtain ⟨px, py, pz⟩ := p
        simp only at *
        have : px = 0 := by omega
        have : py = im.dims.h - 1 := by omega
        subst z1; simp_all
      obtain ⟨i, hi, hb⟩ := g3 _ h5 _ h6 (by simp only [id]; omega)
      exact ⟨i, hi, by simp only [id] at hb ⊢; omega⟩
  · have hin : Img.In im.dims ⟨0, im.dims.h - 1, 0⟩ := by unfold Img.In; simp only; omega
    rw [Img.buf_offOf (⟨im.dims, b'⟩ : Img α) _ hin]
    have hoff := (off_flat hd hin).1
    have hv := hn 0 hw0 (im.dims.h - 1) (by omega) (by intro i hi; simp only [id]; omega)
    have e1 : offOf im.dims ⟨0, im.dims.h - 1, 0⟩ = 0 * 1 + (im.dims.h - 1) * im.dims.w := by
      rw [hoff]
      simp only [Int.toNat_zero]
      congr 2
      omega
    dsimp only
    rw [e1, hv]
    cases same with
    | true =>
      simp only [if_true]
      rw [Img.buf_offOf im _ hin, e1]
    | false =>
      simp only [Bool.false_eq_true, if_false]
      rw [Img.buf_offOf o _ (hdim ▸ hin), hdim, e1]

end Smil
