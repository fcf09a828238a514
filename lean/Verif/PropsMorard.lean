import Verif.MorardUse
import Verif.PropsFastLine

/-!
# C65: openings along lines

The specification: a pixel of the opening is the greatest level that some run of at least `len` consecutive pixels of
its line stays above, the pixel being on the run; a line that is shorter counts as a whole.
-/

namespace Smil
variable {α : Type} [LinearOrder α]

/-- The coordinate that grows along a line of direction `(dx, dy)`. -/
def majorOf (dx dy : Int) (p : IntPoint) : Int := if dy.natAbs ≤ dx.natAbs then p.x else p.y

/-- The point with the major coordinate `a` of the digital line of direction `(dx, dy)` through `p`. -/
def linePt (dx dy : Int) (p : IntPoint) (a : Int) : IntPoint :=
  if dy.natAbs ≤ dx.natAbs then
    ⟨a, p.y + (dx * dy).sign * (ceilDiv (a * dy.natAbs) dx.natAbs - ceilDiv (p.x * dy.natAbs) dx.natAbs), p.z⟩
  else ⟨p.x + (dx * dy).sign * (ceilDiv (a * dx.natAbs) dy.natAbs - ceilDiv (p.y * dx.natAbs) dy.natAbs), a, p.z⟩

/-- All pixels of `im` from `a` to `c` on the line through `p` exist and are at least `u`. -/
def RunAbove (dx dy : Int) (im : Img α) (p : IntPoint) (a c : Int) (u : α) : Prop :=
  ∀ m, a ≤ m → m ≤ c → ∃ w, im.at? (linePt dx dy p m) = some w ∧ u ≤ w

/-- `out` is the opening of `im` by runs of `len` pixels in the direction `(dx, dy)`. -/
def IsRunOpen (dx dy len : Int) (im out : Img α) : Prop :=
  out.dims = im.dims ∧ ∀ p, Img.In im.dims p → ∃ v, out.at? p = some v ∧
    IsGreatest { u | ∃ a c, a ≤ majorOf dx dy p ∧ majorOf dx dy p ≤ c ∧
      (len ≤ c + 1 - a ∨ (¬ Img.In im.dims (linePt dx dy p (a - 1)) ∧ ¬ Img.In im.dims (linePt dx dy p (c + 1)))) ∧
      RunAbove dx dy im p a c u } v

theorem linePt_self (dx dy : Int) (p : IntPoint) : linePt dx dy p (majorOf dx dy p) = p := by
  unfold linePt majorOf
  split_ifs <;> simp

theorem majorOf_linePt (dx dy : Int) (p : IntPoint) (a : Int) : majorOf dx dy (linePt dx dy p a) = a := by
  unfold linePt majorOf
  split_ifs <;> rfl

theorem linePt_linePt (dx dy : Int) (p : IntPoint) (a b : Int) : linePt dx dy (linePt dx dy p a) b = linePt dx dy p b := by
  unfold linePt
  split_ifs with h
  · simp only
    congr 1
    ring
  · simp only
    congr 1
    ring

/-- Horizontal lines. -/
theorem linePt_hor (dx : Int) (p : IntPoint) (a : Int) : linePt dx 0 p a = ⟨a, p.y, p.z⟩ := by
  unfold linePt
  rw [if_pos (by simp)]
  simp

/-- Columns. -/
theorem linePt_ver (dy : Int) (hdy : dy ≠ 0) (p : IntPoint) (a : Int) : linePt 0 dy p a = ⟨p.x, a, p.z⟩ := by
  unfold linePt
  rw [if_neg (by simp; omega)]
  simp

/-- Diagonals. -/
theorem linePt_diag (dx dy : Int) (h : dx.natAbs = dy.natAbs) (hdx : dx ≠ 0) (p : IntPoint) (a : Int) :
    linePt dx dy p a = ⟨a, p.y + (dx * dy).sign * (a - p.x), p.z⟩ := by
  have e : ∀ a : Int, ceilDiv (a * dy.natAbs) dx.natAbs = a := by
    intro a
    unfold ceilDiv
    rw [h, ← neg_mul, Int.mul_ediv_cancel _ (by omega)]
    omega
  unfold linePt
  rw [if_pos (by omega), e, e]

/-- The directions that the code handles. -/
def MorOk (dx dy r : Int) : Prop :=
  (dx = 0 ∧ dy ≠ 0) ∨ (dx ≠ 0 ∧ dy = 0) ∨ (dx ≠ 0 ∧ dx = -dy) ∨
    (0 < dx * dy ∧ ((dy.natAbs < dx.natAbs ∧ dx.natAbs ≤ 2 * r * dy.natAbs) ∨
      (dx.natAbs < dy.natAbs ∧ dy.natAbs ≤ 2 * r * dx.natAbs)))

/-- From the lines of a family along x to the image. -/
theorem famX (im : Img α) (hd : im.dims.d = 1) (dx dy len : Int) (β : Nat → Int) (p : IntPoint) (hp : Img.In im.dims p)
    (hm : majorOf dx dy p = p.x) (hβ : ∀ m : Nat, linePt dx dy p m = ⟨m, β m, 0⟩) (hneg : ∀ m : Int, (linePt dx dy p m).x = m)
    (v : α) (h : FamOpen im.dims.w im.dims.h 1 im.dims.w len β im.buf p.x.toNat v) :
    IsGreatest { u | ∃ a c, a ≤ majorOf dx dy p ∧ majorOf dx dy p ≤ c ∧
      (len ≤ c + 1 - a ∨ (¬ Img.In im.dims (linePt dx dy p (a - 1)) ∧ ¬ Img.In im.dims (linePt dx dy p (c + 1)))) ∧
      RunAbove dx dy im p a c u } v := by
  have hin : ∀ m : Nat, Img.In im.dims (linePt dx dy p m) ↔ FamIn im.dims.w im.dims.h β m := by
    intro m
    rw [hβ]
    unfold Img.In FamIn
    simp only
    omega
  have hnn : ∀ m : Int, Img.In im.dims (linePt dx dy p m) → 0 ≤ m := by
    intro m hm
    have := hneg m
    unfold Img.In at hm
    omega
  have hbuf : ∀ m : Nat, FamIn im.dims.w im.dims.h β m →
      im.at? (linePt dx dy p m) = some (im.buf (m * 1 + (β m).toNat * im.dims.w)) := by
    intro m hh
    have hq := (hin m).2 hh
    rw [Img.buf_offOf im _ hq, (off_flat hd hq).1, hβ]
    simp only [Int.toNat_natCast]
  have hx := (off_flat hd hp).2.2.1
  rw [hm]
  constructor
  · obtain ⟨a1, a2, h1, h2, h3, h4⟩ := h.1
    refine ⟨a1, a2, by omega, by omega, ?_, ?_⟩
    · rcases h3 with h3 | ⟨h3, h3'⟩
      · exact .inl h3
      · refine .inr ⟨?_, ?_⟩
        · rcases h3 with h3 | h3
          · intro hh
            have := hnn _ hh
            omega
          · by_cases h0 : a1 = 0
            · intro hh
              have := hnn _ hh
              omega
            · rw [show (a1 : Int) - 1 = ((a1 - 1 : Nat) : Int) by omega, hin]
              exact h3
        · rw [show (a2 : Int) + 1 = ((a2 + 1 : Nat) : Int) by omega, hin]
          exact h3'
    · intro m g1 g2
      obtain ⟨k1, k2⟩ := h4 m.toNat (by omega) (by omega)
      refine ⟨_, ?_, k2⟩
      have := hbuf m.toNat k1
      rw [Int.toNat_of_nonneg (by omega)] at this
      exact this
  · rintro u ⟨a, c, h1, h2, h3, h4⟩
    have hrun : ∀ m, a ≤ m → m ≤ c → Img.In im.dims (linePt dx dy p m) := by
      intro m g1 g2
      obtain ⟨w, e, -⟩ := h4 m g1 g2
      exact Img.at?_eq_some_in _ _ _ e
    have ha := hnn a (hrun a le_rfl (by omega))
    refine h.2 ⟨a.toNat, c.toNat, by omega, by omega, ?_, fun m g1 g2 => ?_⟩
    · rcases h3 with h3 | ⟨h3, h3'⟩
      · left; omega
      · right
        refine ⟨?_, ?_⟩
        · by_cases h0 : a.toNat = 0
          · exact .inl h0
          · right
            rw [show a - 1 = ((a.toNat - 1 : Nat) : Int) by omega, hin] at h3
            exact h3
        · rw [show c + 1 = ((c.toNat + 1 : Nat) : Int) by omega, hin] at h3'
          exact h3'
    · have hI := (hin m).1 (hrun m (by omega) (by omega))
      obtain ⟨w, e, k⟩ := h4 m (by omega) (by omega)
      rw [hbuf m hI] at e
      cases e
      exact ⟨hI, k⟩

/-- From the lines of a family along y to the image. -/
theorem famY (im : Img α) (hd : im.dims.d = 1) (dx dy len : Int) (β : Nat → Int) (p : IntPoint) (hp : Img.In im.dims p)
    (hm : majorOf dx dy p = p.y) (hβ : ∀ m : Nat, linePt dx dy p m = ⟨β m, m, 0⟩) (hneg : ∀ m : Int, (linePt dx dy p m).y = m)
    (v : α) (h : FamOpen im.dims.h im.dims.w im.dims.w 1 len β im.buf p.y.toNat v) :
    IsGreatest { u | ∃ a c, a ≤ majorOf dx dy p ∧ majorOf dx dy p ≤ c ∧
      (len ≤ c + 1 - a ∨ (¬ Img.In im.dims (linePt dx dy p (a - 1)) ∧ ¬ Img.In im.dims (linePt dx dy p (c + 1)))) ∧
      RunAbove dx dy im p a c u } v := by
  have hin : ∀ m : Nat, Img.In im.dims (linePt dx dy p m) ↔ FamIn im.dims.h im.dims.w β m := by
    intro m
    rw [hβ]
    unfold Img.In FamIn
    simp only
    omega
  have hnn : ∀ m : Int, Img.In im.dims (linePt dx dy p m) → 0 ≤ m := by
    intro m hm
    have := hneg m
    unfold Img.In at hm
    omega
  have hbuf : ∀ m : Nat, FamIn im.dims.h im.dims.w β m →
      im.at? (linePt dx dy p m) = some (im.buf (m * im.dims.w + (β m).toNat * 1)) := by
    intro m hh
    have hq := (hin m).2 hh
    rw [Img.buf_offOf im _ hq, (off_flat hd hq).1, hβ]
    simp only [Int.toNat_natCast]
    rw [Nat.add_comm]
  have hx := (off_flat hd hp).2.2.2.1
  rw [hm]
  constructor
  · obtain ⟨a1, a2, h1, h2, h3, h4⟩ := h.1
    refine ⟨a1, a2, by omega, by omega, ?_, ?_⟩
    · rcases h3 with h3 | ⟨h3, h3'⟩
      · exact .inl h3
      · refine .inr ⟨?_, ?_⟩
        · rcases h3 with h3 | h3
          · intro hh
            have := hnn _ hh
            omega
          · by_cases h0 : a1 = 0
            · intro hh
              have := hnn _ hh
              omega
            · rw [show (a1 : Int) - 1 = ((a1 - 1 : Nat) : Int) by omega, hin]
              exact h3
        · rw [show (a2 : Int) + 1 = ((a2 + 1 : Nat) : Int) by omega, hin]
          exact h3'
    · intro m g1 g2
      obtain ⟨k1, k2⟩ := h4 m.toNat (by omega) (by omega)
      refine ⟨_, ?_, k2⟩
      have := hbuf m.toNat k1
      rw [Int.toNat_of_nonneg (by omega)] at this
      exact this
  · rintro u ⟨a, c, h1, h2, h3, h4⟩
    have hrun : ∀ m, a ≤ m → m ≤ c → Img.In im.dims (linePt dx dy p m) := by
      intro m g1 g2
      obtain ⟨w, e, -⟩ := h4 m g1 g2
      exact Img.at?_eq_some_in _ _ _ e
    have ha := hnn a (hrun a le_rfl (by omega))
    refine h.2 ⟨a.toNat, c.toNat, by omega, by omega, ?_, fun m g1 g2 => ?_⟩
    · rcases h3 with h3 | ⟨h3, h3'⟩
      · left; omega
      · right
        refine ⟨?_, ?_⟩
        · by_cases h0 : a.toNat = 0
          · exact .inl h0
          · right
            rw [show a - 1 = ((a.toNat - 1 : Nat) : Int) by omega, hin] at h3
            exact h3
        · rw [show c + 1 = ((c.toNat + 1 : Nat) : Int) by omega, hin] at h3'
          exact h3'
    · have hI := (hin m).1 (hrun m (by omega) (by omega))
      obtain ⟨w, e, k⟩ := h4 m (by omega) (by omega)
      rw [hbuf m hI] at e
      cases e
      exact ⟨hI, k⟩

theorem isRunOpen_of (im : Img α) (dx dy len : Int) (b' : Nat → α)
    (h : ∀ p, Img.In im.dims p → IsGreatest { u | ∃ a c, a ≤ majorOf dx dy p ∧ majorOf dx dy p ≤ c ∧
      (len ≤ c + 1 - a ∨ (¬ Img.In im.dims (linePt dx dy p (a - 1)) ∧ ¬ Img.In im.dims (linePt dx dy p (c + 1)))) ∧
      RunAbove dx dy im p a c u } (b' (offOf im.dims p))) : IsRunOpen dx dy len im ⟨im.dims, b'⟩ :=
  ⟨rfl, fun p hp => ⟨_, Img.buf_offOf (⟨im.dims, b'⟩ : Img α) p hp, h p hp⟩⟩

/-- The body of `ImFastLineOpen`. -/
theorem mor_spec (im : Img α) (dx dy r : Int) (raw : MorSt α) (same : Bool) (o : Nat → α) (hd : im.dims.d = 1)
    (ha : im.alloc = true) (hst : StackOk α (max im.dims.w im.dims.h)) (hok : MorOk dx dy r)
    (hs : same = true → ∀ i, o i = im.buf i) :
    ∃ b', morOpenBuf im.dims.count im.dims.w im.dims.h r dx dy same raw im.buf o = some b' ∧
      IsRunOpen dx dy (2 * r + 1) im ⟨im.dims, b'⟩ := by
  obtain ⟨hw0, hh0⟩ := alloc_pos ha
  have hN : im.dims.count = im.dims.w * im.dims.h := by unfold Dims.count; rw [hd]; ring
  have hstw : StackOk α im.dims.w := hst.imp (fun h => by omega) id
  have hsth : StackOk α im.dims.h := hst.imp (fun h => by omega) id
  have hsz : r * 2 + 1 = 2 * r + 1 := by ring
  unfold morOpenBuf
  dsimp only
  rw [hN, hsz]
  rcases hok with ⟨rfl, hdy⟩ | ⟨hdx, rfl⟩ | ⟨hdx, hdd⟩ | ⟨hpos, hne⟩
  · obtain ⟨s', e, h, -⟩ := fam_open im.dims.h im.dims.w im.dims.w 1 (im.dims.w * im.dims.h) (max im.dims.w im.dims.h + 3) (2 * r + 1)
      same false im.buf ⟨raw.wp, raw.stk, raw.sz, raw.idx, o⟩ _ _ _ _ _ (famVer im.dims.w im.dims.h hh0) (offOk_ver _ _) (by omega)
      hsth (fun h i _ => hs h i) (by simp)
    simp only [Bool.false_eq_true, if_false, List.append_nil] at e
    refine ⟨s'.out, by rw [if_pos rfl, e]; rfl, isRunOpen_of _ _ _ _ _ fun p hp => ?_⟩
    obtain ⟨e1, e2, e3, e4, e5, e6⟩ := off_flat hd hp
    have hmaj : majorOf 0 dy p = p.y := by unfold majorOf; rw [if_neg (by simp; omega)]
    rw [e1, Nat.add_comm]
    refine famY im hd 0 dy _ (fun _ => (p.x.toNat : Int)) p hp hmaj (fun m => ?_) (fun m => ?_) _ (h p.x.toNat e5 _ e6 _ e5 rfl)
    · rw [linePt_ver dy hdy, e2, Int.toNat_of_nonneg e3]
    · rw [linePt_ver dy hdy]
  · obtain ⟨s', e, h, -⟩ := fam_open im.dims.w im.dims.h 1 im.dims.w (im.dims.w * im.dims.h) (max im.dims.w im.dims.h + 3) (2 * r + 1)
      same false im.buf ⟨raw.wp, raw.stk, raw.sz, raw.idx, o⟩ _ _ _ _ _ (famHor im.dims.w im.dims.h hw0) (offOk_hor _ _) (by omega)
      hstw (fun h i _ => hs h i) (by simp)
    simp only [Bool.false_eq_true, if_false, List.append_nil] at e
    refine ⟨s'.out, by rw [if_neg hdx, if_pos rfl, e]; rfl, isRunOpen_of _ _ _ _ _ fun p hp => ?_⟩
    obtain ⟨e1, e2, e3, e4, e5, e6⟩ := off_flat hd hp
    have hmaj : majorOf dx 0 p = p.x := by unfold majorOf; rw [if_pos (by simp)]
    rw [e1]
    refine famX im hd dx 0 _ (fun _ => (p.y.toNat : Int)) p hp hmaj (fun m => ?_) (fun m => ?_) _ (h p.y.toNat e6 _ e5 _ e6 rfl)
    · rw [linePt_hor, e2, Int.toNat_of_nonneg e4]
    · rw [linePt_hor]
  · have hdy : dy ≠ 0 := by omega
    obtain ⟨ls, K, a0, n, g1, g2, g3⟩ := famMinus im.dims.w im.dims.h 1 im.dims.w (lineNegDiag im.dims.w im.dims.h 0)
      hw0 hh0 (fun s hs => lineNegDiag_spec _ _ hh0 s hs)
    obtain ⟨s', e, h, -⟩ := fam_open im.dims.w im.dims.h 1 im.dims.w (im.dims.w * im.dims.h) (max im.dims.w im.dims.h + 3) (2 * r + 1)
      same true im.buf ⟨raw.wp, raw.stk, raw.sz, raw.idx, o⟩ _ _ _ _ _ g2 (offOk_hor _ _) (by omega)
      hstw (fun h i _ => hs h i) (fun _ => by
        obtain ⟨i, h1, h2⟩ := last_minus g2 hw0 hh0 g3
        exact ⟨i, h1, .inr h2⟩)
    simp only [if_true] at e
    have hls : morSlant im.dims.w im.dims.h dx dy = some (ls ++ [[]]) := by
      unfold morSlant
      rw [if_pos (by omega), if_pos hdd]
      exact morGen_of _ _ _ _ _ g1
    refine ⟨s'.out, by rw [if_neg hdx, if_neg hdy, hls, Option.bind_some, e]; rfl, isRunOpen_of _ _ _ _ _ fun p hp => ?_⟩
    obtain ⟨e1, e2, e3, e4, e5, e6⟩ := off_flat hd hp
    obtain ⟨i, hi, hb⟩ := g3 _ e5 _ e6
    have hmaj : majorOf dx dy p = p.x := by unfold majorOf; rw [if_pos (by omega)]
    have hsg : (dx * dy).sign = -1 := by
      rw [Int.sign_eq_neg_one_iff_neg]
      rw [hdd]
      rcases lt_or_gt_of_ne hdx with h | h <;> nlinarith
    rw [e1]
    refine famX im hd dx dy _ (fun m => (i : Int) - m) p hp hmaj (fun m => ?_) (fun m => ?_) _ (h i hi _ e5 _ e6 hb)
    · rw [linePt_diag dx dy (by omega) hdx, hsg, e2]
      congr 1
      omega
    · rw [linePt_diag dx dy (by omega) hdx]
  · have hsg : (dx * dy).sign = 1 := Int.sign_eq_one_of_pos hpos
    have hsp := sign_pos hpos
    have hdx : dx ≠ 0 := by omega
    have hdy : dy ≠ 0 := by omega
    rcases hne with ⟨hm, hg⟩ | ⟨hm, hg⟩
    · have hb := bresFn_bresC dx.natAbs dy.natAbs (by omega) (by omega)
      obtain ⟨ls, K, a0, n, g1, g2, g3⟩ := famPlus im.dims.w im.dims.h 1 im.dims.w
        (bresLine dx.natAbs dy.natAbs 1 im.dims.w im.dims.w im.dims.h 0) _ hb ((im.dims.h : Int) - 1) hw0 (by omega)
        (by omega) (fun s => by
          have := bresLine_spec dx.natAbs dy.natAbs im.dims.w im.dims.h 1 im.dims.w (by omega) (by omega) s
          exact_mod_cast this)
      obtain ⟨s', e, h, -⟩ := fam_open im.dims.w im.dims.h 1 im.dims.w (im.dims.w * im.dims.h) (max im.dims.w im.dims.h + 3) (2 * r + 1)
        same true im.buf ⟨raw.wp, raw.stk, raw.sz, raw.idx, o⟩ _ _ _ _ _ g2 (offOk_hor _ _) (by omega)
        hstw (fun h i _ => hs h i) (fun _ => last_plus (by omega) (by omega) g2 hw0 hh0 (by omega) g3 (by
          rw [show 2 * r + 1 - 1 = 2 * r by ring]
          exact hg))
      simp only [if_true] at e
      have hls : morSlant im.dims.w im.dims.h dx dy = some (ls ++ [[]]) := by
        unfold morSlant
        rw [if_neg (by omega), if_pos hm, if_pos hsp]
        exact morGen_of _ _ _ _ _ g1
      refine ⟨s'.out, by rw [if_neg hdx, if_neg hdy, hls, Option.bind_some, e]; rfl, isRunOpen_of _ _ _ _ _ fun p hp => ?_⟩
      obtain ⟨e1, e2, e3, e4, e5, e6⟩ := off_flat hd hp
      obtain ⟨i, hi, hb⟩ := g3 _ e5 _ e6 (by omega)
      have hmaj : majorOf dx dy p = p.x := by unfold majorOf; rw [if_pos (by omega)]
      rw [e1]
      refine famX im hd dx dy _ (fun m => (im.dims.h : Int) - 1 - i + bresC dx.natAbs dy.natAbs m) p hp hmaj (fun m => ?_)
        (fun m => ?_) _ (h i hi _ e5 _ e6 hb)
      · unfold linePt ceilDiv
        rw [if_pos (by omega), hsg, e2]
        have k1 := bresC_ceil dx.natAbs dy.natAbs p.x.toNat (by omega)
        have k2 := bresC_ceil dx.natAbs dy.natAbs m (by omega)
        rw [Int.toNat_of_nonneg e3] at k1
        rw [← k1, ← k2]
        congr 1
        omega
      · unfold linePt
        rw [if_pos (by omega)]
    · have hb := bresFn_bresC dy.natAbs dx.natAbs (by omega) (by omega)
      obtain ⟨ls, K, a0, n, g1, g2, g3⟩ := famPlus im.dims.h im.dims.w im.dims.w 1
        (bresLine dy.natAbs dx.natAbs im.dims.w 1 im.dims.h im.dims.w 0) _ hb ((im.dims.w : Int) - 1) hh0 (by omega)
        (by omega) (fun s => by
          have := bresLine_spec dy.natAbs dx.natAbs im.dims.h im.dims.w im.dims.w 1 (by omega) (by omega) s
          exact_mod_cast this)
      obtain ⟨s', e, h, -⟩ := fam_open im.dims.h im.dims.w im.dims.w 1 (im.dims.w * im.dims.h) (max im.dims.w im.dims.h + 3) (2 * r + 1)
        same true im.buf ⟨raw.wp, raw.stk, raw.sz, raw.idx, o⟩ _ _ _ _ _ g2 (offOk_ver _ _) (by omega)
        hsth (fun h i _ => hs h i) (fun _ => last_plus (by omega) (by omega) g2 hh0 hw0 (by omega) g3 (by
          rw [show 2 * r + 1 - 1 = 2 * r by ring]
          exact hg))
      simp only [if_true] at e
      have hls : morSlant im.dims.w im.dims.h dx dy = some (ls ++ [[]]) := by
        unfold morSlant
        rw [if_neg (by omega), if_neg (by omega), if_pos hsp, Nat.add_comm im.dims.w im.dims.h]
        exact morGen_of _ _ _ _ _ g1
      refine ⟨s'.out, by rw [if_neg hdx, if_neg hdy, hls, Option.bind_some, e]; rfl, isRunOpen_of _ _ _ _ _ fun p hp => ?_⟩
      obtain ⟨e1, e2, e3, e4, e5, e6⟩ := off_flat hd hp
      obtain ⟨i, hi, hb⟩ := g3 _ e6 _ e5 (by omega)
      have hmaj : majorOf dx dy p = p.y := by unfold majorOf; rw [if_neg (by omega)]
      rw [e1, Nat.add_comm]
      refine famY im hd dx dy _ (fun m => (im.dims.w : Int) - 1 - i + bresC dy.natAbs dx.natAbs m) p hp hmaj (fun m => ?_)
        (fun m => ?_) _ (h i hi _ e6 _ e5 hb)
      · unfold linePt ceilDiv
        rw [if_neg (by omega), hsg, e2]
        have k1 := bresC_ceil dy.natAbs dx.natAbs p.y.toNat (by omega)
        have k2 := bresC_ceil dy.natAbs dx.natAbs m (by omega)
        rw [Int.toNat_of_nonneg e4] at k1
        rw [← k1, ← k2]
        congr 1
        omega
      · unfold linePt
        rw [if_neg (by omega)]

/-- **C65**, on every 2D image and for every direction the code handles (see `MorOk`: lines, columns, the diagonal
`dx = -dy`, and all slopes with `dx * dy > 0` for runs that are long enough), `imFastLineOpen` returns the opening by runs
of `2 * r + 1` pixels, in place or not, whatever the stack, the table of offsets and the output held before. The lines
must be no longer than 256 pixels, or the pixels be among 256 values: the stack has 256 nodes. (partial: the other
directions, see the `_bug` and `_ub` theorems; the computation of `dx`, `dy` and `r` from the angle.) -/
theorem C65_open_partial (E : Env α) (same : Bool) (dx dy r : Int) (raw : MorSt α) (im out : Img α) (h : Accepts E im out)
    (hd : im.dims.d = 1) (hok : MorOk dx dy r)
    (hst : (im.dims.w ≤ 256 ∧ im.dims.h ≤ 256) ∨ ∃ rank : α → Nat, (∀ u v, u < v → rank u < rank v) ∧ ∀ v, rank v < 256) :
    ∃ res, fastLineOpen E same dx dy r raw im out = some (.ok res) ∧ IsRunOpen dx dy (2 * r + 1) im res := by
  obtain ⟨o, ho, -⟩ := checkSize_acc E im out h
  obtain ⟨b', e, hb⟩ := mor_spec im dx dy r raw same (if same then im.buf else o.buf) hd h.1
    (hst.imp (fun h => by omega) id) hok (by intro hs i; rw [if_pos hs])
  refine ⟨_, ?_, hb⟩
  unfold fastLineOpen
  rw [ho]
  dsimp only
  rw [e]
  rfl

/-- Images of 8 bits satisfy the condition on the stack. -/
theorem C65_bytes_partial (t : PT) (ht : t.bits ≤ 8) (E : Env (Px t)) (same : Bool) (dx dy r : Int) (raw : MorSt (Px t))
    (im out : Img (Px t)) (h : Accepts E im out) (hd : im.dims.d = 1) (hok : MorOk dx dy r) :
    ∃ res, fastLineOpen E same dx dy r raw im out = some (.ok res) ∧ IsRunOpen dx dy (2 * r + 1) im res := by
  refine C65_open_partial E same dx dy r raw im out h hd hok (.inr ⟨fun v => (v.val - t.lo).toNat, fun u v huv => ?_, fun v => ?_⟩)
  · have h1 := u.lo_le
    have h2 := Px.lt_iff.1 huv
    dsimp only
    omega
  · have h1 := v.lo_le
    have h2 := v.le_hi
    have h3 : t.hi - t.lo < 256 := by
      have h4 : 2 ^ t.bits ≤ 2 ^ 8 := Nat.pow_le_pow_right (by omega) ht
      have h5 : 2 ^ (t.bits - 1) ≤ 2 ^ 7 := Nat.pow_le_pow_right (by omega) (by omega)
      unfold PT.hi PT.lo
      split_ifs <;> omega
    dsimp only
    omega

/-- **C65**, the opening is determined by the image, the direction and the length. -/
theorem C65_unique (dx dy len : Int) (im r1 r2 : Img α) (h1 : IsRunOpen dx dy len im r1) (h2 : IsRunOpen dx dy len im r2) :
    r1.dims = r2.dims ∧ ∀ p, Img.In im.dims p → r1.at? p = r2.at? p := by
  refine ⟨h1.1.trans h2.1.symm, fun p hp => ?_⟩
  obtain ⟨u, e1, g1⟩ := h1.2 p hp
  obtain ⟨v, e2, g2⟩ := h2.2 p hp
  rw [e1, e2, g1.unique g2]

/-- **C65**, the opening is below the image. -/
theorem C65_antiext (dx dy len : Int) (im res : Img α) (h : IsRunOpen dx dy len im res) : Img.Le res im := by
  refine ⟨h.1, fun p u v e1 e2 => ?_⟩
  obtain ⟨u', e, ⟨a, c, h1, h2, -, h4⟩, -⟩ := h.2 p (Img.at?_eq_some_in _ _ _ e2)
  rw [e1] at e
  cases e
  obtain ⟨w, e3, hw⟩ := h4 _ h1 h2
  rw [linePt_self, e2] at e3
  cases e3
  exact hw

/-- **C65**, the opening is increasing. -/
theorem C65_mono (dx dy len : Int) (f g f' g' : Img α) (h : Img.Le f g) (hf : IsRunOpen dx dy len f f')
    (hg : IsRunOpen dx dy len g g') : Img.Le f' g' := by
  refine ⟨by rw [hf.1, hg.1, h.1], fun p u v e1 e2 => ?_⟩
  have hp : Img.In f.dims p := hf.1 ▸ Img.at?_eq_some_in _ _ _ e1
  obtain ⟨u', e, ⟨a, c, h1, h2, h3, h4⟩, -⟩ := hf.2 p hp
  obtain ⟨v', e', -, hub⟩ := hg.2 p (h.1 ▸ hp)
  rw [e1] at e
  cases e
  rw [e2] at e'
  cases e'
  refine hub ⟨a, c, h1, h2, h.1 ▸ h3, fun m g1 g2 => ?_⟩
  obtain ⟨w, e, hw⟩ := h4 m g1 g2
  have hq := Img.at?_eq_some_in _ _ _ e
  rw [h.1] at hq
  have e' := Img.at?_some g _ hq
  exact ⟨_, e', hw.trans (h.2 _ _ _ e e')⟩

/-- A run that is long enough is kept. -/
theorem run_kept {dx dy len : Int} {f g : Img α} (hg : IsRunOpen dx dy len f g) {p : IntPoint} {a c : Int} {u : α}
    (h3 : len ≤ c + 1 - a ∨ (¬ Img.In f.dims (linePt dx dy p (a - 1)) ∧ ¬ Img.In f.dims (linePt dx dy p (c + 1))))
    (h4 : RunAbove dx dy f p a c u) : RunAbove dx dy g p a c u := by
  intro m g1 g2
  obtain ⟨w, e, hw⟩ := h4 m g1 g2
  obtain ⟨v, e', -, hub⟩ := hg.2 _ (Img.at?_eq_some_in _ _ _ e)
  refine ⟨v, e', hub ⟨a, c, by rwa [majorOf_linePt], by rwa [majorOf_linePt], by rwa [linePt_linePt, linePt_linePt],
    fun m' k1 k2 => ?_⟩⟩
  rw [linePt_linePt]
  exact h4 m' k1 k2

/-- **C65**, granulometry: opening with longer runs after an opening with shorter runs is opening with the longer runs. -/
theorem C65_granulometry (dx dy len len' : Int) (hl : len ≤ len') (f g h : Img α) (hg : IsRunOpen dx dy len f g)
    (hh : IsRunOpen dx dy len' g h) : IsRunOpen dx dy len' f h := by
  refine ⟨hh.1.trans hg.1, fun p hp => ?_⟩
  obtain ⟨v, e, ⟨a, c, h1, h2, h3, h4⟩, hub⟩ := hh.2 p (hg.1.symm ▸ hp)
  rw [hg.1] at h3
  refine ⟨v, e, ⟨a, c, h1, h2, h3, fun m g1 g2 => ?_⟩, ?_⟩
  · obtain ⟨w, e1, hw⟩ := h4 m g1 g2
    have e2 := Img.at?_some f _ (hg.1 ▸ Img.at?_eq_some_in _ _ _ e1)
    exact ⟨_, e2, hw.trans ((C65_antiext dx dy len f g hg).2 _ _ _ e1 e2)⟩
  · rintro u ⟨a, c, h1, h2, h3, h4⟩
    refine hub ⟨a, c, h1, h2, hg.1.symm ▸ h3, run_kept hg (h3.imp (fun h => by omega) id) h4⟩

/-- **C65**, granulometry: opening with shorter runs does not change an opening with longer runs. -/
theorem C65_absorb (dx dy len len' : Int) (hl : len ≤ len') (f g : Img α) (hg : IsRunOpen dx dy len' f g) :
    IsRunOpen dx dy len g g := by
  refine ⟨rfl, fun p hp => ?_⟩
  obtain ⟨v, e, ⟨a, c, h1, h2, h3, h4⟩, -⟩ := hg.2 p (hg.1 ▸ hp)
  refine ⟨v, e, ⟨a, c, h1, h2, by rw [hg.1]; exact h3.imp (fun h => by omega) id, run_kept hg h3 h4⟩, ?_⟩
  rintro u ⟨a, c, h1, h2, -, h4⟩
  obtain ⟨w, e1, hw⟩ := h4 _ h1 h2
  rw [linePt_self, e] at e1
  cases e1
  exact hw

/-- **C65**, the opening is idempotent. -/
theorem C65_idem (dx dy len : Int) (f g h : Img α) (hg : IsRunOpen dx dy len f g) (hh : IsRunOpen dx dy len g h) :
    g.dims = h.dims ∧ ∀ p, Img.In g.dims p → g.at? p = h.at? p :=
  C65_unique dx dy len g g h (C65_absorb dx dy len len le_rfl f g hg) hh

/-- **C65**, longer runs give smaller images. -/
theorem C65_decreasing (dx dy len len' : Int) (hl : len ≤ len') (f g g' : Img α) (hg : IsRunOpen dx dy len f g)
    (hg' : IsRunOpen dx dy len' f g') : Img.Le g' g := by
  refine ⟨by rw [hg.1, hg'.1], fun p u v e1 e2 => ?_⟩
  have hp : Img.In f.dims p := hg.1 ▸ Img.at?_eq_some_in _ _ _ e2
  obtain ⟨u', e, ⟨a, c, h1, h2, h3, h4⟩, -⟩ := hg'.2 p hp
  obtain ⟨v', e', -, hub⟩ := hg.2 p hp
  rw [e1] at e
  cases e
  rw [e2] at e'
  cases e'
  exact hub ⟨a, c, h1, h2, h3.imp (fun h => by omega) id, h4⟩

/-- **C65**, an image that cannot be read, or an output that cannot be brought to its size, gives the error code and
nothing is written. -/
theorem C65_errors (E : Env α) (same : Bool) (dx dy r : Int) (raw : MorSt α) (im out : Img α) (c : Int)
    (h : checkSize E im out = .error c) : fastLineOpen E same dx dy r raw im out = some (.error c) := by
  unfold fastLineOpen
  rw [h]

/-- Reading outside of the image. -/
theorem morWalk_out (N cap : Nat) (size : Int) (same : Bool) (f : Nat → α) (o : Int) (ho : ¬ (0 ≤ o ∧ o < N)) :
    ∀ (l : List Int) (s : MorSt α), o ∈ l → morWalk N cap size same f l s = none := by
  intro l
  induction l with
  | nil => intro s h; simp at h
  | cons o' l ih =>
    intro s h
    unfold morWalk
    by_cases hh : 0 ≤ o' ∧ o' < N
    · rw [if_pos hh]
      have hl : o ∈ l := by
        rcases List.mem_cons.1 h with rfl | h
        · exact absurd hh ho
        · exact h
      cases morPoint cap size ((if same then s.out else f) o'.toNat) o'.toNat s with
      | none => rfl
      | some s' => exact ih s' hl
    · rw [if_neg hh]

theorem morLine_out (N cap : Nat) (size : Int) (same : Bool) (f : Nat → α) (o : Int) (ho : ¬ (0 ≤ o ∧ o < N)) (l : List Int)
    (s : MorSt α) (h : o ∈ l) : morLine N cap size same f l s = none := by
  cases l with
  | nil => simp at h
  | cons o' l =>
    unfold morLine
    dsimp only
    by_cases hh : 0 ≤ o' ∧ o' < N
    · rw [if_pos hh]
      have hl : o ∈ l := by
        rcases List.mem_cons.1 h with rfl | h
        · exact absurd hh ho
        · exact h
      rw [morWalk_out N cap size same f o ho l _ hl]
      rfl
    · rw [if_neg hh]

theorem foldlM_hit {σ β : Type} (F : σ → β → Option σ) (b : β) (hb : ∀ s, F s b = none) : ∀ (l : List β) (s : σ), b ∈ l →
    l.foldlM F s = none := by
  intro l
  induction l with
  | nil => intro s h; simp at h
  | cons a l ih =>
    intro s h
    rw [List.foldlM_cons]
    by_cases e : a = b
    · rw [e, hb]
      rfl
    · cases F s a with
      | none => rfl
      | some s' => exact ih s' ((List.mem_cons.1 h).resolve_left fun h => e h.symm)

omit [LinearOrder α] in
theorem morGen_mem (line : Int → Option (List Int)) (nx : Nat → Nat) (step : Int) : ∀ (k fuel : Nat) (s : Int)
    (ls : List (List Int)), morGen line nx step fuel s = some ls →
    (∀ j < k, ∃ l, line (s + j * step) = some l ∧ nx l.length ≠ 0) → ∃ l, line (s + k * step) = some l ∧ l ∈ ls := by
  intro k
  induction k with
  | zero =>
    intro fuel s ls h _
    cases fuel with
    | zero => simp [morGen] at h
    | succ fuel =>
      unfold morGen at h
      cases e : line s with
      | none => rw [e] at h; simp at h
      | some l =>
        rw [e, Option.bind_some] at h
        refine ⟨l, by simpa using e, ?_⟩
        split_ifs at h
        · cases h; simp
        · obtain ⟨ls', -, e2⟩ := Option.map_eq_some_iff.1 h
          rw [← e2]; simp
  | succ k ih =>
    intro fuel s ls h hk
    cases fuel with
    | zero => simp [morGen] at h
    | succ fuel =>
      unfold morGen at h
      obtain ⟨l, e, hl⟩ := hk 0 (by omega)
      simp only [Nat.cast_zero, zero_mul, add_zero] at e
      rw [e, Option.bind_some, if_neg hl] at h
      obtain ⟨ls', e1, e2⟩ := Option.map_eq_some_iff.1 h
      obtain ⟨l', h1, h2⟩ := ih fuel (s + step) ls' e1 (fun j hj => by
        obtain ⟨l, h1, h2⟩ := hk (j + 1) (by omega)
        refine ⟨l, ?_, h2⟩
        rw [← h1]
        congr 1
        push_cast
        ring)
      refine ⟨l', ?_, by rw [← e2]; exact List.mem_cons_of_mem _ h2⟩
      rw [← h1]
      congr 1
      push_cast
      ring

omit [LinearOrder α] in
theorem morPosLoop_spec (W H : Nat) : ∀ (fuel : Nat) (x y idx : Int), 0 < fuel → (W : Int) - x < fuel →
    ∃ l, morPosLoop W H fuel x y idx = some l ∧ ∀ j : Nat, x + j < W → y + j < H → idx + j * (W + 1) ∈ l := by
  intro fuel
  induction fuel with
  | zero => intro x y idx h; omega
  | succ fuel ih =>
    intro x y idx _ h
    unfold morPosLoop
    split_ifs with hh
    · obtain ⟨l, e, hl⟩ := ih (x + 1) (y + 1) (idx + W + 1) (by omega) (by omega)
      refine ⟨idx :: l, by rw [e]; rfl, fun j h1 h2 => ?_⟩
      cases j with
      | zero => simp
      | succ j =>
        refine List.mem_cons_of_mem _ ?_
        have := hl j (by push_cast at h1; omega) (by push_cast at h2; omega)
        convert this using 1
        push_cast
        ring
    · refine ⟨[], rfl, fun j h1 h2 => absurd ⟨?_, ?_⟩ hh⟩ <;> omega

/-- The first pixel of a line, and those that the loop takes. -/
theorem morPosDiag_spec (W H : Nat) (y x' y' : Int) (hx : x' = if y < 0 then -y else 0) (hy : y' = if y < 0 then 0 else y)
    (h1 : x' < W) (h2 : y' < H) :
    ∃ l, morPosDiag W H 0 y = some l ∧ ∀ j : Nat, x' + j < W → y' + 1 + j < H → y' * W + x' + (j + 1) * (W + 1) ∈ l ∧ 1 < l.length := by
  have hx0 : 0 ≤ x' := by rw [hx]; split_ifs <;> omega
  obtain ⟨l, e, hl⟩ := morPosLoop_spec W H (W + 1) x' (y' + 1) (y' * W + x' + W + 1) (by omega) (by push_cast; omega)
  refine ⟨(y' * W + x') :: l, ?_, fun j k1 k2 => ?_⟩
  · unfold morPosDiag
    dsimp only
    rw [if_neg (show ¬ (0 : Int) < 0 by omega), if_neg (show ¬ (0 : Int) < 0 by omega)]
    rw [show (if y < 0 then 0 - y else 0) = x' by rw [hx, zero_sub], ← hy, if_pos ⟨h1, h2⟩, e]
    rfl
  · have h := hl j k1 k2
    refine ⟨List.mem_cons_of_mem _ ?_, ?_⟩
    · convert h using 1
      ring
    · have : l ≠ [] := by rintro rfl; simp at h
      have := List.length_pos_iff.2 this
      rw [List.length_cons]
      omega

/-- **C65 fails** on the diagonal `dx = dy` (135 degrees): `ComputeLinePosDiag` does not increment `x` after the first
pixel of a line (lines 127-129), so that each line may be one pixel too long. On every 2D image with at least two lines
a pixel behind the image is read (and written). -/
theorem C65_posdiag_ub (E : Env α) (same : Bool) (d r : Int) (hd0 : d ≠ 0) (raw : MorSt α) (im out : Img α)
    (h : Accepts E im out) (hd : im.dims.d = 1) (hh : 2 ≤ im.dims.h) : fastLineOpen E same d d r raw im out = none := by
  obtain ⟨o, ho, -⟩ := checkSize_acc E im out h
  obtain ⟨hw0, hh0⟩ := alloc_pos h.1
  have hN : im.dims.count = im.dims.w * im.dims.h := by unfold Dims.count; rw [hd]; ring
  unfold fastLineOpen
  rw [ho]
  dsimp only
  suffices hs : morOpenBuf im.dims.count im.dims.w im.dims.h r d d same raw im.buf (if same then im.buf else o.buf) = none by
    rw [hs]; rfl
  unfold morOpenBuf
  dsimp only
  rw [if_neg hd0, if_neg hd0, hN]
  generalize im.dims.w = W at *
  generalize im.dims.h = H at *
  cases e : morSlant W H d d with
  | none => rfl
  | some ls =>
    rw [Option.bind_some]
    unfold morSlant at e
    rw [if_pos rfl, if_neg (by omega)] at e
    -- the line that leaves the image starts at `H - 1 - W`
    have hk := morGen_mem _ _ _ (W - 1) _ _ _ e
    have hlen : ∀ j < W - 1, ∃ l, morPosDiag W H 0 ((H : Int) - 2 + j * (-1)) = some l ∧ l.length - 1 ≠ 0 := by
      intro j hj
      obtain ⟨l, e, hl⟩ := morPosDiag_spec W H ((H : Int) - 2 + j * (-1)) _ _ rfl rfl (by split_ifs <;> omega)
        (by split_ifs <;> omega)
      refine ⟨l, e, ?_⟩
      have := (hl 0 (by split_ifs <;> omega) (by split_ifs <;> omega)).2
      omega
    obtain ⟨l, e1, hl⟩ := hk hlen
    have hout : ((W * H : Nat) : Int) ∈ l := by
      obtain ⟨l', e2, hl'⟩ := morPosDiag_spec W H ((H : Int) - 2 + ((W - 1 : Nat) : Int) * (-1)) _ _ rfl rfl
        (by split_ifs <;> omega) (by split_ifs <;> omega)
      rw [e1] at e2
      cases e2
      by_cases hc : W < H
      · have := (hl' (W - 1) (by split_ifs <;> omega) (by split_ifs <;> omega)).1
        rw [if_neg (by omega), if_neg (by omega)] at this
        convert this using 1
        push_cast [Nat.cast_sub hw0]
        ring
      · have := (hl' (H - 2) (by split_ifs <;> omega) (by split_ifs <;> omega)).1
        rw [if_pos (by omega), if_pos (by omega)] at this
        convert this using 1
        push_cast [Nat.cast_sub hw0, Nat.cast_sub hh]
        ring
    have : morRun (W * H) (max W H + 3) (r * 2 + 1) same im.buf ls ⟨raw.wp, raw.stk, raw.sz, raw.idx, if same then im.buf else o.buf⟩ = none := by
      unfold morRun
      by_cases he : ls.head? = some []
      · rw [if_pos he]
      · rw [if_neg he]
        exact foldlM_hit _ l (fun s => morLine_out _ _ _ _ _ _ (by omega) _ _ hout) _ _ hl
    rw [this]
    rfl

theorem morWalk_full (N W cap : Nat) (size : Int) (same : Bool) (f : Nat → α) (hN : W ≤ N) (hc : W ≤ cap) (hW : 256 < W)
    (hr : ∀ i < 256, f i < f (i + 1)) : ∀ (j k : Nat) (s : MorSt α), k + j = 256 → 0 < k → s.wp = k → s.sz = k →
    (s.stk (k - 1)).val = f (k - 1) → (same = true → s.out = f) →
    morWalk N cap size same f ((List.range' k (W - k)).map fun x : Nat => (x : Int)) s = none := by
  intro j
  induction j with
  | zero =>
    intro k s hk h0 h1 h2 h3 h4
    have hlt := hr (k - 1) (by omega)
    rw [show k - 1 + 1 = k by omega] at hlt
    rw [show W - k = (W - k - 1) + 1 by omega, List.range'_succ, List.map_cons]
    unfold morWalk
    rw [if_pos (by omega), Int.toNat_natCast]
    have hrd : (if same then s.out else f) k = f k := by
      split_ifs with hs
      · rw [h4 hs]
      · rfl
    rw [hrd]
    unfold morPoint
    rw [if_pos (by omega)]
    dsimp only
    rw [h2, h3, if_pos hlt, if_neg (by omega)]
    rfl
  | succ j ih =>
    intro k s hk h0 h1 h2 h3 h4
    have hlt := hr (k - 1) (by omega)
    rw [show k - 1 + 1 = k by omega] at hlt
    rw [show W - k = (W - (k + 1)) + 1 by omega, List.range'_succ, List.map_cons]
    unfold morWalk
    rw [if_pos (by omega), Int.toNat_natCast]
    have hrd : (if same then s.out else f) k = f k := by
      split_ifs with hs
      · rw [h4 hs]
      · rfl
    rw [hrd]
    unfold morPoint
    rw [if_pos (by omega)]
    dsimp only
    rw [h2, h3, if_pos hlt, if_pos (by omega), Option.map_some, Option.bind_some]
    refine ih (k + 1) _ (by omega) (by omega) (by dsimp only; omega) rfl ?_ h4
    dsimp only
    rw [Nat.add_sub_cancel, Function.update_self]

/-- **C65 fails** on lines of more than 256 pixels with more than 256 values: the stack has 256 nodes (line 516), and
nothing checks it. On every image of one line that begins with 257 rising pixels (for instance a ramp of 16 bits) the
257th node is written behind the array. -/
theorem C65_stack_ub (E : Env α) (same : Bool) (dx r : Int) (hdx : dx ≠ 0) (raw : MorSt α) (im out : Img α)
    (h : Accepts E im out) (hd : im.dims.d = 1) (hh : im.dims.h = 1) (hw : 256 < im.dims.w)
    (hr : ∀ i : Nat, i < 256 → ∀ u v, im.at? ⟨i, 0, 0⟩ = some u → im.at? ⟨i + 1, 0, 0⟩ = some v → u < v) :
    fastLineOpen E same dx 0 r raw im out = none := by
  obtain ⟨o, ho, -⟩ := checkSize_acc E im out h
  have hN : im.dims.count = im.dims.w := by unfold Dims.count; rw [hd, hh]; ring
  have hbuf : ∀ i : Nat, i < im.dims.w → im.at? ⟨i, 0, 0⟩ = some (im.buf i) := by
    intro i hi
    have hp : Img.In im.dims ⟨i, 0, 0⟩ := by unfold Img.In; simp only; omega
    rw [Img.buf_offOf im _ hp, (off_flat hd hp).1]
    simp
  unfold fastLineOpen
  rw [ho]
  dsimp only
  suffices hs : morOpenBuf im.dims.count im.dims.w im.dims.h r dx 0 same raw im.buf (if same then im.buf else o.buf) = none by
    rw [hs]; rfl
  unfold morOpenBuf
  dsimp only
  rw [if_neg hdx, if_pos rfl, hN, hh]
  have hl : horLines im.dims.w 1 = [((0 : Nat) : Int) :: (List.range' 1 (im.dims.w - 1)).map fun x : Nat => (x : Int)] := by
    unfold horLines
    rw [show List.range 1 = [0] from rfl, List.map_cons, List.map_nil, List.range_eq_range',
      show List.range' 0 im.dims.w = List.range' 0 ((im.dims.w - 1) + 1) by congr 1; omega, List.range'_succ]
    simp
  rw [hl]
  unfold morRun
  rw [if_neg (by simp), List.foldlM_cons]
  have : ∀ s : MorSt α, (same = true → s.out = im.buf) → morLine im.dims.w (max im.dims.w 1 + 3) (r * 2 + 1) same im.buf
      (((0 : Nat) : Int) :: (List.range' 1 (im.dims.w - 1)).map fun x : Nat => (x : Int)) s = none := by
    intro s hs
    unfold morLine
    dsimp only
    rw [if_pos (by omega), morWalk_full im.dims.w im.dims.w _ _ same im.buf le_rfl (by omega) hw
      (fun i hi => hr i hi _ _ (hbuf i (by omega)) (by have := hbuf (i + 1) (by omega); push_cast at this; exact this)) 255 1 _ rfl (by omega) rfl rfl
      ?_ ?_]
    · rfl
    · dsimp only
      rw [Nat.sub_self, Function.update_self]
      split_ifs with hs'
      · rw [hs hs']; rfl
      · rfl
    · exact hs
  rw [this _ (by intro hs; dsimp only; rw [if_pos hs])]
  rfl

end Smil
