import Verif.TransformLemmas

/-!
# C20: flips and rotations
-/

namespace Smil
variable {α : Type}

/-! ### Flips -/

/-- The point symmetric about the horizontal middle line of the slice. -/
def mirrorY (D : Dims) (p : IntPoint) : IntPoint := ⟨p.x, D.h - 1 - p.y, p.z⟩
/-- The point symmetric about the vertical middle line of the slice. -/
def mirrorX (D : Dims) (p : IntPoint) : IntPoint := ⟨D.w - 1 - p.x, p.y, p.z⟩

/-- `out` has the dimensions of `im` and reads it at the points `g p`. -/
def ReadsAt (g : IntPoint → IntPoint) (im out : Img α) : Prop :=
  out.dims = im.dims ∧ ∀ p, Img.In im.dims p → out.at? p = im.at? (g p)

theorem flipIt_ok (E : Env α) (vert : Bool) (im out : Img α) (h : Accepts E im out) :
    ∃ o, flipIt E vert im out = some (.ok o) ∧
      ReadsAt (if vert then mirrorY im.dims else mirrorX im.dims) im o := by
  obtain ⟨o, h1, h2⟩ := checkSize_acc E im out h
  set D := im.dims with hD
  have hDw : im.dims.w = D.w := rfl
  have hDh : im.dims.h = D.h := rfl
  have hDd : im.dims.d = D.d := rfl
  obtain ⟨f, e1, e2, -⟩ := foldlM_points D (loop3 D.d D.h D.w)
    (fun c => if vert then ⟨(c.2.2 : Int), ((D.h - 1 - c.2.1 : Nat) : Int), (c.1 : Int)⟩
      else ⟨(c.2.2 : Int), (c.2.1 : Int), (c.1 : Int)⟩)
    (fun c => if vert then im.px c.2.2 c.2.1 c.1 else im.px (D.w - 1 - c.2.2) c.2.1 c.1)
    (flipStep o.dims.count vert im) (nodup_loop3 _ _ _)
    (by
      intro c hc
      rw [mem_loop3] at hc
      cases vert <;> simp only [Bool.false_eq_true, if_true, if_false, Img.In] <;> omega)
    (by
      intro c hc f
      rw [mem_loop3] at hc
      unfold flipStep
      rw [h2]
      cases vert
      · simp only [Bool.false_eq_true, if_false]
        rw [offOf_nat]
        exact putAt_ok rfl (rasterIndex_lt hc.2.2 hc.2.1 hc.1)
      · simp only [if_true]
        rw [offOf_nat]
        exact putAt_ok rfl (rasterIndex_lt hc.2.2 (by omega) hc.1))
    (by
      rintro ⟨k, j, i⟩ hc ⟨k', j', i'⟩ hc' he
      rw [mem_loop3] at hc hc'
      cases vert <;> simp only [Bool.false_eq_true, if_true, if_false, IntPoint.mk.injEq, Prod.mk.injEq] at * <;>
        omega) o.buf
  refine ⟨⟨D, f⟩, ?_, rfl, fun p hp => ?_⟩
  · unfold flipIt guarded
    rw [h1]
    simp only [← hD, h2] at e1 ⊢
    rw [e1]
    rfl
  · have hp' := hp
    unfold Img.In at hp'
    cases vert
    · simp only [Bool.false_eq_true, if_false] at e2 ⊢
      have := e2 (p.z.toNat, p.y.toNat, p.x.toNat) (by rw [mem_loop3]; simp only; omega)
      simp only at this
      have ep : (⟨(p.x.toNat : Int), (p.y.toNat : Int), (p.z.toNat : Int)⟩ : IntPoint) = p := by
        rw [Int.toNat_of_nonneg hp'.1, Int.toNat_of_nonneg hp'.2.2.1, Int.toNat_of_nonneg hp'.2.2.2.2.1]
      rw [ep] at this
      rw [this, ← px_at im (by omega) (by omega) (by omega)]
      congr 1
      unfold mirrorX
      rw [IntPoint.mk.injEq]
      omega
    · simp only [if_true] at e2 ⊢
      have := e2 (p.z.toNat, (D.h - 1 - p.y.toNat), p.x.toNat) (by rw [mem_loop3]; simp only; omega)
      simp only at this
      have ep : (⟨(p.x.toNat : Int), ((D.h - 1 - (D.h - 1 - p.y.toNat) : Nat) : Int), (p.z.toNat : Int)⟩ : IntPoint)
          = p := by
        cases p
        simp only [IntPoint.mk.injEq] at *
        omega
      rw [ep] at this
      rw [this, ← px_at im (by omega) (by omega) (by omega)]
      congr 1
      unfold mirrorY
      rw [IntPoint.mk.injEq]
      omega

theorem mirrorY_in {D : Dims} {p : IntPoint} (h : Img.In D p) : Img.In D (mirrorY D p) := by
  unfold Img.In mirrorY at *; simp only; omega
theorem mirrorX_in {D : Dims} {p : IntPoint} (h : Img.In D p) : Img.In D (mirrorX D p) := by
  unfold Img.In mirrorX at *; simp only; omega
theorem mirrorY_mirrorY (D : Dims) (p : IntPoint) : mirrorY D (mirrorY D p) = p := by
  cases p; simp [mirrorY]
theorem mirrorX_mirrorX (D : Dims) (p : IntPoint) : mirrorX D (mirrorX D p) = p := by
  cases p; simp [mirrorX]

/-- **C20**, flips: each output pixel reads the input at the mirrored position of its slice. -/
theorem C20_vertFlip (E : Env α) (im out : Img α) (h : Accepts E im out) :
    ∃ o, vertFlip E im out = some (.ok o) ∧ ReadsAt (mirrorY im.dims) im o := flipIt_ok E true im out h

theorem C20_horizFlip (E : Env α) (im out : Img α) (h : Accepts E im out) :
    ∃ o, horizFlip E im out = some (.ok o) ∧ ReadsAt (mirrorX im.dims) im o := flipIt_ok E false im out h

theorem ReadsAt.comp {g g' : IntPoint → IntPoint} {im a b : Img α} (h : ReadsAt g im a) (h' : ReadsAt g' a b)
    (hin : ∀ p, Img.In im.dims p → Img.In im.dims (g' p)) : ReadsAt (fun p => g (g' p)) im b :=
  ⟨h'.1.trans h.1, fun p hp => by
    rw [h'.2 p (by rw [h.1]; exact hp), h.2 _ (hin p hp)]⟩

theorem ReadsAt.same {g : IntPoint → IntPoint} {im a : Img α} (h : ReadsAt g im a) (hg : ∀ p, g p = p) :
    a.Same im := by
  refine ⟨h.1, fun p => ?_⟩
  by_cases hp : Img.In im.dims p
  · rw [h.2 p hp, hg]
  · rw [im.at?_none p hp, a.at?_none p (by rw [h.1]; exact hp)]

/-- **C20**, flips are involutions, into any output images. -/
theorem C20_vertFlip_involutive (E : Env α) (im out out2 a b : Img α)
    (h1 : vertFlip E im out = some (.ok a)) (h2 : vertFlip E a out2 = some (.ok b)) : b.Same im := by
  have acc : ∀ im out a : Img α, vertFlip E im out = some (.ok a) → Accepts E im out := by
    intro im out a h
    unfold vertFlip flipIt guarded at h
    cases hc : checkSize E im out with
    | error c => rw [hc] at h; simp at h
    | ok o => exact accepts_of_checkSize E im out o hc
  obtain ⟨a', e1, r1⟩ := C20_vertFlip E im out (acc _ _ _ h1)
  obtain ⟨b', e2, r2⟩ := C20_vertFlip E a out2 (acc _ _ _ h2)
  rw [h1] at e1; rw [h2] at e2
  cases e1; cases e2
  rw [r1.1] at r2
  exact (r1.comp r2 fun p hp => mirrorY_in hp).same fun p => mirrorY_mirrorY _ p

theorem C20_horizFlip_involutive (E : Env α) (im out out2 a b : Img α)
    (h1 : horizFlip E im out = some (.ok a)) (h2 : horizFlip E a out2 = some (.ok b)) : b.Same im := by
  have acc : ∀ im out a : Img α, horizFlip E im out = some (.ok a) → Accepts E im out := by
    intro im out a h
    unfold horizFlip flipIt guarded at h
    cases hc : checkSize E im out with
    | error c => rw [hc] at h; simp at h
    | ok o => exact accepts_of_checkSize E im out o hc
  obtain ⟨a', e1, r1⟩ := C20_horizFlip E im out (acc _ _ _ h1)
  obtain ⟨b', e2, r2⟩ := C20_horizFlip E a out2 (acc _ _ _ h2)
  rw [h1] at e1; rw [h2] at e2
  cases e1; cases e2
  rw [r1.1] at r2
  exact (r1.comp r2 fun p hp => mirrorX_in hp).same fun p => mirrorX_mirrorX _ p

/-! ### Rotations -/

/-- The dimensions after one quarter turn about the z axis. -/
def quarterDims (D : Dims) : Dims := ⟨D.h, D.w, D.d⟩
/-- Where one clockwise quarter turn (the y axis points down) takes a point: the first line becomes the last
column. -/
def quarterPt (D : Dims) (p : IntPoint) : IntPoint := ⟨D.h - 1 - p.y, p.x, p.z⟩

/-- `n` quarter turns. -/
def turnDims : Nat → Dims → Dims
  | 0, D => D
  | n + 1, D => turnDims n (quarterDims D)
def turnPt : Nat → Dims → IntPoint → IntPoint
  | 0, _, p => p
  | n + 1, D, p => turnPt n (quarterDims D) (quarterPt D p)

/-- `out` is `im` after `n` quarter turns: it has the turned dimensions, and each of its pixels is the one of
`im` taken there. -/
def IsTurned (n : Nat) (im out : Img α) : Prop :=
  out.dims = turnDims n im.dims ∧
  ∀ p, Img.In im.dims p → out.at? (turnPt n im.dims p) = im.at? p

theorem turnDims_add (m n : Nat) (D : Dims) : turnDims (m + n) D = turnDims n (turnDims m D) := by
  induction m generalizing D with
  | zero => rw [Nat.zero_add]; rfl
  | succ m ih => rw [Nat.succ_add]; exact ih _

theorem turnPt_add (m n : Nat) (D : Dims) (p : IntPoint) :
    turnPt (m + n) D p = turnPt n (turnDims m D) (turnPt m D p) := by
  induction m generalizing D p with
  | zero => rw [Nat.zero_add]; rfl
  | succ m ih => rw [Nat.succ_add]; exact ih _ _

theorem turnPt_in (n : Nat) {D : Dims} {p : IntPoint} (h : Img.In D p) : Img.In (turnDims n D) (turnPt n D p) := by
  induction n generalizing D p with
  | zero => exact h
  | succ n ih =>
    apply ih
    unfold Img.In quarterDims quarterPt at *
    simp only
    omega

theorem turn_four (D : Dims) (p : IntPoint) : turnDims 4 D = D ∧ turnPt 4 D p = p := by
  refine ⟨rfl, ?_⟩
  cases p
  simp [turnPt, quarterPt, quarterDims]

theorem turn_mod (n : Nat) (D : Dims) (p : IntPoint) :
    turnDims n D = turnDims (n % 4) D ∧ turnPt n D p = turnPt (n % 4) D p := by
  induction n using Nat.strongRecOn with
  | ind n ih =>
    by_cases h : n < 4
    · rw [Nat.mod_eq_of_lt h]; exact ⟨rfl, rfl⟩
    · obtain ⟨m, rfl⟩ : ∃ m, n = 4 + m := ⟨n - 4, by omega⟩
      have := ih m (by omega)
      rw [Nat.add_mod_left, turnDims_add, turnPt_add, (turn_four D p).1, (turn_four D p).2]
      exact this

theorem IsTurned.comp {m n : Nat} {im a b : Img α} (h : IsTurned m im a) (h' : IsTurned n a b) :
    IsTurned (m + n) im b := by
  refine ⟨by rw [h'.1, h.1, turnDims_add], fun p hp => ?_⟩
  rw [turnPt_add, ← h.1, h'.2 _ (by rw [h.1]; exact turnPt_in m hp), h.2 p hp]

theorem IsTurned.four {im a : Img α} (n : Nat) (h : IsTurned (4 * n) im a) : a.Same im := by
  obtain ⟨h1, h2⟩ := h
  have e := fun p => turn_mod (4 * n) im.dims p
  have hm : 4 * n % 4 = 0 := by omega
  rw [hm] at e
  rw [(e ⟨0, 0, 0⟩).1] at h1
  refine ⟨h1, fun p => ?_⟩
  by_cases hp : Img.In im.dims p
  · have := h2 p hp
    rwa [(e p).2] at this
  · rw [im.at?_none p hp, a.at?_none p (by rw [h1]; exact hp)]

/-- The loop for an angle, given where the index formula sends the pixels. -/
theorem rot_loop (im : Img α) (D : Dims) (angle : Int) (tgt : Nat × Nat × Nat → IntPoint)
    (hin : ∀ c ∈ loop3 im.dims.d im.dims.h im.dims.w, Img.In D (tgt c))
    (hix : ∀ c ∈ loop3 im.dims.d im.dims.h im.dims.w, ∃ q,
      rotIndex im.dims.w im.dims.h c.2.1 c.2.2 angle = some q ∧
        ((c.1 * im.dims.w * im.dims.h : Nat) : Int) + q = offOf D (tgt c))
    (hinj : ∀ c c', tgt c = tgt c' → c = c') (f0 : Nat → α) :
    ∃ f, (loop3 im.dims.d im.dims.h im.dims.w).foldlM (rotStep D.count angle im) f0 = some f ∧
      ∀ c ∈ loop3 im.dims.d im.dims.h im.dims.w,
        (⟨D, f⟩ : Img α).at? (tgt c) = im.at? ⟨c.2.2, c.2.1, c.1⟩ := by
  obtain ⟨f, e1, e2, -⟩ := foldlM_points D (loop3 im.dims.d im.dims.h im.dims.w) tgt
    (fun c => im.px c.2.2 c.2.1 c.1) (rotStep D.count angle im) (nodup_loop3 _ _ _) hin
    (by
      intro c hc f
      obtain ⟨q, hq, he⟩ := hix c hc
      unfold rotStep
      rw [hq]
      exact putAt_ok he (offOf_lt (hin c hc)))
    (fun c _ c' _ => hinj c c') f0
  refine ⟨f, e1, fun c hc => ?_⟩
  have h := (mem_loop3 _ _ _ _).mp hc
  rw [e2 c hc, px_at im h.2.2 h.2.1 h.1]

theorem rotateX90_run (E : Env α) (im : Img α) (count : Int) (out : Img α) (hi : im.alloc = true)
    (ho : out.alloc = true) (n : Nat) (hn : n < 4) (hc : count.tmod 4 = n)
    (hsq : n = 1 → im.dims.w = im.dims.h) :
    ∃ o, rotateX90 E im count out = some (.ok o) ∧ IsTurned n im o := by
  set D := im.dims with hD
  have hDw : im.dims.w = D.w := rfl
  have hDh : im.dims.h = D.h := rfl
  have hDd : im.dims.d = D.d := rfl
  have hpt : ∀ p, Img.In D p → ∃ c ∈ loop3 D.d D.h D.w,
      (⟨(c.2.2 : Int), (c.2.1 : Int), (c.1 : Int)⟩ : IntPoint) = p := by
    intro p hp
    unfold Img.In at hp
    refine ⟨(p.z.toNat, p.y.toNat, p.x.toNat), (mem_loop3 _ _ _ _).mpr (by simp only; omega), ?_⟩
    rw [Int.toNat_of_nonneg hp.1, Int.toNat_of_nonneg hp.2.2.1, Int.toNat_of_nonneg hp.2.2.2.2.1]
  have hang : (count.tmod 4).tmod 4 * 90 = (n : Int) * 90 := by
    rw [hc, Int.tmod_eq_of_lt (by omega) (by omega)]
  unfold rotateX90
  rw [if_neg (by rw [hi, ho]; simp)]
  simp only [hang, ← hD]
  have main : ∀ tgt : Nat × Nat × Nat → IntPoint,
      (n = 1 ∨ n = 2 ∨ n = 3) →
      (∀ c ∈ loop3 D.d D.h D.w, tgt c = turnPt n D ⟨c.2.2, c.2.1, c.1⟩) →
      (∀ c ∈ loop3 D.d D.h D.w, ∃ q, rotIndex D.w D.h c.2.1 c.2.2 ((n : Int) * 90) = some q ∧
        ((c.1 * D.w * D.h : Nat) : Int) + q = offOf (turnDims n D) (tgt c)) →
      (∀ c c', tgt c = tgt c' → c = c') → ∀ f0,
      ∃ f, (loop3 D.d D.h D.w).foldlM (rotStep (turnDims n D).count ((n : Int) * 90) im) f0 = some f ∧
        IsTurned n im ⟨turnDims n D, f⟩ := by
    intro tgt _ ht hix hinj f0
    obtain ⟨f, e1, e2⟩ := rot_loop im (turnDims n D) ((n : Int) * 90) tgt
      (by
        intro c hc
        have h := (mem_loop3 _ _ _ _).mp hc
        rw [ht c hc]
        exact turnPt_in n (by unfold Img.In; simp only; omega))
      hix hinj f0
    refine ⟨f, e1, rfl, fun p hp => ?_⟩
    obtain ⟨c, hc, rfl⟩ := hpt p hp
    rw [← e2 c hc, ← ht c hc]
  have hcases : n = 0 ∨ n = 1 ∨ n = 2 ∨ n = 3 := by omega
  rcases hcases with rfl | rfl | rfl | rfl
  · rw [if_pos (by rfl)]
    refine ⟨_, rfl, rfl, fun p hp => ?_⟩
    show (⟨D, copyLine D.count im.buf (setSize E.raw D out).buf⟩ : Img α).at? p = im.at? p
    rw [Img.buf_offOf (⟨D, copyLine D.count im.buf (setSize E.raw D out).buf⟩ : Img α) p hp,
      Img.buf_offOf im p hp]
    simp only
    rw [copyLine_apply, if_pos (offOf_lt hp)]
  · have hwh := hsq rfl
    obtain ⟨f, e1, e2⟩ := main
      (fun c => ⟨(D.h : Int) - 1 - c.2.1, c.2.2, c.1⟩) (by omega) (fun c hc => rfl)
      (by
        intro c hc
        have h := (mem_loop3 _ _ _ _).mp hc
        refine ⟨_, rfl, ?_⟩
        rw [offOf_int (by unfold Img.In turnDims quarterDims; simp only [turnDims]; omega)]
        simp only [turnDims, quarterDims]
        push_cast
        rw [hwh]
        ring)
      (by
        rintro ⟨k, j, i⟩ ⟨k', j', i'⟩ he
        simp only [IntPoint.mk.injEq, Prod.mk.injEq] at *
        omega)
      (setSize E.raw (turnDims 1 D) out).buf
    rw [if_neg (by norm_num), if_pos (Or.inl (by norm_num))]
    change ∃ o, Option.map _ ((loop3 D.d D.h D.w).foldlM (rotStep (setSize E.raw (turnDims 1 D) out).dims.count _ im)
      (setSize E.raw (turnDims 1 D) out).buf) = _ ∧ _
    rw [setSize_dims, setSize_dims, e1]
    exact ⟨_, rfl, e2⟩
  · obtain ⟨f, e1, e2⟩ := main
      (fun c => ⟨(D.w : Int) - 1 - c.2.2, (D.h : Int) - 1 - c.2.1, c.1⟩) (by omega) (fun c hc => rfl)
      (by
        intro c hc
        have h := (mem_loop3 _ _ _ _).mp hc
        refine ⟨_, rfl, ?_⟩
        rw [offOf_int (by unfold Img.In; simp only [turnDims, quarterDims]; omega)]
        simp only [turnDims, quarterDims]
        push_cast
        ring)
      (by
        rintro ⟨k, j, i⟩ ⟨k', j', i'⟩ he
        simp only [IntPoint.mk.injEq, Prod.mk.injEq] at *
        omega)
      (setSize E.raw (turnDims 2 D) out).buf
    rw [if_neg (by norm_num), if_neg (by norm_num)]
    change ∃ o, Option.map _ ((loop3 D.d D.h D.w).foldlM (rotStep (setSize E.raw (turnDims 2 D) out).dims.count _ im)
      (setSize E.raw (turnDims 2 D) out).buf) = _ ∧ _
    rw [setSize_dims, setSize_dims, e1]
    exact ⟨_, rfl, e2⟩
  · obtain ⟨f, e1, e2⟩ := main
      (fun c => ⟨c.2.1, (D.w : Int) - 1 - c.2.2, c.1⟩) (by omega)
      (fun c hc => by simp [turnPt, quarterPt, quarterDims])
      (by
        intro c hc
        have h := (mem_loop3 _ _ _ _).mp hc
        refine ⟨_, rfl, ?_⟩
        rw [offOf_int (by unfold Img.In; simp only [turnDims, quarterDims]; omega)]
        simp only [turnDims, quarterDims]
        push_cast
        ring)
      (by
        rintro ⟨k, j, i⟩ ⟨k', j', i'⟩ he
        simp only [IntPoint.mk.injEq, Prod.mk.injEq] at *
        omega)
      (setSize E.raw (turnDims 3 D) out).buf
    rw [if_neg (by norm_num), if_pos (Or.inr (by norm_num))]
    change ∃ o, Option.map _ ((loop3 D.d D.h D.w).foldlM (rotStep (setSize E.raw (turnDims 3 D) out).dims.count _ im)
      (setSize E.raw (turnDims 3 D) out).buf) = _ ∧ _
    rw [setSize_dims, setSize_dims, e1]
    exact ⟨_, rfl, e2⟩

/-- **C20**, rotation: `rotateX90(n)` with `n ≥ 0` gives the image after `n` clockwise quarter turns, whatever
the size and contents of the output. Missing: `n % 4 = 1` on images that are not square, where the
code writes out of the buffer (`C20_rotate_bug`), and negative `n`, where it does nothing
(`C20_rotate_negative_bug`). -/
theorem C20_rotate_partial (E : Env α) (im : Img α) (count : Int) (out : Img α) (hi : im.alloc = true)
    (ho : out.alloc = true) (hc : 0 ≤ count) (hsq : count % 4 = 1 → im.dims.w = im.dims.h) :
    ∃ o, rotateX90 E im count out = some (.ok o) ∧ IsTurned count.toNat im o := by
  obtain ⟨o, h1, h2, h3⟩ := rotateX90_run E im count out hi ho (count.toNat % 4) (by omega)
    (by rw [Int.tmod_eq_emod_of_nonneg hc]; omega) (fun h => hsq (by omega))
  refine ⟨o, h1, by rw [h2, ← (turn_mod count.toNat im.dims ⟨0, 0, 0⟩).1], fun p hp => ?_⟩
  rw [(turn_mod count.toNat im.dims p).2]
  exact h3 p hp

/-- **C20**, composition: turning by `m` and then by `n` is turning by `m + n`; four quarter turns are the
identity. -/
theorem C20_rotate_compose_partial (E : Env α) (im : Img α) (m n : Int) (out out2 out3 a b c : Img α)
    (hm : 0 ≤ m) (hn : 0 ≤ n) (ho : out.alloc = true ∧ out2.alloc = true ∧ out3.alloc = true)
    (hi : im.alloc = true)
    (hsq : im.dims.w = im.dims.h ∨ (m % 4 ≠ 1 ∧ n % 4 ≠ 1 ∧ (m + n) % 4 ≠ 1))
    (h1 : rotateX90 E im m out = some (.ok a)) (h2 : rotateX90 E a n out2 = some (.ok b))
    (h3 : rotateX90 E im (m + n) out3 = some (.ok c)) :
    b.Same c ∧ ((m + n) % 4 = 0 → b.Same im) := by
  obtain ⟨a', e1, t1⟩ := C20_rotate_partial E im m out hi ho.1 hm (fun h => by
    rcases hsq with h' | h'
    · exact h'
    · exact absurd h h'.1)
  rw [h1] at e1; cases e1
  have hda : a.dims.w * a.dims.h * a.dims.d = im.dims.w * im.dims.h * im.dims.d ∧
      (im.dims.w = im.dims.h → a.dims.w = a.dims.h) := by
    rw [t1.1, (turn_mod m.toNat im.dims ⟨0, 0, 0⟩).1]
    have : m.toNat % 4 < 4 := Nat.mod_lt _ (by omega)
    generalize m.toNat % 4 = r at this
    have hr : r = 0 ∨ r = 1 ∨ r = 2 ∨ r = 3 := by omega
    rcases hr with rfl | rfl | rfl | rfl
    · exact ⟨rfl, fun h => h⟩
    · exact ⟨by simp only [turnDims, quarterDims]; ring, fun h => h.symm⟩
    · exact ⟨rfl, fun h => h⟩
    · exact ⟨by simp only [turnDims, quarterDims]; ring, fun h => h.symm⟩
  have hia : a.alloc = true := by
    unfold Img.alloc Dims.count at hi ⊢
    simp only [ne_eq, decide_eq_true_eq] at hi ⊢
    intro h0
    apply hi
    have : a.dims.w * a.dims.h * a.dims.d = 0 := by rw [← h0]; ring
    rw [hda.1] at this
    rw [← this]; ring
  obtain ⟨b', e2, t2⟩ := C20_rotate_partial E a n out2 hia ho.2.1 hn (fun h => by
    rcases hsq with h' | h'
    · exact hda.2 h'
    · exact absurd h h'.2.1)
  rw [h2] at e2; cases e2
  obtain ⟨c', e3, t3⟩ := C20_rotate_partial E im (m + n) out3 hi ho.2.2 (by omega) (fun h => by
    rcases hsq with h' | h'
    · exact h'
    · exact absurd h h'.2.2)
  rw [h3] at e3; cases e3
  have t := t1.comp t2
  rw [show m.toNat + n.toNat = (m + n).toNat by omega] at t
  refine ⟨⟨t.1.trans t3.1.symm, fun p => ?_⟩, fun h4 => ?_⟩
  · by_cases hp : Img.In b.dims p
    · -- p is a turned point
      have hsurj : ∀ (k : Nat) (D : Dims) (q : IntPoint), Img.In (turnDims k D) q →
          ∃ p, Img.In D p ∧ turnPt k D p = q := by
        intro k
        induction k with
        | zero => intro D q hq; exact ⟨q, hq, rfl⟩
        | succ k ih =>
          intro D q hq
          obtain ⟨p, hp, he⟩ := ih (quarterDims D) q hq
          refine ⟨⟨p.y, D.h - 1 - p.x, p.z⟩, ?_, ?_⟩
          · unfold Img.In quarterDims at hp; unfold Img.In; simp only at hp ⊢; omega
          · show turnPt k (quarterDims D) _ = q
            rw [← he]
            congr 1
            cases p
            simp [quarterPt]
      rw [t.1] at hp
      obtain ⟨q, hq, rfl⟩ := hsurj _ _ _ hp
      rw [t.2 q hq, t3.2 q hq]
    · rw [b.at?_none p hp, c.at?_none p (by rw [t3.1, ← t.1]; exact hp)]
  · obtain ⟨k, hk⟩ : ∃ k, (m + n).toNat = 4 * k := ⟨(m + n).toNat / 4, by omega⟩
    rw [hk] at t
    exact t.four k

/-- **C20 fails** for `n % 4 = 1` on every image that is not square: the column is computed as `w - 1 - j`
instead of `h - 1 - j` (DImageTransform.hpp:622) and some pixel is written outside the buffer. -/
theorem C20_rotate_bug (E : Env α) (im : Img α) (count : Int) (out : Img α) (hi : im.alloc = true)
    (ho : out.alloc = true) (hc : 0 ≤ count) (h1 : count % 4 = 1) (hne : im.dims.w ≠ im.dims.h) :
    rotateX90 E im count out = none := by
  set D := im.dims with hD
  have hDw : im.dims.w = D.w := rfl
  have hDh : im.dims.h = D.h := rfl
  have hDd : im.dims.d = D.d := rfl
  have hpos : 0 < D.w ∧ 0 < D.h ∧ 0 < D.d := by
    unfold Img.alloc Dims.count at hi
    simp only [ne_eq, decide_eq_true_eq, ← hD] at hi
    refine ⟨Nat.pos_of_ne_zero ?_, Nat.pos_of_ne_zero ?_, Nat.pos_of_ne_zero ?_⟩ <;>
    · intro h; exact hi (by rw [h]; simp)
  have hang : (count.tmod 4).tmod 4 * 90 = 90 := by
    rw [Int.tmod_eq_emod_of_nonneg hc, h1]; rfl
  unfold rotateX90
  rw [if_neg (by rw [hi, ho]; simp)]
  simp only [hang, ← hD]
  rw [if_neg (by norm_num), if_pos (Or.inl trivial), setSize_dims]
  have : (loop3 D.d D.h D.w).foldlM (rotStep (⟨D.h, D.w, D.d⟩ : Dims).count 90 im)
      (setSize E.raw ⟨D.h, D.w, D.d⟩ out).buf = none := by
    by_cases hlt : D.w < D.h
    · -- the line `w` of the first slice goes to the column -1 of line 0
      refine foldlM_none _ _ (0, D.w, 0) ((mem_loop3 _ _ _ _).mpr ⟨hpos.2.2, hlt, hpos.1⟩) (fun f => ?_) _
      unfold rotStep rotIndex
      simp only [if_true]
      apply putAt_bad
      left
      push_cast
      rw [← hD]
      omega
    · -- the first line of the last slice ends beyond the last line
      refine foldlM_none _ _ (D.d - 1, 0, D.w - 1)
        ((mem_loop3 _ _ _ _).mpr ⟨by simp only; omega, hpos.2.1, by simp only; omega⟩) (fun f => ?_) _
      unfold rotStep rotIndex
      simp only [if_true]
      apply putAt_bad
      right
      unfold Dims.count
      simp only [← hD]
      obtain ⟨w, hw⟩ : ∃ w, D.w = w + 1 := ⟨D.w - 1, by omega⟩
      obtain ⟨d, hd⟩ : ∃ d, D.d = d + 1 := ⟨D.d - 1, by omega⟩
      rw [hw, hd]
      rw [hw] at hlt hne
      push_cast
      have : (D.h : Int) ≤ w := by omega
      simp only [add_sub_cancel_right]
      nlinarith
  rw [this]
  rfl

/-- **C20 fails** for negative `n` that are not multiples of 4: `count % 4` is negative, no case of the `switch`
applies, and `RES_OK` is returned with the output resized to the input but never written. -/
theorem C20_rotate_negative_bug (E : Env α) (im : Img α) (count : Int) (out : Img α) (hi : im.alloc = true)
    (ho : out.alloc = true) (hc : count < 0) (h4 : count % 4 ≠ 0) :
    rotateX90 E im count out = some (.ok (setSize E.raw im.dims out)) := by
  have hr : -4 < count.tmod 4 ∧ count.tmod 4 < 0 := by
    have h1 := Int.tmod_add_mul_tdiv count 4
    have h2 := Int.lt_tmod_of_pos count (show (0 : Int) < 4 by norm_num)
    have h3 : count.tmod 4 ≤ 0 := by
      have := Int.tmod_nonneg 4 (show 0 ≤ -count by omega)
      rw [Int.neg_tmod] at this
      omega
    refine ⟨h2, lt_of_le_of_ne h3 fun h0 => h4 ?_⟩
    rw [h0] at h1
    omega
  have hang : (count.tmod 4).tmod 4 = count.tmod 4 := by
    have : (-(count.tmod 4)).tmod 4 = -(count.tmod 4) := Int.tmod_eq_of_lt (by omega) (by omega)
    rw [Int.neg_tmod] at this
    omega
  unfold rotateX90
  rw [if_neg (by rw [hi, ho]; simp)]
  simp only [hang]
  rw [if_neg (by omega), if_neg (by omega)]
  have hstep : ∀ (l : List (Nat × Nat × Nat)) (n : Nat) (f : Nat → α),
      l.foldlM (rotStep n (count.tmod 4 * 90) im) f = some f := by
    intro l n f
    induction l with
    | nil => rfl
    | cons c l ih =>
      rw [List.foldlM_cons]
      have : rotStep n (count.tmod 4 * 90) im f c = some f := by
        unfold rotStep rotIndex
        rw [if_neg (by omega), if_neg (by omega), if_neg (by omega)]
      rw [this]
      exact ih
  rw [hstep]
  rfl

/-- **C20**, errors: images that are not allocated or, for flips without automatic resizing, of
different sizes. -/
theorem C20_errors (E : Env α) (vert : Bool) (count : Int) (im out : Img α) :
    ((im.alloc = false ∨ out.alloc = false) →
      flipIt E vert im out = some (.error (-99)) ∧ rotateX90 E im count out = some (.error (-99))) ∧
    (im.alloc = true → out.alloc = true → out.dims ≠ im.dims → E.auto = false →
      flipIt E vert im out = some (.error (-98))) := by
  unfold flipIt guarded checkSize rotateX90
  constructor
  · intro h; rw [if_pos h, if_pos h]; exact ⟨rfl, rfl⟩
  · intro h1 h2 h3 h4
    rw [if_neg (by simp [h1, h2]), if_neg h3, h4]
    rfl

/-! ### Examples -/

/-- An environment and a 3×2 image. -/
def exEnvT : Env Nat := ⟨1, true, fun _ => 0, fun _ => 7⟩
def exIm32 : Img Nat := ⟨⟨3, 2, 1⟩, fun i => i + 1⟩

/-- The pixels of a result. -/
def okRows : Option (Except Int (Img Nat)) → List (List (List Nat))
  | some (.ok r) => r.toRows
  | _ => []

example : exIm32.toRows = [[[1, 2, 3], [4, 5, 6]]] := by decide
example : okRows (vertFlip exEnvT exIm32 ⟨⟨1, 1, 1⟩, fun _ => 9⟩) = [[[4, 5, 6], [1, 2, 3]]] := by decide
example : okRows (horizFlipIn exEnvT exIm32) = [[[3, 2, 1], [6, 5, 4]]] := by decide
example : okRows (rotateX90 exEnvT exIm32 2 exIm32) = [[[6, 5, 4], [3, 2, 1]]] := by decide
example : okRows (rotateX90In exEnvT exIm32 7) = [[[3, 6], [2, 5], [1, 4]]] := by decide
example : okRows (rotateX90 exEnvT ⟨⟨2, 2, 1⟩, fun i => i + 1⟩ 5 exIm32) = [[[3, 1], [4, 2]]] := by decide
example : (rotateX90 exEnvT exIm32 1 exIm32).isNone = true := by decide
example : okRows (rotateX90 exEnvT exIm32 (-1) ⟨⟨1, 1, 1⟩, fun _ => 9⟩) = [[[7, 7, 7], [7, 7, 7]]] := by decide

end Smil
