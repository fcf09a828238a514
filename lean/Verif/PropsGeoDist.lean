import Verif.GeoDistLemmas
import Verif.PropsDistGeneric
import Verif.PropsBuild

/-!
# The geodesic distance (C83)
-/

namespace Smil
section
variable {t : PT}

/-- A pixel of the mask where the input is zero. -/
def MaskZero (im ms : Img (Px t)) (p : IntPoint) : Prop :=
  ∃ v m, im.at? p = some v ∧ ms.at? p = some m ∧ v.val = 0 ∧ 0 < m.val

/-- A pixel of the mask where the input is positive. -/
def MaskObj (im ms : Img (Px t)) (p : IntPoint) : Prop :=
  ∃ v m, im.at? p = some v ∧ ms.at? p = some m ∧ 0 < v.val ∧ 0 < m.val

/-- A walk of `n` steps from neighbour to neighbour: it starts on a zero of the input, goes on in the object, and never leaves the mask. -/
inductive MaskWalk (se : StrElt) (im ms : Img (Px t)) : Nat → IntPoint → IntPoint → Prop
  | nil (q) : MaskZero im ms q → MaskWalk se im ms 0 q q
  | snoc {n q c p} : MaskWalk se im ms n q c → seRel se c p → c ≠ p → MaskObj im ms p → MaskWalk se im ms (n + 1) q p

/-- The lengths of the walks that end at `p`. -/
def geoLens (se : StrElt) (im ms : Img (Px t)) (p : IntPoint) : Set Nat := {n | ∃ q, MaskWalk se im ms n q p}

theorem seRel_ne {se : StrElt} {q p : IntPoint} :
    (∃ b ∈ se.points, b ≠ ⟨0, 0, 0⟩ ∧ phys se.odd q + phys se.odd b = phys se.odd p) ↔ seRel se q p ∧ q ≠ p := by
  have hb0 : ∀ b : IntPoint, phys se.odd b = 0 → b = ⟨0, 0, 0⟩ := by
    intro b hb
    refine phys_inj se.odd _ _ (hb.trans ?_)
    simp [phys]
    rfl
  have h00 : phys se.odd ⟨0, 0, 0⟩ = 0 := by simp [phys]
  constructor
  · rintro ⟨b, hb, hne, h⟩
    refine ⟨⟨b, hb, h⟩, ?_⟩
    rintro rfl
    exact hne (hb0 b (by simpa using h))
  · rintro ⟨⟨b, hb, h⟩, hne⟩
    refine ⟨b, hb, ?_, h⟩
    rintro rfl
    rw [h00, add_zero] at h
    exact hne (phys_inj _ _ _ h)

theorem mem_nb_iff {D : Dims} {se : StrElt} {q p : IntPoint} (hq : Img.In D q) (hp : Img.In D p) :
    offOf D p ∈ nbOffsets D se (offOf D q) ↔ seRel se q p ∧ q ≠ p := by
  rw [mem_nbOffsets hq, ← seRel_ne]
  constructor
  · rintro ⟨p', hp', e, h⟩
    rw [← offOf_inj hp' hp e]
    exact h
  · intro h
    exact ⟨p, hp, rfl, h⟩

theorem gdCfg_ok (hs : t.signed = false) (se : StrElt) (im ms : Img (Px t)) (hsym : ∀ p q, seRel se p q → seRel se q p) :
    (gdCfg se im ms).Ok := by
  refine ⟨fun i hi j hj => nbOffsets_lt hi hj, fun i hi j hj => ?_, fun i => ?_⟩
  · have hj' : j < im.dims.count := nbOffsets_lt hi hj
    obtain ⟨a1, a2⟩ := coordPt_in (D := im.dims) hi
    obtain ⟨b1, b2⟩ := coordPt_in (D := im.dims) hj'
    have hj1 : offOf im.dims (coordPt im.dims j) ∈ nbOffsets im.dims se (offOf im.dims (coordPt im.dims i)) := by
      rw [a2, b2]; exact hj
    obtain ⟨r1, r2⟩ := (mem_nb_iff a1 b1).mp hj1
    have := (mem_nb_iff b1 a1).mpr ⟨hsym _ _ r1, r2.symm⟩
    rw [a2, b2] at this
    exact this
  · show decide (im.buf i ≠ t.wrap 0 ∧ ms.buf i > t.wrap 0) = decide (im.buf i > t.wrap 0 ∧ ms.buf i > t.wrap 0)
    rw [decide_eq_decide, ne_zero_iff hs (im.buf i)]

theorem gd_obj {se : StrElt} {im ms : Img (Px t)} (hd : ms.dims = im.dims) {p : IntPoint} (hp : Img.In im.dims p) :
    (gdCfg se im ms).obj (offOf im.dims p) = true ↔ MaskObj im ms p := by
  show decide (_ ∧ _) = true ↔ _
  have e1 := Img.buf_offOf im p hp
  have e2 := Img.buf_offOf ms p (by rw [hd]; exact hp)
  rw [hd] at e2
  rw [decide_eq_true_iff]
  unfold MaskObj
  rw [e1, e2, gt_iff_lt, gt_iff_lt, Px.lt_iff, Px.lt_iff, zero_val]
  constructor
  · rintro ⟨a, b⟩; exact ⟨_, _, rfl, rfl, a, b⟩
  · rintro ⟨v, m, h1, h2, a, b⟩
    cases h1; cases h2
    exact ⟨a, b⟩

theorem gd_bg {se : StrElt} {im ms : Img (Px t)} (hd : ms.dims = im.dims) {p : IntPoint} (hp : Img.In im.dims p) :
    (gdCfg se im ms).bg (offOf im.dims p) = true ↔ MaskZero im ms p := by
  show decide (_ ∧ _) = true ↔ _
  have e1 := Img.buf_offOf im p hp
  have e2 := Img.buf_offOf ms p (by rw [hd]; exact hp)
  rw [hd] at e2
  rw [decide_eq_true_iff]
  unfold MaskZero
  rw [e1, e2, gt_iff_lt, Px.ext_iff', Px.lt_iff, zero_val]
  constructor
  · rintro ⟨a, b⟩; exact ⟨_, _, rfl, rfl, a, b⟩
  · rintro ⟨v, m, h1, h2, a, b⟩
    cases h1; cases h2
    exact ⟨a, b⟩

theorem MaskObj.in {im ms : Img (Px t)} {p : IntPoint} (h : MaskObj im ms p) : Img.In im.dims p := by
  obtain ⟨v, m, h1, -⟩ := h
  exact Img.at?_eq_some_in _ _ _ h1

theorem MaskZero.in {im ms : Img (Px t)} {p : IntPoint} (h : MaskZero im ms p) : Img.In im.dims p := by
  obtain ⟨v, m, h1, -⟩ := h
  exact Img.at?_eq_some_in _ _ _ h1

theorem MaskWalk.in {se : StrElt} {im ms : Img (Px t)} {n : Nat} {q p : IntPoint} (h : MaskWalk se im ms n q p) : Img.In im.dims p := by
  cases h with
  | nil _ h => exact h.in
  | snoc _ _ _ h => exact h.in

theorem gdLen_iff {se : StrElt} {im ms : Img (Px t)} (hsym : ∀ p q, seRel se p q → seRel se q p) (hd : ms.dims = im.dims) (n : Nat)
    {p : IntPoint} (hp : Img.In im.dims p) :
    GdLen (gdCfg se im ms) (n + 1) (offOf im.dims p) ↔ ∃ q, MaskWalk se im ms (n + 1) q p := by
  constructor
  · intro h
    generalize hk : n + 1 = k at h
    generalize hi : offOf im.dims p = i at h
    clear hk n
    induction h generalizing p with
    | @one i z hi' ho hz hbz =>
      subst hi
      have hzn : z < im.dims.count := nbOffsets_lt hi' hz
      obtain ⟨a1, a2⟩ := coordPt_in (D := im.dims) hzn
      rw [← a2] at hz hbz
      obtain ⟨r1, r2⟩ := (mem_nb_iff hp a1).mp hz
      exact ⟨_, .snoc (.nil _ ((gd_bg hd a1).mp hbz)) (hsym _ _ r1) r2.symm ((gd_obj hd hp).mp ho)⟩
    | @step k i j hl hj ho hadj ih =>
      subst hi
      have hin : i < im.dims.count := hl.lt
      obtain ⟨a1, a2⟩ := coordPt_in (D := im.dims) hin
      obtain ⟨q, hq⟩ := ih a1 a2
      rw [← a2] at hadj
      obtain ⟨r1, r2⟩ := (mem_nb_iff a1 hp).mp hadj
      exact ⟨q, .snoc hq r1 r2 ((gd_obj hd hp).mp ho)⟩
  · rintro ⟨q, h⟩
    induction n generalizing p with
    | zero =>
      cases h with
      | snoc h1 hr hne ho =>
        cases h1 with
        | nil _ hz =>
          exact .one (offOf_lt hp) ((gd_obj hd hp).mpr ho) ((mem_nb_iff hp hz.in).mpr ⟨hsym _ _ hr, hne.symm⟩) ((gd_bg hd hz.in).mpr hz)
    | succ n ih =>
      cases h with
      | snoc h1 hr hne ho =>
        exact .step (ih h1.in h1) (offOf_lt hp) ((gd_obj hd hp).mpr ho) ((mem_nb_iff h1.in hp).mpr ⟨hr, hne⟩)

/-- C83: the value of each pixel is the least length of a walk that starts on a zero pixel of the mask and stays in the mask; pixels that cannot
be reached get zero. Partial: unsigned types of at most 16 bits, a symmetric element, distances that fit in the type, and an output
image that holds zeros on the object. -/
theorem C83_distance_partial (E : Env (Px t)) (se : StrElt) (im ms out : Img (Px t)) (hs : t.signed = false) (hb : t.bits ≤ 16)
    (h1 : 1 ≤ t.hi) (hsym : ∀ p q, seRel se p q → seRel se q p) (ha : im.alloc = true) (hm : ms.dims = im.dims)
    (ho : out.dims = im.dims) (hz : ∀ p v, MaskObj im ms p → out.at? p = some v → v.val = 0)
    (hmax : ∀ p k, IsLeast (geoLens se im ms p) k → (k : Int) ≤ t.hi) :
    ∃ o, distGeodesic E se im ms out = some (.ok o) ∧ o.dims = im.dims ∧ ∀ p v, o.at? p = some v →
      (∀ k, IsLeast (geoLens se im ms p) k → v.val = k) ∧ (geoLens se im ms p = ∅ → v.val = 0) := by
  have hacc : Accepts3 E im ms out := ⟨ha, by unfold Img.alloc at *; rw [ho]; exact ha, hm, Or.inl ho⟩
  have hlvl : ∀ k i, i < im.dims.count → GdLvl (gdCfg se im ms) k i → IsLeast (geoLens se im ms (coordPt im.dims i)) k := by
    intro k i hi hk
    obtain ⟨a1, a2⟩ := coordPt_in (D := im.dims) hi
    have hpos := hk.1.pos
    obtain ⟨k, rfl⟩ : ∃ k', k = k' + 1 := ⟨k - 1, by omega⟩
    have hobj : MaskObj im ms (coordPt im.dims i) := (gd_obj (se := se) hm a1).mp (by rw [a2]; exact hk.1.obj)
    refine ⟨(gdLen_iff hsym hm k a1).mp (by rw [a2]; exact hk.1), ?_⟩
    rintro n ⟨q, hn⟩
    cases n with
    | zero =>
      exfalso
      cases hn with
      | nil _ h =>
        obtain ⟨v, m, e1, -, e3, -⟩ := h
        obtain ⟨v', m', e1', -, e3', -⟩ := hobj
        rw [e1] at e1'
        cases e1'
        omega
    | succ n =>
      apply hk.2
      show GdLen _ _ _
      have := (gdLen_iff hsym hm n a1).mpr ⟨q, hn⟩
      rw [a2] at this
      exact this
  obtain ⟨o, r1, r2⟩ := gdRun_spec (C := gdCfg se im ms) hs hb h1 (gdCfg_ok hs se im ms hsym)
    (fun k i hk => hmax _ k (hlvl k i hk.1.lt hk)) out.buf (by
      intro i hi hobj
      obtain ⟨a1, a2⟩ := coordPt_in (D := im.dims) hi
      rw [← a2] at hobj ⊢
      have e := Img.buf_offOf out (coordPt im.dims i) (by rw [ho]; exact a1)
      rw [ho] at e
      rw [Px.ext_iff', zero_val]
      exact hz _ _ ((gd_obj hm a1).mp hobj) e)
  refine ⟨⟨im.dims, o⟩, ?_, rfl, fun p v hv => ?_⟩
  · unfold distGeodesic
    rw [checkSize3_ok hacc]
    simp only
    rw [if_pos ho, r1]
    rfl
  · have hp : Img.In im.dims p := Img.at?_eq_some_in (⟨im.dims, o⟩ : Img (Px t)) _ _ hv
    rw [Img.buf_offOf (⟨im.dims, o⟩ : Img (Px t)) _ hp] at hv
    cases hv
    obtain ⟨s1, s2⟩ := r2 (offOf im.dims p) (offOf_lt hp)
    have hne : (∀ n, ¬ GdLen (gdCfg se im ms) n (offOf im.dims p)) → (o (offOf im.dims p)).val = 0 := s2
    constructor
    · intro k hk
      cases k with
      | zero =>
        refine s2 fun n hn => ?_
        obtain ⟨q, hq⟩ := hk.1
        cases hq with
        | nil _ h =>
          obtain ⟨v, m, e1, -, e3, -⟩ := h
          obtain ⟨v', m', e1', -, e3', -⟩ := (gd_obj hm hp).mp hn.obj
          rw [e1] at e1'
          cases e1'
          omega
      | succ k =>
        refine s1 (k + 1) ⟨(gdLen_iff hsym hm k hp).mpr hk.1, fun n hn => ?_⟩
        have hpos := GdLen.pos hn
        obtain ⟨n, rfl⟩ : ∃ n', n = n' + 1 := ⟨n - 1, by omega⟩
        exact hk.2 ((gdLen_iff hsym hm n hp).mp hn)
    · intro hem
      refine s2 fun n hn => ?_
      have hpos := GdLen.pos hn
      obtain ⟨n, rfl⟩ : ∃ n', n = n' + 1 := ⟨n - 1, by omega⟩
      have : n + 1 ∈ geoLens se im ms p := (gdLen_iff hsym hm n hp).mp hn
      rw [hem] at this
      exact this

/-- C83: all distances fit when the image has no more pixels than the largest value. -/
theorem C83_small_partial (E : Env (Px t)) (se : StrElt) (im ms out : Img (Px t)) (hs : t.signed = false) (hb : t.bits ≤ 16)
    (h1 : 1 ≤ t.hi) (hsym : ∀ p q, seRel se p q → seRel se q p) (ha : im.alloc = true) (hm : ms.dims = im.dims)
    (ho : out.dims = im.dims) (hz : ∀ p v, MaskObj im ms p → out.at? p = some v → v.val = 0)
    (hn : ((im.dims.w * im.dims.h * im.dims.d : Nat) : Int) ≤ t.hi) :
    ∃ o, distGeodesic E se im ms out = some (.ok o) ∧ o.dims = im.dims ∧ ∀ p v, o.at? p = some v →
      (∀ k, IsLeast (geoLens se im ms p) k → v.val = k) ∧ (geoLens se im ms p = ∅ → v.val = 0) := by
  refine C83_distance_partial E se im ms out hs hb h1 hsym ha hm ho hz fun p k hk => ?_
  cases k with
  | zero => simpa using t.hi_nonneg
  | succ k =>
    have hp : Img.In im.dims p := by
      obtain ⟨q, hq⟩ := hk.1
      exact hq.in
    have hl : GdLvl (gdCfg se im ms) (k + 1) (offOf im.dims p) := by
      refine ⟨(gdLen_iff hsym hm k hp).mpr hk.1, fun n hn => ?_⟩
      have hpos := GdLen.pos hn
      obtain ⟨n, rfl⟩ : ∃ n', n = n' + 1 := ⟨n - 1, by omega⟩
      exact hk.2 ((gdLen_iff hsym hm n hp).mp hn)
    have hle : k + 1 ≤ im.dims.count := hl.le
    unfold Dims.count at hle
    rw [show im.dims.d * im.dims.h * im.dims.w = im.dims.w * im.dims.h * im.dims.d by ring] at hle
    omega

/-- Images that meet the hypotheses: zeros in the output, fifteen pixels at most 255 apart. -/
example : ∃ o, distGeodesic exEnv8 (SquSE 1) (im8 ⟨5, 3, 1⟩ [0, 1, 1, 1, 1, 1, 1, 7]) (im8 ⟨5, 3, 1⟩ [1, 0, 1, 0, 1, 1, 1, 1]) (im8 ⟨5, 3, 1⟩ []) =
    some (.ok o) :=
  let ⟨o, h, _⟩ := C83_small_partial exEnv8 (SquSE 1) (im8 ⟨5, 3, 1⟩ [0, 1, 1, 1, 1, 1, 1, 7]) (im8 ⟨5, 3, 1⟩ [1, 0, 1, 0, 1, 1, 1, 1])
    (im8 ⟨5, 3, 1⟩ []) rfl (by decide) (by decide) (seRel_symm (by decide)) (by decide) rfl rfl
    (fun p v _ hv => by
      rw [Img.buf_offOf _ p (Img.at?_eq_some_in _ _ _ hv)] at hv
      cases hv
      simp only [im8, List.getD_nil]
      decide) (by decide)
  ⟨o, h⟩

/-- C83: images that are not allocated, or whose sizes differ while automatic resizing is off, are refused. -/
theorem C83_refused (E : Env (Px t)) (se : StrElt) (im ms out : Img (Px t)) :
    (im.alloc = false ∨ ms.alloc = false ∨ out.alloc = false → distGeodesic E se im ms out = some (.error errBadAllocation)) ∧
    (im.alloc = true → ms.alloc = true → out.alloc = true → ¬ (ms.dims = im.dims ∧ out.dims = im.dims) → E.auto = false →
      distGeodesic E se im ms out = some (.error errBadSize)) := by
  unfold distGeodesic checkSize3
  constructor
  · intro h
    rw [if_pos h]
  · intro a1 a2 a3 a4 a5
    rw [if_neg (by rw [a1, a2, a3]; simp), if_neg a4, if_neg (by rw [a5]; simp)]

/-- C83: what the output held before is taken for a distance on the pixels of the object that do not touch the background: the third pixel is at
distance two, and keeps its nine. -/
theorem C83_stale_bug :
    vals8 (distGeodesic exEnv8 (SquSE 1) (im8 ⟨3, 1, 1⟩ [0, 1, 1]) (im8 ⟨3, 1, 1⟩ [1, 1, 1]) (im8 ⟨3, 1, 1⟩ [9, 9, 9])) = [0, 1, 9] ∧
    vals8 (distGeodesic exEnv8 (SquSE 1) (im8 ⟨3, 1, 1⟩ [0, 1, 1]) (im8 ⟨3, 1, 1⟩ [1, 1, 1]) (im8 ⟨3, 1, 1⟩ [0, 0, 0])) = [0, 1, 2] ∧
    IsLeast (geoLens (SquSE 1) (im8 ⟨3, 1, 1⟩ [0, 1, 1]) (im8 ⟨3, 1, 1⟩ [1, 1, 1]) ⟨2, 0, 0⟩) 2 := by
  refine ⟨by decide +kernel, by decide +kernel, ⟨⟨0, 0, 0⟩, ?_⟩, ?_⟩
  · refine .snoc (c := ⟨1, 0, 0⟩) (.snoc (c := ⟨0, 0, 0⟩) (.nil _ ?_) ?_ (by decide) ?_) ?_ (by decide) ?_
    · exact ⟨UINT8.wrap 0, UINT8.wrap 1, by decide, by decide, by decide, by decide⟩
    · unfold seRel; decide
    · exact ⟨UINT8.wrap 1, UINT8.wrap 1, by decide, by decide, by decide, by decide⟩
    · unfold seRel; decide
    · exact ⟨UINT8.wrap 1, UINT8.wrap 1, by decide, by decide, by decide, by decide⟩
  · rintro n ⟨q, h⟩
    by_contra hn
    have hn' : n = 0 ∨ n = 1 := by omega
    rcases hn' with rfl | rfl
    · cases h with
      | nil _ h =>
        obtain ⟨v, m, e1, -, e3, -⟩ := h
        have e : (im8 ⟨3, 1, 1⟩ [0, 1, 1]).at? ⟨2, 0, 0⟩ = some (UINT8.wrap 1) := by decide
        rw [e] at e1
        cases e1
        exact absurd e3 (by decide)
    · cases h with
      | snoc h1 hr _ _ =>
        cases h1 with
        | nil _ h =>
          have hin := h.in
          obtain ⟨v, m, e1, -, e3, -⟩ := h
          obtain ⟨x, y, z⟩ := q
          unfold Img.In at hin
          simp only [im8] at hin
          obtain rfl : y = 0 := by omega
          obtain rfl : z = 0 := by omega
          obtain rfl | hx : x = 0 ∨ x ≠ 0 := em _
          · revert hr
            unfold seRel
            decide
          · obtain rfl | rfl : x = 1 ∨ x = 2 := by omega
            · have e : (im8 ⟨3, 1, 1⟩ [0, 1, 1]).at? ⟨1, 0, 0⟩ = some (UINT8.wrap 1) := by decide
              rw [e] at e1
              cases e1
              exact absurd e3 (by decide)
            · have e : (im8 ⟨3, 1, 1⟩ [0, 1, 1]).at? ⟨2, 0, 0⟩ = some (UINT8.wrap 1) := by decide
              rw [e] at e1
              cases e1
              exact absurd e3 (by decide)

/-- C83: a distance that does not fit in the type is converted from `float` all the same, which is undefined: a line of 257 pixels. -/
theorem C83_overflow_bug :
    (distGeodesic exEnv8 (SquSE 1) (im8 ⟨257, 1, 1⟩ (0 :: List.replicate 256 1)) (im8 ⟨257, 1, 1⟩ (List.replicate 257 1))
      (im8 ⟨257, 1, 1⟩ [])).isNone = true := by
  decide +kernel

/-- An object with a hole in the mask: the walk has to go around. -/
example : vals8 (distGeodesic exEnv8 (SquSE 1) (im8 ⟨5, 2, 1⟩ [0, 1, 1, 1, 1, 1, 1, 1, 1, 1]) (im8 ⟨5, 2, 1⟩ [1, 0, 1, 0, 1, 1, 1, 0, 0, 1])
    (im8 ⟨5, 2, 1⟩ [])) = [0, 0, 2, 0, 0, 1, 1, 0, 0, 0] := by decide +kernel

end
end Smil
