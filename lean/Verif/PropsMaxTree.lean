import Verif.MaxTreeUse
import Verif.PropsAreaOpen
import Verif.PropsMorphoAlgebra

/-!
# Attribute openings and closings by max-tree (C51, C63)

Specification: a condition on sets of points (enough points, enough lines, enough columns), the largest level at
which the component of the pixel satisfies it.
-/

namespace Smil
open StrElt Relation
variable {α : Type} {t : PT}

/-- `b` is the value at `p` of the opening of `im` by the condition `B`: the largest level not above the pixel
whose component satisfies `B`; when even the whole component of the pixel does not, its least value. -/
def IsAttrAt [LinearOrder α] (N : IntPoint → IntPoint → Prop) (B : Set IntPoint → Prop) (im : Img α)
    (p : IntPoint) (b : α) : Prop :=
  (∃ a, im.at? p = some a ∧ b ≤ a ∧ ∀ v, b < v → v ≤ a → ¬ B (levelSet N im v p)) ∧
  (B (levelSet N im b p) ∨
    (¬ B (wholeSet N im p) ∧ (∃ q ∈ wholeSet N im p, im.at? q = some b) ∧
      ∀ q ∈ wholeSet N im p, ∀ c, im.at? q = some c → b ≤ c))

/-- `out` is the opening of `im` by the condition `B`. -/
structure IsAttrOpen [LinearOrder α] (N : IntPoint → IntPoint → Prop) (B : Set IntPoint → Prop)
    (im out : Img α) : Prop where
  dims : out.dims = im.dims
  val : ∀ p, Img.In im.dims p → ∃ b, out.at? p = some b ∧ IsAttrAt N B im p b

/-- At least `n` points. -/
def BigArea (n : Nat) (S : Set IntPoint) : Prop := n ≤ S.ncard
/-- At least `n` lines from the first to the last. -/
def BigHeight (n : Nat) (S : Set IntPoint) : Prop := ∃ p ∈ S, ∃ q ∈ S, (n : Int) ≤ q.y - p.y + 1
/-- At least `n` columns from the first to the last. -/
def BigWidth (n : Nat) (S : Set IntPoint) : Prop := ∃ p ∈ S, ∃ q ∈ S, (n : Int) ≤ q.x - p.x + 1

/-- The area opening is the opening by the number of points. -/
theorem isAreaOpen_of_attr [LinearOrder α] {N : IntPoint → IntPoint → Prop} {n : Nat} {im out : Img α}
    (h : IsAttrOpen N (BigArea n) im out) : IsAreaOpen N n im out := by
  refine ⟨h.dims, fun p a ha => ?_⟩
  obtain ⟨b, hb, ⟨a', ha', h1, h2⟩, h3⟩ := h.val p (Img.at?_eq_some_in _ _ _ ha)
  rw [ha] at ha'
  cases ha'
  refine ⟨b, hb, ?_⟩
  rcases h3 with h3 | ⟨h3, h4⟩
  · exact .inl ⟨h1, h3, fun v hv hv' => Nat.lt_of_not_le (h2 v hv hv')⟩
  · exact .inr ⟨Nat.lt_of_not_le h3, h4⟩

/-- The specification determines the image. -/
theorem C63_unique [LinearOrder α] {N : IntPoint → IntPoint → Prop} {B : Set IntPoint → Prop}
    {im o o' : Img α} (h : IsAttrOpen N B im o) (h' : IsAttrOpen N B im o') (p : IntPoint) : o.at? p = o'.at? p := by
  by_cases hp : Img.In im.dims p
  · obtain ⟨b, hb, ⟨a, ha, h1, h2⟩, h3⟩ := h.val p hp
    obtain ⟨b', hb', ⟨a', ha', h1', h2'⟩, h3'⟩ := h'.val p hp
    rw [ha] at ha'
    cases ha'
    rw [hb, hb']
    have hw : ∀ {c d : α}, (∃ q ∈ wholeSet N im p, im.at? q = some c) →
        (∀ q ∈ wholeSet N im p, ∀ c, im.at? q = some c → d ≤ c) → d ≤ c := by
      rintro c d ⟨q, hq, hc⟩ hd
      exact hd q hq c hc
    -- below the least value of the component, the level set is the whole component
    have hall : ∀ {c : α}, (∀ q ∈ wholeSet N im p, ∀ d, im.at? q = some d → c ≤ d) →
        levelSet N im c p = wholeSet N im p := by
      intro c hc
      apply Set.Subset.antisymm (levelSet_sub im c p)
      intro q hq
      have : LinkPath N (fun _ _ => True) im p q := hq
      clear hq
      change LinkPath N (fun a b => c ≤ a ∧ c ≤ b) im p q
      induction this with
      | refl h => exact .refl h
      | step h1 h2 h3 h4 _ ih =>
        exact .step ih h2 h3 h4 ⟨hc _ h1 _ h3, hc _ (LinkPath.step h1 h2 h3 h4 trivial) _ h4⟩
    congr 1
    rcases lt_trichotomy b b' with hl | hl | hl
    · exfalso
      rcases h3' with h3' | ⟨h3', h4', h5'⟩
      · exact h2 b' hl h1' h3'
      · rcases h3 with h3 | ⟨h3, h4, h5⟩
        · rw [hall (fun q hq d hd => hl.le.trans (h5' q hq d hd))] at h3
          exact h3' h3
        · exact absurd (hw h4 h5') (not_le.mpr hl)
    · exact hl
    · exfalso
      rcases h3 with h3 | ⟨h3, h4, h5⟩
      · exact h2' b hl h1 h3
      · rcases h3' with h3' | ⟨h3', h4', h5'⟩
        · rw [hall (fun q hq d hd => hl.le.trans (h5 q hq d hd))] at h3'
          exact h3 h3'
        · exact absurd (hw h4' h5) (not_le.mpr hl)
  · rw [Img.at?_none o p (by rw [h.dims]; exact hp), Img.at?_none o' p (by rw [h'.dims]; exact hp)]

/-! ### From offsets to points -/

section
variable {se : StrElt} {im : Img (Px t)}

/-- The points of a set of offsets. -/
def offPts (D : Dims) (T : Set Nat) : Set IntPoint := {q | Img.In D q ∧ offOf D q ∈ T}

theorem offPts_acomp {link : Px t → Px t → Bool} {S : Nat → Prop}
    (hS : ∀ i j, i < im.dims.count → j < im.dims.count →
      (link (im.buf j) (im.buf i) = true ↔ (S i ∧ S j)))
    {p : IntPoint} (hp : Img.In im.dims p) :
    offPts im.dims (acomp (nbOffsets im.dims se) S (offOf im.dims p)) =
      {q | LinkPath (seRel se) (fun a b => link b a = true) im p q} := by
  ext q
  constructor
  · rintro ⟨hq, h⟩
    exact (linkPath_iff hp hq).mpr ((aconn_reach hS (offOf_lt hp)).mp h)
  · intro h
    have hq := (LinkPath.in h).2
    exact ⟨hq, (aconn_reach hS (offOf_lt hp)).mpr (reach_of_linkPath h)⟩

theorem offPts_whole {p : IntPoint} (hp : Img.In im.dims p) :
    offPts im.dims (acomp (nbOffsets im.dims se) (· < im.dims.count) (offOf im.dims p)) =
      wholeSet (seRel se) im p := by
  rw [offPts_acomp (im := im) (link := fun _ _ => true) (by intro i j hi hj; simp [hi, hj]) hp]
  unfold wholeSet
  simp

theorem toNat_le_iff (hs : t.signed = false) (a b : Px t) : a.val.toNat ≤ b.val.toNat ↔ a ≤ b := by
  rw [Px.le_iff]
  have h := lo_unsigned (t := t) hs
  have := a.lo_le
  have := b.lo_le
  omega

theorem offPts_level (hs : t.signed = false) (v : Px t) {p : IntPoint} (hp : Img.In im.dims p) :
    offPts im.dims (acomp (nbOffsets im.dims se)
      (ALev im.dims.count (fun i => (im.buf i).val.toNat) v.val.toNat) (offOf im.dims p)) =
      levelSet (seRel se) im v p := by
  rw [offPts_acomp (im := im) (link := fun a b => decide (v ≤ b ∧ v ≤ a)) (by
    intro i j hi hj
    simp [ALev, hi, hj, toNat_le_iff hs]) hp]
  unfold levelSet
  simp

theorem cardT_unsigned (hs : t.signed = false) (hb : t.bits ≤ 16) : cardT t = some (2 ^ t.bits) := by
  have h1 : (2 : Nat) ^ t.bits ≤ 2 ^ 16 := Nat.pow_le_pow_right (by norm_num) hb
  have h0 := Nat.one_le_two_pow (n := t.bits)
  have e1 : t.hi = (2 ^ t.bits : Nat) - 1 := by unfold PT.hi; simp [hs]
  have e2 := lo_unsigned (t := t) hs
  unfold cardT
  rw [e1, e2]
  generalize 2 ^ t.bits = N at *
  rw [cpp_small hb (by omega) (by omega)]
  simp only [Option.bind_eq_bind, Option.bind_some]
  rw [cpp_small hb (by omega) (by omega)]
  simp only [Option.bind_some, sizeT]
  congr 1
  omega

theorem mtCfg_ok (hs : t.signed = false) (hb : t.bits ≤ 16) (hN : ∀ p q, seRel se p q → seRel se q p)
    (hsm : im.dims.count < 41943040) : (mtCfg (2 ^ t.bits) se im).Ok := by
  have h1 : (2 : Nat) ^ t.bits ≤ 2 ^ 16 := Nat.pow_le_pow_right (by norm_num) hb
  have h0 := Nat.one_le_two_pow (n := t.bits)
  have e1 : t.hi = (2 ^ t.bits : Nat) - 1 := by unfold PT.hi; simp [hs]
  have e2 := lo_unsigned (t := t) hs
  refine ⟨⟨?_, ?_⟩, rfl, ?_, fun i hi j hj => nbOffsets_lt hi hj, fun i hi j hj => nbOffsets_symm hN hi hj, hsm⟩
  · simp only [mtCfg, e1]; omega
  · simp only [mtCfg]; omega
  · intro i _
    have h3 := (im.buf i).le_hi
    have h4 := (im.buf i).lo_le
    simp only [mtCfg]
    omega

/-- The opening, for any criterion that decides the condition `B`. -/
theorem attributeOpen_spec {M : Type} {K : MTCrit M} {Good : M → Finset Nat → Prop} {B : Set IntPoint → Prop}
    {auto : Bool} {dout : Dims} {stop : Nat} (hok : AcceptsD auto im.dims dout)
    (hs : t.signed = false) (hb : t.bits ≤ 16) (hN : ∀ p q, seRel se p q → seRel se q p)
    (hsm : im.dims.count < 41943040) (hG : MTGood K (mtCfg (2 ^ t.bits) se im) Good)
    (hB : ∀ m (S : Finset Nat), S.Nonempty → (∀ i ∈ S, i < im.dims.count) → Good m S →
      (stop ≤ K.val m ↔ B (offPts im.dims S))) :
    ∃ out z, attributeOpen K auto se stop im dout = some (.ok out) ∧ out.dims = im.dims ∧ Img.In im.dims z ∧
      (∀ a q c, im.at? z = some a → im.at? q = some c → a ≤ c) ∧
      (∀ p ∈ wholeSet (seRel se) im z, ∃ b, out.at? p = some b ∧ IsAttrAt (seRel se) B im p b) ∧
      ∀ p, Img.In im.dims p → p ∉ wholeSet (seRel se) im z → out.at? p = some Px.zero := by
  have e1 : t.hi = (2 ^ t.bits : Nat) - 1 := by unfold PT.hi; simp [hs]
  have e2 := lo_unsigned (t := t) hs
  obtain ⟨o, e, z, hz, hzm, h1, h2⟩ := mtOpen_spec (K := K) (stop := stop) (top := t.hi.toNat)
    (mtCfg_ok (im := im) hs hb hN hsm) hG
    (Nat.pos_of_ne_zero hok.1) (fun i _ => by
      have := (im.buf i).le_hi
      simp only [mtCfg]; omega) (B := fun T => B (offPts im.dims T)) hB
  have hcz := coordPt_in hz
  have hwz : ∀ {p}, Img.In im.dims p → (p ∈ wholeSet (seRel se) im (coordPt im.dims z) ↔
      AConn (nbOffsets im.dims se) (· < im.dims.count) z (offOf im.dims p)) := by
    intro p hp
    rw [← offPts_whole hcz.1, hcz.2]
    exact ⟨fun h => h.2, fun h => ⟨hp, h⟩⟩
  refine ⟨⟨im.dims, fun i => t.wrap (o i)⟩, coordPt im.dims z, ?_, rfl, hcz.1, ?_, ?_, ?_⟩
  · unfold attributeOpen
    rw [checkDims_ok hok]
    simp only [cardT_unsigned hs hb, e, Option.bind_eq_bind, Option.bind_some]
    rfl
  · intro a q c ha hc
    have hq := Img.at?_eq_some_in _ _ _ hc
    rw [Img.buf_offOf im q hq] at hc
    rw [Img.buf_offOf im _ hcz.1, hcz.2] at ha
    cases hc; cases ha
    rw [← toNat_le_iff hs]
    exact hzm _ (offOf_lt hq)
  · intro p hpw
    have hp := (LinkPath.in hpw).2
    have hconn := (hwz hp).mp hpw
    obtain ⟨h3, h4⟩ := h1 _ hconn
    refine ⟨_, Img.buf_offOf ⟨im.dims, fun i => t.wrap (o i)⟩ p hp, ?_⟩
    simp only
    have hle := (im.buf (offOf im.dims p)).le_hi
    have hlo := (im.buf (offOf im.dims p)).lo_le
    simp only [mtCfg] at h3
    have hw : (t.wrap (o (offOf im.dims p))).val = o (offOf im.dims p) := by
      rw [PT.wrap_of_mem] <;> omega
    have hw' : o (offOf im.dims p) = (t.wrap (o (offOf im.dims p))).val.toNat := by omega
    generalize t.wrap (o (offOf im.dims p)) = b at *
    rw [hw'] at h4 h3
    have hlev : ∀ v : Px t, offPts im.dims (acomp (nbOffsets im.dims se)
        (ALev im.dims.count (fun i => (im.buf i).val.toNat) v.val.toNat) (offOf im.dims p)) =
        levelSet (seRel se) im v p := fun v => offPts_level hs v hp
    have hno : ∀ v, b < v → v ≤ im.buf (offOf im.dims p) → ¬ B (levelSet (seRel se) im v p) := by
      intro v hv hv'
      have h5 : b.val.toNat < v.val.toNat := by
        rw [← not_le, toNat_le_iff hs]; exact not_le.mpr hv
      have h6 := (toNat_le_iff hs _ _).mpr hv'
      rw [← hlev]
      rcases h4 with ⟨_, h4⟩ | ⟨_, _, h4⟩
      · exact h4 _ h5 h6
      · exact h4 _ h5 h6
    refine ⟨⟨_, Img.buf_offOf im p hp, (toNat_le_iff hs _ _).mp h3, hno⟩, ?_⟩
    rcases h4 with ⟨h4, _⟩ | ⟨h4, h5, _⟩
    · left
      rw [← hlev]
      exact h4
    · right
      have hbz : b = im.buf z := by
        apply Px.ext
        simp only [mtCfg] at h5
        have := (im.buf z).lo_le
        have := b.lo_le
        omega
      refine ⟨by rw [← offPts_whole hp]; exact h4, ⟨coordPt im.dims z, ?_, ?_⟩, ?_⟩
      · exact LinkPath.symm hN (fun _ _ _ => trivial) hpw
      · rw [Img.buf_offOf im _ hcz.1, hcz.2, hbz]
      · intro q hq c hc
        have hq' := (LinkPath.in hq).2
        rw [Img.buf_offOf im q hq'] at hc
        cases hc
        rw [hbz, ← toNat_le_iff hs]
        exact hzm _ (offOf_lt hq')
  · intro p hp hpw
    rw [Img.buf_offOf ⟨im.dims, fun i => t.wrap (o i)⟩ p hp]
    simp only
    rw [h2 _ (offOf_lt hp) (fun h => hpw ((hwz hp).mpr h))]
    congr 1
    exact Px.ext (t.wrap_of_mem t.lo_nonpos t.hi_nonneg)

end

/-! ### The criteria -/

/-- The number of pixels. -/
def AreaGood (m : Nat) (S : Finset Nat) : Prop := m = S.card

theorem areaGood (C : MTCfg) : MTGood areaCrit C AreaGood := by
  classical
  refine ⟨rfl, ?_, ?_⟩
  · intro m S i _ hi h
    unfold AreaGood at *
    rw [Finset.card_insert_of_notMem hi, ← h]
    rfl
  · intro m m' S S' hd h h'
    unfold AreaGood at *
    rw [Finset.card_union_of_disjoint hd, ← h, ← h']
    rfl

/-- The greatest and the least of a coordinate. -/
def SpanGood (g : Nat → Nat) (m : Nat × Nat) (S : Finset Nat) : Prop :=
  (∀ i ∈ S, g i ≤ m.1 ∧ m.2 ≤ g i) ∧ (m.1 = 0 ∨ ∃ i ∈ S, g i = m.1) ∧ (m.2 = 2 ^ 64 - 1 ∨ ∃ i ∈ S, g i = m.2)

theorem spanGood_upd {g : Nat → Nat} {m : Nat × Nat} {S : Finset Nat} {i : Nat} (h : SpanGood g m S) :
    SpanGood g (max m.1 (g i), min m.2 (g i)) (insert i S) := by
  obtain ⟨h1, h2, h3⟩ := h
  refine ⟨fun j hj => ?_, ?_, ?_⟩
  · rcases Finset.mem_insert.mp hj with hj | hj
    · subst hj; simp
    · have := h1 j hj; simp only; omega
  · rcases le_total m.1 (g i) with hl | hl
    · exact .inr ⟨i, by simp, by simp [hl]⟩
    · simp only [max_eq_left hl]
      exact h2.imp id fun ⟨j, hj, e⟩ => ⟨j, by simp [hj], e⟩
  · rcases le_total m.2 (g i) with hl | hl
    · simp only [min_eq_left hl]
      exact h3.imp id fun ⟨j, hj, e⟩ => ⟨j, by simp [hj], e⟩
    · exact .inr ⟨i, by simp, by simp [hl]⟩

theorem spanGood_merge {g : Nat → Nat} {m m' : Nat × Nat} {S S' : Finset Nat} (h : SpanGood g m S)
    (h' : SpanGood g m' S') : SpanGood g (max m.1 m'.1, min m.2 m'.2) (S ∪ S') := by
  obtain ⟨h1, h2, h3⟩ := h
  obtain ⟨h1', h2', h3'⟩ := h'
  refine ⟨fun j hj => ?_, ?_, ?_⟩
  · rcases Finset.mem_union.mp hj with hj | hj
    · have := h1 j hj; simp only; omega
    · have := h1' j hj; simp only; omega
  · rcases le_total m.1 m'.1 with hl | hl
    · simp only [max_eq_right hl]
      exact h2'.imp id fun ⟨j, hj, e⟩ => ⟨j, by simp [hj], e⟩
    · simp only [max_eq_left hl]
      exact h2.imp id fun ⟨j, hj, e⟩ => ⟨j, by simp [hj], e⟩
  · rcases le_total m.2 m'.2 with hl | hl
    · simp only [min_eq_left hl]
      exact h3.imp id fun ⟨j, hj, e⟩ => ⟨j, by simp [hj], e⟩
    · simp only [min_eq_right hl]
      exact h3'.imp id fun ⟨j, hj, e⟩ => ⟨j, by simp [hj], e⟩

theorem heightGood (C : MTCfg) : MTGood heightCrit C (SpanGood fun i => (C.pos i).2.1) :=
  ⟨⟨by simp, .inl rfl, .inl rfl⟩, fun _ _ h => spanGood_upd h, fun _ h h' => spanGood_merge h h'⟩

theorem widthGood (C : MTCfg) : MTGood widthCrit C (SpanGood fun i => (C.pos i).1) :=
  ⟨⟨by simp, .inl rfl, .inl rfl⟩, fun _ _ h => spanGood_upd h, fun _ h h' => spanGood_merge h h'⟩

theorem spanGood_val {g : Nat → Nat} {m : Nat × Nat} {S : Finset Nat} {n : Nat} (hS : S.Nonempty)
    (hg : ∀ i ∈ S, g i < 41943040) (h : SpanGood g m S) :
    n ≤ spanVal m ↔ ∃ i ∈ S, ∃ j ∈ S, (n : Int) ≤ (g j : Int) - g i + 1 := by
  obtain ⟨h1, h2, h3⟩ := h
  obtain ⟨x, hx⟩ := hS
  have hx1 := h1 x hx
  have hx2 := hg x hx
  obtain ⟨j, hj, ej⟩ : ∃ j ∈ S, g j = m.1 := by
    rcases h2 with h2 | h2
    · exact ⟨x, hx, by omega⟩
    · exact h2
  obtain ⟨i, hi, ei⟩ : ∃ i ∈ S, g i = m.2 := by
    rcases h3 with h3 | h3
    · exfalso; omega
    · exact h3
  have hj2 := hg j hj
  have hi1 := h1 i hi
  unfold spanVal sizeT
  constructor
  · intro h
    exact ⟨i, hi, j, hj, by omega⟩
  · rintro ⟨i', hi', j', hj', h⟩
    have := h1 i' hi'
    have := h1 j' hj'
    omega

section
variable {se : StrElt} {im : Img (Px t)}

theorem offPts_finset {D : Dims} {S : Finset Nat} (hS : ∀ i ∈ S, i < D.count) :
    offPts D S = coordPt D '' S := by
  ext q
  constructor
  · rintro ⟨hq, h⟩
    exact ⟨_, h, coordPt_offOf hq⟩
  · rintro ⟨i, hi, rfl⟩
    have := coordPt_in (hS i hi)
    exact ⟨this.1, by rw [this.2]; exact hi⟩

theorem big_area {D : Dims} {n m : Nat} {S : Finset Nat} (hS : ∀ i ∈ S, i < D.count) (h : AreaGood m S) :
    n ≤ areaCrit.val m ↔ BigArea n (offPts D S) := by
  unfold BigArea
  rw [offPts_finset hS, Set.InjOn.ncard_image, Set.ncard_coe_finset, ← h]
  · rfl
  · intro i hi j hj e
    rw [← (coordPt_in (hS i hi)).2, e, (coordPt_in (hS j hj)).2]

theorem big_height {nbr n : Nat} {m : Nat × Nat} {S : Finset Nat} (hsm : im.dims.count < 41943040)
    (h0 : S.Nonempty) (hS : ∀ i ∈ S, i < im.dims.count)
    (h : SpanGood (fun i => ((mtCfg nbr se im).pos i).2.1) m S) :
    n ≤ heightCrit.val m ↔ BigHeight n (offPts im.dims S) := by
  have hy : ∀ i, ((coordPt im.dims i).y : Int) = ((mtCfg nbr se im).pos i).2.1 := fun i => rfl
  refine (spanGood_val h0 (fun i hi => ?_) h).trans ?_
  · have h1 := hS i hi
    have h2 := (coordPt_in h1).1
    unfold Img.In at h2
    have h3 := hy i
    have hpos : 0 < im.dims.count := by omega
    have : im.dims.h ≤ im.dims.count := by
      unfold Dims.count at hpos ⊢
      rw [Nat.mul_assoc, Nat.mul_comm im.dims.h, ← Nat.mul_assoc]
      exact Nat.le_mul_of_pos_left _ (Nat.pos_of_mul_pos_right (by
        rw [Nat.mul_assoc, Nat.mul_comm im.dims.h, ← Nat.mul_assoc] at hpos; exact hpos))
    omega
  · unfold BigHeight
    rw [offPts_finset hS]
    simp only [Set.mem_image, Finset.mem_coe, exists_exists_and_eq_and, hy]

theorem big_width {nbr n : Nat} {m : Nat × Nat} {S : Finset Nat} (hsm : im.dims.count < 41943040)
    (h0 : S.Nonempty) (hS : ∀ i ∈ S, i < im.dims.count)
    (h : SpanGood (fun i => ((mtCfg nbr se im).pos i).1) m S) :
    n ≤ widthCrit.val m ↔ BigWidth n (offPts im.dims S) := by
  have hx : ∀ i, ((coordPt im.dims i).x : Int) = ((mtCfg nbr se im).pos i).1 := fun i => rfl
  refine (spanGood_val h0 (fun i hi => ?_) h).trans ?_
  · have h1 := hS i hi
    have h2 : i % im.dims.w ≤ i := Nat.mod_le _ _
    simp only [mtCfg]
    omega
  · unfold BigWidth
    rw [offPts_finset hS]
    simp only [Set.mem_image, Finset.mem_coe, exists_exists_and_eq_and, hx]

end

/-! ### The theorems -/

/-- Any two points of an image of these dimensions are joined. -/
def ConnectedBy (N : IntPoint → IntPoint → Prop) (D : Dims) : Prop :=
  ∀ p q, Img.In D p → Img.In D q → ReflTransGen (fun a b => Img.In D b ∧ N a b) p q

theorem ConnectedBy.whole {N : IntPoint → IntPoint → Prop} {im : Img α} (h : ConnectedBy N im.dims) {p q : IntPoint}
    (hp : Img.In im.dims p) (hq : Img.In im.dims q) : q ∈ wholeSet N im p := by
  change LinkPath _ _ _ _ _
  have := h p q hp hq
  clear hq
  induction this with
  | refl => exact .refl hp
  | tail _ h2 ih =>
    exact .step ih h2.2 (Img.buf_offOf im _ (LinkPath.in ih).2) (Img.buf_offOf im _ h2.1) trivial

/-- What `areaOpen`, `heightOpen` and `widthOpen` compute on any neighbourhood: `z` is a pixel of least value; the
pixels joined to `z` receive the opening, the others 0. -/
def IsOpenAround (N : IntPoint → IntPoint → Prop) (B : Set IntPoint → Prop) (im out : Img (Px t)) : Prop :=
  out.dims = im.dims ∧ ∃ z, Img.In im.dims z ∧ (∀ a q c, im.at? z = some a → im.at? q = some c → a ≤ c) ∧
    (∀ p ∈ wholeSet N im z, ∃ b, out.at? p = some b ∧ IsAttrAt N B im p b) ∧
    ∀ p, Img.In im.dims p → p ∉ wholeSet N im z → out.at? p = some Px.zero

theorem IsOpenAround.connected {N : IntPoint → IntPoint → Prop} {B : Set IntPoint → Prop} {im out : Img (Px t)}
    (h : IsOpenAround N B im out) (hc : ConnectedBy N im.dims) : IsAttrOpen N B im out := by
  obtain ⟨hd, z, hz, _, h1, _⟩ := h
  exact ⟨hd, fun p hp => h1 p (hc.whole hz hp)⟩

section
variable (auto : Bool) (se : StrElt) (n : Nat) (im : Img (Px t)) (dout : Dims)
  (hok : AcceptsD auto im.dims dout) (hs : t.signed = false) (hb : t.bits ≤ 16)
  (hN : ∀ p q, seRel se p q → seRel se q p) (hsm : im.dims.count < 41943040)
include hok hs hb hN hsm

/-- **C63**, partial: the area opening by max-tree, for the unsigned types of 8 and 16 bits, every symmetric
element, including the hexagonal ones, every size, and images of fewer than 41943040 pixels (the number of nodes that
fit in the pages). Missing: 32 bit and signed types (`C63_uint32_ub`), and pixels that are not joined to the
minimum (`C63_disconnected_bug`). -/
theorem C63_area_partial :
    ∃ out, attributeOpen areaCrit auto se n im dout = some (.ok out) ∧
      IsOpenAround (seRel se) (BigArea n) im out := by
  obtain ⟨out, z, e, h1, h2⟩ := attributeOpen_spec (K := areaCrit) (stop := n) (B := BigArea n) hok hs hb hN hsm
    (areaGood _) (fun m S _ hS h => big_area hS h)
  exact ⟨out, e, h1, z, h2⟩

/-- **C63**, partial: the height opening; see `C63_area_partial`. -/
theorem C63_height_partial :
    ∃ out, attributeOpen heightCrit auto se n im dout = some (.ok out) ∧
      IsOpenAround (seRel se) (BigHeight n) im out := by
  obtain ⟨out, z, e, h1, h2⟩ := attributeOpen_spec (K := heightCrit) (stop := n) (B := BigHeight n) hok hs hb hN hsm
    (heightGood _) (fun m S h0 hS h => big_height hsm h0 hS h)
  exact ⟨out, e, h1, z, h2⟩

/-- **C63**, partial: the width opening; see `C63_area_partial`. -/
theorem C63_width_partial :
    ∃ out, attributeOpen widthCrit auto se n im dout = some (.ok out) ∧
      IsOpenAround (seRel se) (BigWidth n) im out := by
  obtain ⟨out, z, e, h1, h2⟩ := attributeOpen_spec (K := widthCrit) (stop := n) (B := BigWidth n) hok hs hb hN hsm
    (widthGood _) (fun m S h0 hS h => big_width hsm h0 hS h)
  exact ⟨out, e, h1, z, h2⟩

/-- **C51** and **C63**, partial: on a connected neighbourhood the max-tree computes the area opening. -/
theorem C51_maxtree_partial (hc : ConnectedBy (seRel se) im.dims) :
    ∃ out, attributeOpen areaCrit auto se n im dout = some (.ok out) ∧ IsAreaOpen (seRel se) n im out := by
  obtain ⟨out, e, h⟩ := C63_area_partial auto se n im dout hok hs hb hN hsm
  exact ⟨out, e, isAreaOpen_of_attr (h.connected hc)⟩

/-- **C51**, partial: the two implementations of the area opening give the same image, for the elements of a square
grid and sizes at least 1. -/
theorem C51_agree_partial (hc : ConnectedBy (seRel se) im.dims) (ho : se.odd = false) (hn : 1 ≤ n) :
    ∃ out out', attributeOpen areaCrit auto se n im dout = some (.ok out) ∧
      areaOpening auto false se n im dout = some (.ok out') ∧ ∀ p, out.at? p = out'.at? p := by
  obtain ⟨out, e, h⟩ := C51_maxtree_partial auto se n im dout hok hs hb hN hsm hc
  obtain ⟨out', e', h'⟩ := C51_unionfind_partial auto se n im dout hok ho hN hn
  exact ⟨out, out', e, e', (C51_unique h h').2⟩

end

/-- **C63**, errors. -/
theorem C63_errors {M : Type} (K : MTCrit M) (auto : Bool) (se : StrElt) (n : Nat) (im : Img (Px t)) (dout : Dims)
    (c : Int) (h : checkDims auto im.dims dout = .error c) :
    attributeOpen K auto se n im dout = some (.error c) ∧ attributeClose K auto se n im dout = some (.error c) := by
  unfold attributeOpen attributeClose
  rw [h]
  exact ⟨rfl, rfl⟩

end Smil
