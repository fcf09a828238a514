import Verif.HExtremaLemmas
import Verif.PropsWaterfall

/-!
# C73: extrema of a given height
-/

namespace Smil
variable {t : PT}
open StrElt

theorem HMin.in {N : IntPoint → IntPoint → Prop} {f : Img (Px t)} {h : Int} {p : IntPoint}
    (hp : HMin N f h p) : Img.In f.dims p := by
  obtain ⟨q, a, _, hpath⟩ := hp
  obtain ⟨b, hb, _⟩ := hpath.ends.2
  exact Img.at?_eq_some_in _ _ _ hb

theorem HMax.in {N : IntPoint → IntPoint → Prop} {f : Img (Px t)} {h : Int} {p : IntPoint}
    (hp : HMax N f h p) : Img.In f.dims p := by
  obtain ⟨q, a, _, hpath⟩ := hp
  obtain ⟨b, hb, _⟩ := hpath.ends.2
  exact Img.at?_eq_some_in _ _ _ hb

/-- **C73** (partial: unsigned types; basins whose bottom is at less than `h` from the maximum of the type are not counted): `hMinima` is
the maximum of the type on the basins deeper than `h`, filled up to `h`, and 0 elsewhere. The input may be the output. -/
theorem C73_hMinima_partial (hs : t.signed = false) (hb1 : 1 ≤ t.bits) (hb : t.bits ≤ 64) (E : Env (Px t))
    (se : StrElt) (h : Px t) (im out : Img (Px t)) (hN : ∀ p q, seRel se p q → seRel se q p)
    (ha : Accepts E im out) :
    ∃ r, hMinima E se h im out = some (.ok r) ∧ r.dims = im.dims ∧ ∀ p, Img.In im.dims p →
      (HMin (seRel se) im h.val p → r.at? p = some ⊤) ∧
      (¬ HMin (seRel se) im h.val p → r.at? p = some Px.zero) := by
  obtain ⟨o, ho, hd⟩ := checkSize_ok E im out ha
  obtain ⟨m, g, h1, h2, h3⟩ := hDualBuild_spec hs hb E se h im ⟨im.dims, E.raw⟩ (accepts_of_dims E ha.1 rfl)
  have hgd : g.dims = im.dims := h2.2.1.trans h2.1.symm
  obtain ⟨r, e1, e2, e3⟩ := C38_minima_partial hs hb1 hb E se g o
    (accepts_of_dims E (alloc_of_dims hgd ha.1) (hd.trans hgd.symm))
  refine ⟨r, ?_, e2.trans hgd, fun p hp => ?_⟩
  · unfold hMinima
    rw [ho]
    simp only [andThen, h1, Option.bind_some, e1]
  · have hc := Img.at?_some g p (hgd.symm ▸ hp)
    rw [← hMin_iff hs hN h h3 h2 hc]
    exact e3 p _ hc

/-- **C73** (partial: as above, summits at less than `h` from 0 are not counted): `hMaxima` is the maximum of the type on the peaks
higher than `h`, cut at `h` under their summit, and 0 elsewhere. The input may be the output. -/
theorem C73_hMaxima_partial (hs : t.signed = false) (hb1 : 1 ≤ t.bits) (hb : t.bits ≤ 64) (E : Env (Px t))
    (se : StrElt) (h : Px t) (im out : Img (Px t)) (hN : ∀ p q, seRel se p q → seRel se q p)
    (ha : Accepts E im out) :
    ∃ r, hMaxima E se h im out = some (.ok r) ∧ r.dims = im.dims ∧ ∀ p, Img.In im.dims p →
      (HMax (seRel se) im h.val p → r.at? p = some ⊤) ∧
      (¬ HMax (seRel se) im h.val p → r.at? p = some Px.zero) := by
  obtain ⟨o, ho, hd⟩ := checkSize_ok E im out ha
  obtain ⟨m, g, h1, h2, h3⟩ := hBuild_spec hs hb E se h im ⟨im.dims, E.raw⟩ (accepts_of_dims E ha.1 rfl)
  have hgd : g.dims = im.dims := h2.2.1.trans h2.1.symm
  obtain ⟨r, e1, e2, e3⟩ := C38_maxima_partial hs hb1 hb E se g o
    (accepts_of_dims E (alloc_of_dims hgd ha.1) (hd.trans hgd.symm))
  refine ⟨r, ?_, e2.trans hgd, fun p hp => ?_⟩
  · unfold hMaxima
    rw [ho]
    simp only [andThen, h1, Option.bind_some, e1]
  · have hc := Img.at?_some g p (hgd.symm ▸ hp)
    rw [← hMax_iff hs hN h h3 h2 hc]
    exact e3 p _ hc

/-! ### Labelled extrema -/

theorem hi_pos (hs : t.signed = false) (hb1 : 1 ≤ t.bits) : 0 < t.hi := by
  have h1 := wrap_one hs hb1
  have := (t.wrap 1).le_hi
  omega

theorem labelExtrema_spec (ht : 0 < t.hi) (E : Env (Px t)) (raw : Nat → Nat) (M : Nat) (se : StrElt)
    (im : Img (Px t)) (dout : Dims) (ext : Img (Px t) → Option (Except Int (Img (Px t))))
    (S : IntPoint → Prop) (hok : AcceptsD E.auto im.dims dout)
    (hN : ∀ p q, seRel se p q → seRel se q p) (hsz : se.size ≤ 1) (hM : 2 ≤ M) (hc : im.dims.count < M)
    (hin : ∀ p, S p → Img.In im.dims p)
    (hext : ∃ r, ext ⟨im.dims, E.raw⟩ = some (.ok r) ∧ r.dims = im.dims ∧ ∀ p, Img.In im.dims p →
      (S p → r.at? p = some ⊤) ∧ (¬ S p → r.at? p = some Px.zero)) :
    ∃ lab, labelExtrema E raw M se im dout ext = some (.ok lab) ∧
      IsSetLabels (seRel se) im.dims S lab := by
  obtain ⟨r, h1, h2, h3⟩ := hext
  obtain ⟨n, lab, e1, e2⟩ := labelSet_spec E.auto M se r S ht (by rw [h2]; exact hok.1) hN hsz hM
    (by rw [h2]; exact hc) (fun p hp => (h3 p (h2 ▸ hp)).1) (fun p hp => (h3 p (h2 ▸ hp)).2)
    (fun p hp => h2.symm ▸ hin p hp)
  rw [h2] at e1 e2
  refine ⟨lab, ?_, e2⟩
  unfold labelExtrema
  rw [checkDims_ok hok]
  simp only [h1, Option.bind_some, e1, Option.map_some]

/-- **C73** (partial: as `C73_hMinima_partial`, and elements of size at most 1): `hMinimaLabeled` gives one label to each of the basins
deeper than `h`. -/
theorem C73_hMinimaLabeled_partial (hs : t.signed = false) (hb1 : 1 ≤ t.bits) (hb : t.bits ≤ 64)
    (E : Env (Px t)) (raw : Nat → Nat) (M : Nat) (se : StrElt) (h : Px t) (im : Img (Px t)) (dout : Dims)
    (hok : AcceptsD E.auto im.dims dout) (hN : ∀ p q, seRel se p q → seRel se q p) (hsz : se.size ≤ 1)
    (hM : 2 ≤ M) (hc : im.dims.count < M) :
    ∃ lab, hMinimaLabeled E raw M se h im dout = some (.ok lab) ∧
      IsSetLabels (seRel se) im.dims (HMin (seRel se) im h.val) lab := by
  have hia : im.alloc = true := by unfold Img.alloc; simpa using hok.1
  exact labelExtrema_spec (hi_pos hs hb1) E raw M se im dout _ _ hok hN hsz hM hc (fun _ hp => hp.in)
    (C73_hMinima_partial hs hb1 hb E se h im ⟨im.dims, E.raw⟩ hN (accepts_of_dims E hia rfl))

/-- **C73** (partial: as above): `hMaximaLabeled` gives one label to each of the peaks higher than `h`. -/
theorem C73_hMaximaLabeled_partial (hs : t.signed = false) (hb1 : 1 ≤ t.bits) (hb : t.bits ≤ 64)
    (E : Env (Px t)) (raw : Nat → Nat) (M : Nat) (se : StrElt) (h : Px t) (im : Img (Px t)) (dout : Dims)
    (hok : AcceptsD E.auto im.dims dout) (hN : ∀ p q, seRel se p q → seRel se q p) (hsz : se.size ≤ 1)
    (hM : 2 ≤ M) (hc : im.dims.count < M) :
    ∃ lab, hMaximaLabeled E raw M se h im dout = some (.ok lab) ∧
      IsSetLabels (seRel se) im.dims (HMax (seRel se) im h.val) lab := by
  have hia : im.alloc = true := by unfold Img.alloc; simpa using hok.1
  exact labelExtrema_spec (hi_pos hs hb1) E raw M se im dout _ _ hok hN hsz hM hc (fun _ hp => hp.in)
    (C73_hMaxima_partial hs hb1 hb E se h im ⟨im.dims, E.raw⟩ hN (accepts_of_dims E hia rfl))

/-- **C73** (partial: as above): `maximaLabeled` gives one label to each regional maximum above 0. -/
theorem C73_maximaLabeled_partial (hs : t.signed = false) (hb1 : 1 ≤ t.bits) (hb : t.bits ≤ 64)
    (E : Env (Px t)) (raw : Nat → Nat) (M : Nat) (se : StrElt) (im : Img (Px t)) (dout : Dims)
    (hok : AcceptsD E.auto im.dims dout) (hN : ∀ p q, seRel se p q → seRel se q p) (hsz : se.size ≤ 1)
    (hM : 2 ≤ M) (hc : im.dims.count < M) :
    ∃ lab, maximaLabeled E raw M se im dout = some (.ok lab) ∧
      IsSetLabels (seRel se) im.dims (fun p => IsRegMax (seRel se) im p ∧ im.at? p ≠ some ⊥) lab := by
  have hia : im.alloc = true := by unfold Img.alloc; simpa using hok.1
  refine labelExtrema_spec (hi_pos hs hb1) E raw M se im dout _ _ hok hN hsz hM hc
    (fun _ ⟨⟨c, hc, _⟩, _⟩ => Img.at?_eq_some_in _ _ _ hc) ?_
  obtain ⟨r, h1, h2, h3⟩ := C38_maxima_partial hs hb1 hb E se im ⟨im.dims, E.raw⟩ (accepts_of_dims E hia rfl)
  refine ⟨r, h1, h2, fun p hp => ?_⟩
  have hv := Img.at?_some im p hp
  have := h3 p _ hv
  rw [hv, ne_eq, Option.some.injEq]
  exact this

/-! ### What the basins are -/

section
variable {N : IntPoint → IntPoint → Prop} {f : Img (Px t)} {h : Int}

theorem Bottom.path (hN : ∀ p q, N p q → N q p) {q : IntPoint} {a : Px t} (hq : Bottom N f h q a)
    {p r : IntPoint} (hp : SetPath N (Below f (a.val + h)) q p) (hr : SetPath N (Below f (a.val + h)) q r) :
    SetPath N (HMin N f h) p r := by
  have key : ∀ x, SetPath N (Below f (a.val + h)) q x → SetPath N (HMin N f h) q x := fun x hx =>
    hx.self.mono fun y hy => ⟨q, a, hq, hy⟩
  exact ((key p hp).symm hN).trans (key r hr)

/-- **C73**: the marked pixels of one part are those reached from one bottom: two pixels are joined by marked pixels exactly when one
bottom leads to both. -/
theorem C73_basin (hN : ∀ p q, N p q → N q p) (p r : IntPoint) :
    SetPath N (HMin N f h) p r ↔ ∃ q a, Bottom N f h q a ∧ SetPath N (Below f (a.val + h)) q p ∧
      SetPath N (Below f (a.val + h)) q r := by
  constructor
  · intro hpr
    induction hpr with
    | refl hp =>
      obtain ⟨q, a, h1, h2⟩ := hp
      exact ⟨q, a, h1, h2, h2⟩
    | @step x y _ hn hy ih =>
      obtain ⟨q, a, h1, h2, h3⟩ := ih
      obtain ⟨q', a', k1, k2⟩ := hy
      obtain ⟨b, hb, hb'⟩ := k2.ends.2
      obtain ⟨c, hc, hc'⟩ := h3.ends.2
      refine ⟨q, a, h1, h2, .step h3 hn ⟨b, hb, ?_⟩⟩
      by_contra hlt
      -- then `x` is reached from `q'`, and `q` too
      have hx : SetPath N (Below f (a'.val + h)) q' x := .step k2 (hN _ _ hn) ⟨c, hc, by omega⟩
      have := (k1.2.2 q a (hx.trans ((h3.symm hN).mono fun z ⟨d, hd, hd'⟩ => ⟨d, hd, by omega⟩)) h1.1)
      omega
  · rintro ⟨q, a, h1, h2, h3⟩
    exact h1.path hN h2 h3

/-- **C73**: the same for the peaks. -/
theorem C73_peak (hN : ∀ p q, N p q → N q p) (p r : IntPoint) :
    SetPath N (HMax N f h) p r ↔ ∃ q a, Summit N f h q a ∧ SetPath N (Above f (a.val - h)) q p ∧
      SetPath N (Above f (a.val - h)) q r := by
  constructor
  · intro hpr
    induction hpr with
    | refl hp =>
      obtain ⟨q, a, h1, h2⟩ := hp
      exact ⟨q, a, h1, h2, h2⟩
    | @step x y _ hn hy ih =>
      obtain ⟨q, a, h1, h2, h3⟩ := ih
      obtain ⟨q', a', k1, k2⟩ := hy
      obtain ⟨b, hb, hb'⟩ := k2.ends.2
      obtain ⟨c, hc, hc'⟩ := h3.ends.2
      refine ⟨q, a, h1, h2, .step h3 hn ⟨b, hb, ?_⟩⟩
      by_contra hlt
      have hx : SetPath N (Above f (a'.val - h)) q' x := .step k2 (hN _ _ hn) ⟨c, hc, by omega⟩
      have := (k1.2.2 q a (hx.trans ((h3.symm hN).mono fun z ⟨d, hd, hd'⟩ => ⟨d, hd, by omega⟩)) h1.1)
      omega
  · rintro ⟨q, a, h1, h2, h3⟩
    have key : ∀ x, SetPath N (Above f (a.val - h)) q x → SetPath N (HMax N f h) q x := fun x hx =>
      hx.self.mono fun y hy => ⟨q, a, h1, hy⟩
    exact ((key p h2).symm hN).trans (key r h3)

/-- **C73**: two bottoms in different parts are separated: every path between them rises by more than `h` over the higher of the two
(over both). -/
theorem C73_separate (hN : ∀ p q, N p q → N q p) {p q : IntPoint} {a b : Px t}
    (hp : Bottom N f h p a) (hq : Bottom N f h q b) (hne : ¬ SetPath N (HMin N f h) p q) :
    ¬ SetPath N (Below f (max a.val b.val + h)) p q := by
  intro hpath
  rcases le_total a.val b.val with hab | hab
  · rw [max_eq_right hab] at hpath
    refine hne (((C73_basin hN p q).mpr ⟨q, b, hq, hpath.symm hN, .refl hpath.ends.2⟩))
  · rw [max_eq_left hab] at hpath
    exact hne ((C73_basin hN p q).mpr ⟨p, a, hp, .refl hpath.ends.1, hpath⟩)

/-- **C73**: a basin deeper than `h'` contains a basin deeper than each smaller `h`. -/
theorem C73_nested {h' : Int} (h0 : 0 ≤ h) (hh : h ≤ h') {p : IntPoint} (hp : HMin N f h' p) :
    ∃ q, HMin N f h q ∧ SetPath N (HMin N f h') q p := by
  obtain ⟨q, a, hq, hpath⟩ := hp
  have hb : ∀ {l : Int} {x}, l ≤ h' → Below f (a.val + l) x → Below f (a.val + h') x := fun hl ⟨b, hb, hb'⟩ =>
    ⟨b, hb, by omega⟩
  refine ⟨q, ⟨q, a, ⟨hq.1, by have := hq.2.1; omega, fun s b hs hb' => ?_⟩, .refl ⟨a, hq.1, by omega⟩⟩,
    hpath.self.mono fun y hy => ⟨q, a, hq, hy⟩⟩
  exact hq.2.2 s b (hs.mono fun x hx => hb hh hx) hb'

/-- **C73**: for `h = 0` these are the regional minima below the maximum (C38). -/
theorem C73_zero (hN : ∀ p q, N p q → N q p) (p : IntPoint) :
    HMin N f 0 p ↔ IsRegMin N f p ∧ ∃ c, f.at? p = some c ∧ c ≠ ⊤ := by
  constructor
  · rintro ⟨q, a, ⟨h1, h2, h3⟩, hpath⟩
    have hval : ∀ s, SetPath N (Below f (a.val + 0)) q s → f.at? s = some a := by
      intro s hs
      obtain ⟨b, hb, hb'⟩ := hs.ends.2
      have := h3 s b hs hb
      rw [hb]; congr 1; exact Px.ext (by omega)
    have hp := hval p hpath
    refine ⟨⟨a, hp, fun r hr s b hn hb => ?_⟩, a, hp, fun e => ?_⟩
    · have hqr : SetPath N (Below f (a.val + 0)) q r := by
        clear hn hb
        induction hr with
        | refl _ => exact hpath
        | cons hn hx _ ih => exact .step ih (hN _ _ hn) ⟨a, hx, by omega⟩
      rw [Px.le_iff]
      by_contra hlt
      have := h3 s b (.step hqr (hN _ _ hn) ⟨b, hb, by omega⟩) hb
      omega
    · have := congrArg Px.val e
      rw [Px.top_val] at this; omega
  · rintro ⟨⟨c, hc, hr⟩, c', hc', hne⟩
    rw [hc] at hc'; cases hc'
    have hpl : ∀ s, SetPath N (Below f (c.val + 0)) p s → Plateau N f c p s := by
      intro s hs
      induction hs with
      | refl _ => exact .refl hc
      | @step q s _ hn hs ih =>
        obtain ⟨b, hb, hb'⟩ := hs
        have := hr _ ih s b (hN _ _ hn) hb
        rw [Px.le_iff] at this
        obtain rfl : b = c := Px.ext (by omega)
        exact .cons (hN _ _ hn) hb ih
    refine ⟨p, c, ⟨hc, ?_, fun s b hs hb => ?_⟩, .refl ⟨c, hc, by omega⟩⟩
    · have h1 := c.le_hi
      have : c.val ≠ t.hi := fun e => hne (Px.ext (by rw [Px.top_val, e]))
      omega
    · have := (hpl s hs).val.2
      rw [hb] at this; cases this; exact le_refl _

end

/-- **C73 fails** near the maximum: if no pixel is `h` below it, nothing is marked, although the lowest pixels of the image are the bottom
of a basin that no path leaves downwards at all. -/
theorem C73_saturated_bug (hs : t.signed = false) (hb1 : 1 ≤ t.bits) (hb : t.bits ≤ 64) (E : Env (Px t))
    (se : StrElt) (h : Px t) (im out : Img (Px t)) (hN : ∀ p q, seRel se p q → seRel se q p)
    (ha : Accepts E im out) (hsat : ∀ p a, im.at? p = some a → t.hi ≤ a.val + h.val) :
    ∃ r, hMinima E se h im out = some (.ok r) ∧ ∀ p, Img.In im.dims p → r.at? p = some Px.zero := by
  obtain ⟨r, h1, _, h3⟩ := C73_hMinima_partial hs hb1 hb E se h im out hN ha
  refine ⟨r, h1, fun p hp => (h3 p hp).2 ?_⟩
  rintro ⟨q, a, ⟨e1, e2, _⟩, _⟩
  have := hsat q a e1
  omega

/-- The values of a label image. -/
def labVals (r : Option (Except Int (Img Nat))) : List Nat :=
  match r with
  | some (.ok r) => (List.range r.dims.count).map r.buf
  | _ => []

/-- **C73 fails**, instances: a hole of depth 55 in an image at 255 is not an `h`-minimum for `h = 55`, nor is the whole of a constant
image; the same shapes 10 lower are. -/
theorem C73_saturated_instance_bug :
    lineVals (hMinima exEnv8 (SquSE 1) (UINT8.wrap 55) (im8 ⟨3, 1, 1⟩ [255, 200, 255]) (im8 ⟨3, 1, 1⟩ [])) =
      [0, 0, 0] ∧
    lineVals (hMinima exEnv8 (SquSE 1) (UINT8.wrap 55) (im8 ⟨3, 1, 1⟩ [245, 190, 245]) (im8 ⟨3, 1, 1⟩ [])) =
      [255, 255, 255] := by decide +kernel

/-- **C73 fails** for elements of size 2: `minima` and the reconstruction use the points of the element, `label` its homothetic, and two
basins get one label. -/
theorem C73_size_bug :
    labVals (hMinimaLabeled exEnv8 (fun _ => 0) 65535 (SquSE 1) (UINT8.wrap 2) (im8 ⟨3, 1, 1⟩ [1, 9, 3])
      ⟨3, 1, 1⟩) = [1, 0, 2] ∧
    labVals (hMinimaLabeled exEnv8 (fun _ => 0) 65535 (SquSE 2) (UINT8.wrap 2) (im8 ⟨3, 1, 1⟩ [1, 9, 3])
      ⟨3, 1, 1⟩) = [1, 0, 1] := by decide +kernel

/-- **C73**, refused images. -/
theorem C73_errors (E : Env (Px t)) (raw : Nat → Nat) (M : Nat) (se : StrElt) (h : Px t) (im out : Img (Px t)) :
    (im.dims.count = 0 ∨ out.dims.count = 0 →
      hMinima E se h im out = some (.error (-99)) ∧ hMaxima E se h im out = some (.error (-99)) ∧
      hMinimaLabeled E raw M se h im out.dims = some (.error (-99)) ∧
      hMaximaLabeled E raw M se h im out.dims = some (.error (-99)) ∧
      maximaLabeled E raw M se im out.dims = some (.error (-99))) ∧
    (im.dims.count ≠ 0 → out.dims.count ≠ 0 → E.auto = false → out.dims ≠ im.dims →
      hMinima E se h im out = some (.error (-98)) ∧ hMaxima E se h im out = some (.error (-98)) ∧
      hMinimaLabeled E raw M se h im out.dims = some (.error (-98)) ∧
      hMaximaLabeled E raw M se h im out.dims = some (.error (-98)) ∧
      maximaLabeled E raw M se im out.dims = some (.error (-98))) := by
  constructor
  · intro hc
    have e1 : checkSize E im out = .error (-99) := by
      unfold checkSize
      rcases hc with hc | hc <;> simp [Img.alloc, hc] <;> rfl
    have e2 : checkDims E.auto im.dims out.dims = .error (-99) := by
      unfold checkDims; rw [if_pos hc]; rfl
    unfold hMinima hMaxima hMinimaLabeled hMaximaLabeled maximaLabeled labelExtrema
    rw [e1, e2]
    exact ⟨rfl, rfl, rfl, rfl, rfl⟩
  · intro h1 h2 ha hd
    have e1 : checkSize E im out = .error (-98) := by
      unfold checkSize
      simp [Img.alloc, h1, h2, ha, hd]; rfl
    have e2 : checkDims E.auto im.dims out.dims = .error (-98) := by
      unfold checkDims; rw [if_neg (by tauto), if_neg hd, ha]; rfl
    unfold hMinima hMaxima hMinimaLabeled hMaximaLabeled maximaLabeled labelExtrema
    rw [e1, e2]
    exact ⟨rfl, rfl, rfl, rfl, rfl⟩

/-- C73: three basins, of depth 2 and more than 4; at height 3 two are merged. -/
example : (∀ p q, seRel (SquSE 1) p q → seRel (SquSE 1) q p) ∧ (SquSE 1).size ≤ 1 ∧
    labVals (hMinimaLabeled exEnv8 (fun _ => 0) 65535 (SquSE 1) (UINT8.wrap 1)
      (im8 ⟨7, 1, 1⟩ [1, 3, 1, 9, 2, 2, 4]) ⟨7, 1, 1⟩) = [1, 0, 2, 0, 3, 3, 0] ∧
    labVals (hMinimaLabeled exEnv8 (fun _ => 0) 65535 (SquSE 1) (UINT8.wrap 3)
      (im8 ⟨7, 1, 1⟩ [1, 3, 1, 9, 2, 2, 4]) ⟨7, 1, 1⟩) = [1, 1, 1, 0, 2, 2, 2] ∧
    labVals (hMaximaLabeled exEnv8 (fun _ => 0) 65535 (SquSE 1) (UINT8.wrap 1)
      (im8 ⟨7, 1, 1⟩ [1, 3, 1, 9, 2, 2, 4]) ⟨7, 1, 1⟩) = [0, 1, 0, 2, 0, 0, 3] ∧
    labVals (maximaLabeled exEnv8 (fun _ => 0) 65535 (SquSE 1)
      (im8 ⟨7, 1, 1⟩ [1, 3, 1, 9, 2, 2, 4]) ⟨7, 1, 1⟩) = [0, 1, 0, 2, 0, 0, 3] :=
  ⟨seRel_symm (by decide), by decide, by decide +kernel, by decide +kernel, by decide +kernel, by decide +kernel⟩

end Smil
