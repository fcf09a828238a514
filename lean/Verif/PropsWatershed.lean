import Verif.WatershedLine
import Verif.PropsLabel
import Verif.PropsHierarQ
import Verif.BuildTrace

/-!
# C41 – C43: basins, watershed, bounded queues

Specification: paths of pixels that stay below a height (`Pass`), paths of pixels of one label
(`LabelPath`).
-/

namespace Smil
open StrElt
variable {α : Type} {t : PT}

/-- `p` is reached from `m` along a path of neighbours on which the image is at most `h`. -/
inductive Pass [LE α] (N : IntPoint → IntPoint → Prop) (im : Img α) (h : α) (m : IntPoint) :
    IntPoint → Prop
  | base {a} : im.at? m = some a → a ≤ h → Pass N im h m m
  | step {q p a} : Pass N im h m q → N q p → im.at? p = some a → a ≤ h → Pass N im h m p

/-- Specification of the basins. `mk` and `out` are label images, 0 is "no label". -/
structure IsBasins [LE α] (N : IntPoint → IntPoint → Prop) (im : Img α) (mk out : Img Nat) : Prop where
  dims : out.dims = im.dims
  /-- markers are kept -/
  keep : ∀ p v, mk.at? p = some v → v ≠ 0 → out.at? p = some v
  /-- a pixel connected to a marker gets the label of a marker of least pass height -/
  best : ∀ m v h p, mk.at? m = some v → v ≠ 0 → Pass N im h m p →
    ∃ m₀ v₀ h₀, mk.at? m₀ = some v₀ ∧ v₀ ≠ 0 ∧ Pass N im h₀ m₀ p ∧ out.at? p = some v₀ ∧
      ∀ m' v' h', mk.at? m' = some v' → v' ≠ 0 → Pass N im h' m' p → h₀ ≤ h'
  /-- the other pixels get no label -/
  none : ∀ p, Img.In im.dims p → (∀ m v h, mk.at? m = some v → v ≠ 0 → ¬ Pass N im h m p) →
    out.at? p = some 0

/-- A path of neighbours that all carry the label `v`. -/
inductive LabelPath (N : IntPoint → IntPoint → Prop) (out : Img Nat) (v : Nat) (m : IntPoint) :
    IntPoint → Prop
  | base : out.at? m = some v → LabelPath N out v m m
  | step {q p} : LabelPath N out v m q → N q p → out.at? p = some v → LabelPath N out v m p

/-- A path of pixels that are not on the line. -/
inductive OffLine (N : IntPoint → IntPoint → Prop) (line : Img (Px t)) (m : IntPoint) : IntPoint → Prop
  | base : line.at? m = some Px.zero → OffLine N line m m
  | step {q p} : OffLine N line m q → N q p → line.at? p = some Px.zero → OffLine N line m p

/-- The marker at `p` touches no marker of another label. -/
def MarkApart (N : IntPoint → IntPoint → Prop) (mk : Img Nat) (p : IntPoint) (v : Nat) : Prop :=
  ∀ q w, N p q → mk.at? q = some w → w ≠ 0 → w = v

/-- Markers of different labels do not touch. -/
def MarksApart (N : IntPoint → IntPoint → Prop) (mk : Img Nat) : Prop :=
  ∀ p v, mk.at? p = some v → v ≠ 0 → MarkApart N mk p v

/-- Specification of the watershed: `line` is the line image, `out` the basins. -/
structure IsWatershed (N : IntPoint → IntPoint → Prop) (mk : Img Nat) (line : Img (Px t))
    (out : Img Nat) : Prop where
  dims : out.dims = mk.dims ∧ line.dims = mk.dims
  /-- the line image has two values -/
  val : ∀ p, Img.In mk.dims p → line.at? p = some Px.zero ∨ line.at? p = some ⊤
  /-- markers keep their labels -/
  keep : ∀ p v, mk.at? p = some v → v ≠ 0 → out.at? p = some v
  /-- neighbours that are not on the line have the same label -/
  sep : ∀ p q, N p q → line.at? p = some Px.zero → line.at? q = some Px.zero → out.at? p = out.at? q
  /-- pixels that are not on the line are labelled -/
  lab : ∀ p, line.at? p = some Px.zero → out.at? p ≠ some 0
  /-- a pixel on the line is unlabelled and enclosed by the line, or it touches another label -/
  why : ∀ p, line.at? p = some ⊤ → (out.at? p = some 0 ∧ ∀ q, N q p → Img.In mk.dims q → line.at? q = some ⊤) ∨
    ∃ q v w, N p q ∧ out.at? p = some v ∧ out.at? q = some w ∧ v ≠ 0 ∧ w ≠ 0 ∧ w ≠ v
  /-- labels spread from markers of that label, through pixels of that label -/
  conn : ∀ p v, out.at? p = some v → v ≠ 0 → ∃ m, mk.at? m = some v ∧ LabelPath N out v m p
  /-- a marker that touches no other one is not on the line -/
  off : ∀ p v, mk.at? p = some v → v ≠ 0 → MarkApart N mk p v → line.at? p = some Px.zero
  /-- when no markers touch, every pixel off the line is joined to a marker of its label off the line -/
  zone : MarksApart N mk → ∀ p, line.at? p = some Px.zero →
    ∃ m v, mk.at? m = some v ∧ v ≠ 0 ∧ out.at? p = some v ∧ OffLine N line m p
  /-- when no markers touch, a pixel on the line is enclosed by the line, or it touches two pixels off
  the line of different labels -/
  thin : MarksApart N mk → ∀ p, line.at? p = some ⊤ →
    (out.at? p = some 0 ∧ ∀ q, N q p → Img.In mk.dims q → line.at? q = some ⊤) ∨
    ∃ q q' v w, N p q ∧ N p q' ∧ line.at? q = some Px.zero ∧ line.at? q' = some Px.zero ∧
      out.at? q = some v ∧ out.at? q' = some w ∧ v ≠ w

theorem hqLevel_le_iff (a b : Px t) : hqLevel a ≤ hqLevel b ↔ a ≤ b := by
  rw [← not_lt, ← not_lt, hqLevel_lt_iff]

theorem exists_level (h : Nat) : ∃ H : Px t, hqLevel H ≤ h ∧ ∀ a : Px t, hqLevel a ≤ h → a ≤ H := by
  by_cases hh : h < t.card.toNat
  · have hc : t.lo + h ≤ t.hi := by unfold PT.card at hh; omega
    refine ⟨⟨t.lo + h, by omega, hc⟩, by simp [hqLevel], fun a ha => ?_⟩
    unfold hqLevel at ha
    have := a.lo_le
    rw [Px.le_iff]; simp only; omega
  · refine ⟨⊤, ?_, fun a _ => le_top⟩
    have := hqLevel_lt false (⊤ : Px t)
    simp only [hqParam] at this
    omega

section pass
variable {se : StrElt} {im : Img (Px t)}

theorem ipass_of_pass {h : Px t} {m p : IntPoint} (hp : Pass (seRel se) im h m p) :
    Img.In im.dims p ∧ Img.In im.dims m ∧
      IPass (floodCfg se im) (hqLevel h) (offOf im.dims m) (offOf im.dims p) := by
  induction hp with
  | base ha hle =>
    have hin := Img.at?_eq_some_in _ _ _ ha
    rw [Img.buf_offOf _ _ hin] at ha; cases ha
    exact ⟨hin, hin, .base (offOf_lt hin) ((hqLevel_le_iff _ _).mpr hle)⟩
  | @step q p a _ hn ha hle ih =>
    have hin := Img.at?_eq_some_in _ _ _ ha
    rw [Img.buf_offOf _ _ hin] at ha; cases ha
    refine ⟨hin, ih.2.1, ?_⟩
    by_cases e : q = p
    · rw [← e]; exact ih.2.2
    · exact .step ih.2.2 ((seRel_nb ih.1 hin e).mp hn) ((hqLevel_le_iff _ _).mpr hle)

theorem nb_ne {D : Dims} {i j : Nat} (hi : i < D.count) (hj : j ∈ nbOffsets D se i) :
    i ≠ j ∧ seRel se (coordPt D i) (coordPt D j) := by
  obtain ⟨h1, h2⟩ := coordPt_in hi
  rw [← h2, mem_nbOffsets h1] at hj
  obtain ⟨p, hp, rfl, b, hb, h0, hph⟩ := hj
  rw [coordPt_offOf hp]
  refine ⟨?_, b, hb, hph⟩
  rintro e
  have : coordPt D i = p := by rw [e, coordPt_offOf hp]
  rw [this] at hph
  have hb0 : phys se.odd b = phys se.odd ⟨0, 0, 0⟩ := by
    have := add_eq_left.mp hph
    rw [this]; simp [phys]; rfl
  exact h0 (phys_inj _ _ _ hb0)

theorem pass_of_ipass {h : Nat} {H : Px t} {i j : Nat}
    (hH : ∀ a : Px t, hqLevel a ≤ h → a ≤ H) (hp : IPass (floodCfg se im) h i j) :
    j < im.dims.count ∧ Pass (seRel se) im H (coordPt im.dims i) (coordPt im.dims j) := by
  induction hp with
  | base hi hle =>
    refine ⟨hi, .base (a := im.buf i) ?_ (hH _ hle)⟩
    rw [Img.buf_offOf _ _ (coordPt_in hi).1, (coordPt_in hi).2]
  | @step i' j' _ hj hle ih =>
    have hlt : j' < im.dims.count := nbOffsets_lt ih.1 hj
    refine ⟨hlt, .step ih.2 (nb_ne ih.1 hj).2 (a := im.buf j') ?_ (hH _ hle)⟩
    rw [Img.buf_offOf _ _ (coordPt_in hlt).1, (coordPt_in hlt).2]

theorem floodCfg_ok (hs : t.signed = false) (hb : t.bits ≤ 64) : (floodCfg se im).Ok :=
  ⟨hqParam_ok t false hs hb, rfl, fun _ _ => hqLevel_lt false _, fun _ hi _ hj => nbOffsets_lt hi hj⟩

theorem isBasins_of_run {mk : Img Nat} (hd : mk.dims = im.dims) {lbl : Nat → Nat}
    (h1 : ∀ i < im.dims.count, mk.buf i ≠ 0 → lbl i = mk.buf i)
    (h2 : ∀ i < im.dims.count, lbl i ≠ 0 → ∃ m h, mk.buf m = lbl i ∧ IPass (floodCfg se im) h m i ∧
      ∀ m' h', mk.buf m' ≠ 0 → IPass (floodCfg se im) h' m' i → h ≤ h')
    (h3 : ∀ i < im.dims.count, (∃ m h, mk.buf m ≠ 0 ∧ IPass (floodCfg se im) h m i) → lbl i ≠ 0) :
    IsBasins (seRel se) im mk ⟨im.dims, lbl⟩ := by
  have hat : ∀ p, Img.In im.dims p → mk.at? p = some (mk.buf (offOf im.dims p)) := by
    intro p hp
    have := mk.buf_offOf p (hd.symm ▸ hp)
    rwa [hd] at this
  have hati : ∀ i < im.dims.count, mk.at? (coordPt im.dims i) = some (mk.buf i) := by
    intro i hi
    rw [hat _ (coordPt_in hi).1, (coordPt_in hi).2]
  have hin : ∀ p v, mk.at? p = some v → Img.In im.dims p := fun p v h =>
    hd ▸ Img.at?_eq_some_in _ _ _ h
  have hout : ∀ p, Img.In im.dims p →
      (⟨im.dims, lbl⟩ : Img Nat).at? p = some (lbl (offOf im.dims p)) :=
    fun p hp => Img.buf_offOf ⟨im.dims, lbl⟩ p hp
  refine ⟨rfl, ?_, ?_, ?_⟩
  · intro p v hv h0
    have hp := hin p v hv
    rw [hat p hp] at hv; cases hv
    rw [hout p hp, h1 _ (offOf_lt hp) h0]
  · intro m v h p hv h0 hp
    obtain ⟨hpin, hmin, hip⟩ := ipass_of_pass hp
    rw [hat m hmin] at hv; cases hv
    have hne := h3 _ (offOf_lt hpin) ⟨_, _, h0, hip⟩
    obtain ⟨m0, h0', e1, e2, e3⟩ := h2 _ (offOf_lt hpin) hne
    obtain ⟨H, hH1, hH2⟩ := exists_level (t := t) h0'
    have hps := (pass_of_ipass hH2 e2).2
    rw [coordPt_offOf hpin] at hps
    refine ⟨_, _, H, hati m0 e2.mlt, by rw [e1]; exact hne, hps, by rw [hout p hpin, e1], ?_⟩
    intro m' v' h' hv' hv0 hp'
    obtain ⟨_, hm', hip'⟩ := ipass_of_pass hp'
    rw [hat m' hm'] at hv'; cases hv'
    have := e3 _ _ hv0 hip'
    rw [← hqLevel_le_iff]
    exact hH1.trans this
  · intro p hp hno
    rw [hout p hp]
    congr 1
    by_contra hne
    obtain ⟨m0, h0', e1, e2, _⟩ := h2 _ (offOf_lt hp) hne
    obtain ⟨H, _, hH2⟩ := exists_level (t := t) h0'
    have hps := (pass_of_ipass hH2 e2).2
    rw [coordPt_offOf hp] at hps
    exact hno _ _ H (hati m0 e2.mlt) (by rw [e1]; exact hne) hps

end pass

/-- The images are accepted: allocated, of one size. (With `autoResizeImages` an output of another
size is accepted, too.) -/
def AcceptsF (auto : Bool) (di dmk dout : Dims) : Prop :=
  di.count ≠ 0 ∧ dout.count ≠ 0 ∧ dmk = di ∧ (dout = di ∨ auto = true)

theorem floodCheck_ok {auto : Bool} {raw : Nat → Nat} {di : Dims} {mk : Img Nat} {dout : Dims}
    (h : AcceptsF auto di mk.dims dout) : floodCheck auto raw di mk dout = .ok mk := by
  obtain ⟨h1, h2, h3, h4⟩ := h
  unfold floodCheck
  rw [if_neg (by rw [h3]; tauto)]
  by_cases e : dout = di
  · rw [if_pos ⟨h3, e⟩]
  · rw [if_neg (fun hh => e hh.2)]
    simp [h4.resolve_left e, h3]

/-! ## C41 -/

/-- **C41** (partial: unsigned types): on accepted images whose labels are below the maximum of the
label type, `basins` terminates without error, keeps the markers, labels exactly the pixels connected to
a marker, and gives each the label of a marker of least pass height. -/
theorem C41_basins_partial (hs : t.signed = false) (hb : t.bits ≤ 64) (auto : Bool)
    (raw : Nat → Nat) (M : Nat) (se : StrElt) (im : Img (Px t)) (mk : Img Nat) (dout : Dims)
    (h : AcceptsF auto im.dims mk.dims dout) (hM : ∀ p v, mk.at? p = some v → v < M) :
    ∃ r, basins auto raw M se im mk dout = some (.ok r) ∧ IsBasins (seRel se) im mk r := by
  obtain ⟨s, h1, h2, h3, h4, _⟩ := basRun_spec (floodCfg_ok (se := se) (im := im) hs hb) mk.buf
  refine ⟨⟨im.dims, s.lbl⟩, ?_, isBasins_of_run h.2.2.1 h2 h3 h4⟩
  unfold basins
  rw [floodCheck_ok h]
  simp only
  rw [if_pos, h1]
  · rfl
  · rw [List.all_eq_true]
    intro i hi
    rw [List.mem_range] at hi
    have hat := mk.buf_offOf (coordPt im.dims i) (h.2.2.1.symm ▸ (coordPt_in hi).1)
    rw [h.2.2.1, (coordPt_in hi).2] at hat
    simpa using hM _ _ hat

/-- **C41**: every label of the result is the label of a marker. -/
theorem C41_labels_partial {N : IntPoint → IntPoint → Prop} {im : Img (Px t)} {mk out : Img Nat}
    (h : IsBasins N im mk out) (p : IntPoint) (v : Nat) (hv : out.at? p = some v) (h0 : v ≠ 0) :
    ∃ m H, mk.at? m = some v ∧ Pass N im H m p := by
  by_cases hex : ∃ m w H, mk.at? m = some w ∧ w ≠ 0 ∧ Pass N im H m p
  · obtain ⟨m, w, H, h1, h2, h3⟩ := hex
    obtain ⟨m0, v0, H0, e1, e2, e3, e4, _⟩ := h.best m w H p h1 h2 h3
    rw [hv] at e4; cases e4
    exact ⟨m0, H0, e1, e3⟩
  · have hin : Img.In im.dims p := h.dims ▸ Img.at?_eq_some_in _ _ _ hv
    have := h.none p hin (fun m w H h1 h2 h3 => hex ⟨m, w, H, h1, h2, h3⟩)
    rw [hv] at this; cases this; exact absurd rfl h0

/-- **C41**, other outcome: a marker equal to the maximum of the label type is refused. -/
theorem C41_max_label (auto : Bool) (raw : Nat → Nat) (M : Nat) (se : StrElt) (im : Img (Px t))
    (mk : Img Nat) (dout : Dims) (h : AcceptsF auto im.dims mk.dims dout) (p : IntPoint) (v : Nat)
    (hv : mk.at? p = some v) (hM : M ≤ v) :
    basins auto raw M se im mk dout = some (.error (-100)) := by
  unfold basins
  rw [floodCheck_ok h]
  simp only
  rw [if_neg]
  · rfl
  · intro hall
    rw [List.all_eq_true] at hall
    have hin : Img.In im.dims p := h.2.2.1 ▸ Img.at?_eq_some_in _ _ _ hv
    have := hall _ (List.mem_range.mpr (offOf_lt hin))
    have hat := mk.buf_offOf p (h.2.2.1.symm ▸ hin)
    rw [h.2.2.1, hv] at hat; cases hat
    simp at this; omega

/-- The labels of a result. -/
def natVals : Option (Except Int (Img Nat)) → List Nat
  | some (.ok r) => (List.range r.dims.count).map r.buf
  | _ => []

/-- A label image. -/
def imN (D : Dims) (l : List Nat) : Img Nat := ⟨D, fun i => l.getD i 0⟩

/-- **C41 fails** for `basins(imIn, imBasins, se)`: the element is used for the minima but not for the
flooding. With a horizontal segment each line should be flooded on its own; the second pixel of the
first line gets the label of the second line. -/
theorem C41_minima_bug :
    let im := im8 ⟨3, 2, 1⟩ [4, 7, 7, 7, 1, 7]
    natVals (basins false (fun _ => 0) 255 (HorizSE 1) im (imN ⟨3, 2, 1⟩ [1, 0, 0, 0, 2, 0]) ⟨3, 2, 1⟩) =
      [1, 1, 1, 2, 2, 2] ∧
    natVals (basinsMinima exEnv8 (fun _ => 0) 255 (HexSE 1) (HorizSE 1) im ⟨3, 2, 1⟩) ≠
      [1, 1, 1, 2, 2, 2] := by decide +kernel

/-- **C41 fails** on signed types: the first removal reads an empty queue. -/
theorem C41_signed_bug :
    natVals (basins false (fun _ => 0) 255 (SquSE 1) (⟨⟨2, 1, 1⟩, fun i => INT8.wrap (5 + i)⟩ : Img (Px INT8))
      (imN ⟨2, 1, 1⟩ [1, 0]) ⟨2, 1, 1⟩) = [] ∧
    basins false (fun _ => 0) 255 (SquSE 1) (⟨⟨2, 1, 1⟩, fun i => INT8.wrap (5 + i)⟩ : Img (Px INT8))
      (imN ⟨2, 1, 1⟩ [1, 0]) ⟨2, 1, 1⟩ = none := by
  refine ⟨by decide +kernel, by rfl⟩

/-- C41: two markers on a relief with a pass; the hypotheses are met. -/
example : AcceptsF false (im8 ⟨5, 1, 1⟩ [1, 3, 9, 2, 0]).dims (imN ⟨5, 1, 1⟩ [0, 4, 0, 0, 7]).dims ⟨5, 1, 1⟩ ∧
    (∀ p v, (imN ⟨5, 1, 1⟩ [0, 4, 0, 0, 7]).at? p = some v → v < 255) ∧
    natVals (basins false (fun _ => 0) 255 (SquSE 1) (im8 ⟨5, 1, 1⟩ [1, 3, 9, 2, 0])
      (imN ⟨5, 1, 1⟩ [0, 4, 0, 0, 7]) ⟨5, 1, 1⟩) = [4, 4, 7, 7, 7] := by
  refine ⟨⟨by decide, by decide, rfl, Or.inl rfl⟩, fun p v hv => ?_, by decide +kernel⟩
  obtain ⟨i, hi, rfl, _⟩ := Img.at?_buf _ _ _ hv
  have : ∀ i < 5, (imN ⟨5, 1, 1⟩ [0, 4, 0, 0, 7]).buf i < 255 := by decide
  exact this i hi

/-! ## C42 -/

theorem statOk (ht : 4 ≤ t.hi) : StatOk t := by
  have hlo : t.lo ≤ 1 := by
    unfold PT.lo; split
    · have : (0 : Int) ≤ ((2 ^ (t.bits - 1) : Nat) : Int) := by positivity
      push_cast at *
      omega
    · omega
  have hv : ∀ v, t.lo ≤ v → v ≤ t.hi → (t.wrap v).val = v := fun v h1 h2 => t.wrap_of_mem h1 h2
  have e1 := hv 1 (by omega) (by omega)
  have e2 := hv 2 (by omega) (by omega)
  have e3 := hv (t.hi - 1) (by omega) (by omega)
  have e4 := hv t.hi (by omega) (by omega)
  constructor <;> intro h <;> have := congrArg Px.val h <;>
    simp only [stLabeled, stQueued, stCandidate, stLine] at this <;> omega

theorem nice_of (se : StrElt) (im : Img (Px t)) (hsym : ∀ p q, seRel se p q → seRel se q p)
    (hnd : se.points.Nodup) : (floodCfg se im).Nice := by
  refine ⟨fun i hi j hj => ?_, fun i hi => ?_, fun i hi hj => (nb_ne hi hj).1 rfl⟩
  · obtain ⟨hne, hr⟩ := nb_ne hi hj
    have hjl := nbOffsets_lt hi hj
    obtain ⟨hi1, hi2⟩ := coordPt_in hi
    obtain ⟨hj1, hj2⟩ := coordPt_in hjl
    have := (seRel_nb hj1 hi1 (fun e => hne (by rw [← hi2, ← hj2, e]))).mp (hsym _ _ hr)
    rwa [hi2, hj2] at this
  · obtain ⟨hi1, hi2⟩ := coordPt_in hi
    unfold floodCfg nbOffsets
    simp only
    apply List.Nodup.filterMap _ hnd
    intro b b' k hb hb'
    rw [Option.mem_def, ← hi2, nbOffset_eq hi1] at hb hb'
    have e := offOf_inj hb.2.1 hb'.2.1 (hb.2.2.trans hb'.2.2.symm)
    unfold reachPt at e
    simp only [IntPoint.mk.injEq] at e
    obtain ⟨e1, e2, e3⟩ := e
    have ey : b.y = b'.y := by omega
    rw [ey] at e1
    have ex : b.x = b'.x := by omega
    have ez : b.z = b'.z := by omega
    cases b; cases b'
    simp only at ex ey ez
    rw [ex, ey, ez]

/-- What a run of the watershed computes, at the level of images. -/
theorem isWatershed_of_run {se : StrElt} {im : Img (Px t)} {mk : Img Nat} (hd : mk.dims = im.dims)
    (hS : StatOk t) (ht : 4 ≤ t.hi) (hsym : ∀ p q, seRel se p q → seRel se q p) {s : WsSt t}
    (h : WInv (floodCfg se im) mk.buf s []) :
    IsWatershed (seRel se) mk
      ⟨im.dims, fun i => if stCandidate t ≤ s.ws i then stLine t else t.wrap 0⟩ ⟨im.dims, s.lbl⟩ := by
  have hlo : t.lo ≤ 0 := by
    unfold PT.lo; split
    · have : (0 : Int) ≤ ((2 ^ (t.bits - 1) : Nat) : Int) := by positivity
      push_cast at *
      omega
    · omega
  have hv : ∀ v, t.lo ≤ v → v ≤ t.hi → (t.wrap v).val = v := fun v h1 h2 => t.wrap_of_mem h1 h2
  have v0 := hv 0 (by omega) (by omega)
  have v1 := hv 1 (by omega) (by omega)
  have v3 := hv (t.hi - 1) (by omega) (by omega)
  have v4 := hv t.hi (by omega) (by omega)
  have hzero : t.wrap 0 = Px.zero := Px.ext v0
  have htop : stLine t = ⊤ := by
    apply Px.ext; unfold stLine; rw [v4]; rfl
  have hzt : (Px.zero : Px t) ≠ ⊤ := by
    rw [← htop, ← hzero]; intro e; have := congrArg Px.val e; unfold stLine at this; omega
  have hK : stCandidate t ≤ stCandidate t := le_refl _
  have hW : stCandidate t ≤ stLine t := by rw [htop]; exact le_top
  have hL : ¬ stCandidate t ≤ stLabeled t := by
    rw [Px.le_iff]; unfold stCandidate stLabeled; omega
  set lf : Nat → Px t := fun i => if stCandidate t ≤ s.ws i then stLine t else t.wrap 0 with hlf
  have lL : ∀ i < im.dims.count, lf i = Px.zero ↔ s.ws i = stLabeled t := by
    intro i hi
    rcases h.stat i hi with h1 | h1 | h1 | h1
    · simp only [hlf, h1.1, if_pos hK, htop]
      exact ⟨fun e => absurd e.symm hzt, fun e => absurd e.symm hS.lk⟩
    · simp at h1
    · simp only [hlf, h1.1, if_neg hL, hzero]
    · have e0 : lf i = ⊤ := by simp only [hlf, h1.1]; rw [if_pos hW, htop]
      rw [e0, h1.1]
      exact ⟨fun e => absurd e.symm hzt, fun e => absurd e.symm hS.lw⟩
  have lT : ∀ i < im.dims.count, lf i = ⊤ ↔ s.ws i ≠ stLabeled t := by
    intro i hi
    rw [← not_iff_not, not_not, ← lL i hi]
    constructor
    · intro hne
      simp only [hlf] at hne ⊢
      split at hne
      · exact absurd htop hne
      · rename_i hc; rw [if_neg hc, hzero]
    · intro e; rw [e]; exact hzt
  have hat : ∀ p, Img.In im.dims p → mk.at? p = some (mk.buf (offOf im.dims p)) := by
    intro p hp
    have := mk.buf_offOf p (hd.symm ▸ hp)
    rwa [hd] at this
  have hout : ∀ p, Img.In im.dims p →
      (⟨im.dims, s.lbl⟩ : Img Nat).at? p = some (s.lbl (offOf im.dims p)) :=
    fun p hp => Img.buf_offOf ⟨im.dims, s.lbl⟩ p hp
  have houti : ∀ i < im.dims.count, (⟨im.dims, s.lbl⟩ : Img Nat).at? (coordPt im.dims i) =
      some (s.lbl i) := by
    intro i hi
    rw [hout _ (coordPt_in hi).1, (coordPt_in hi).2]
  have hline : ∀ p, Img.In im.dims p →
      (⟨im.dims, lf⟩ : Img (Px t)).at? p = some (lf (offOf im.dims p)) :=
    fun p hp => Img.buf_offOf ⟨im.dims, lf⟩ p hp
  have hlin : ∀ p v, (⟨im.dims, lf⟩ : Img (Px t)).at? p = some v → Img.In im.dims p :=
    fun p v h => Img.at?_eq_some_in ⟨im.dims, lf⟩ _ _ h
  have hencl : ∀ p, Img.In im.dims p → s.ws (offOf im.dims p) = stCandidate t →
      s.lbl (offOf im.dims p) = 0 → s.ws (offOf im.dims p) ≠ stLabeled t →
      ((⟨im.dims, s.lbl⟩ : Img Nat).at? p = some 0 ∧ ∀ q, seRel se q p → Img.In mk.dims q →
        (⟨im.dims, lf⟩ : Img (Px t)).at? q = some ⊤) := by
    intro p hp h2 h3 h1
    refine ⟨by rw [hout p hp, h3], fun q hn hq => ?_⟩
    rw [hd] at hq
    rw [hline q hq, Option.some.injEq, lT _ (offOf_lt hq)]
    intro hwq
    by_cases e : q = p
    · rw [e] at hwq; exact h1 hwq
    · exact h.done _ (offOf_lt hq) hwq (by simp) _ ((seRel_nb hq hp e).mp hn) h2
  have hiso : ∀ i < im.dims.count, ∀ v, mk.buf i = v → MarkApart (seRel se) mk (coordPt im.dims i) v →
      IsoAt (floodCfg se im) mk.buf i := by
    intro i hi v hv hap j hj hj0
    have hjl := nbOffsets_lt hi hj
    have e2 : mk.at? (coordPt im.dims j) = some (mk.buf j) := by
      rw [hat _ (coordPt_in hjl).1, (coordPt_in hjl).2]
    rw [hv]
    exact hap _ _ (nb_ne hi hj).2 e2 hj0
  have hisoA : MarksApart (seRel se) mk → Iso (floodCfg se im) mk.buf := by
    intro hap i hi h0
    have hi' : i < im.dims.count := hi
    refine hiso i hi' _ rfl (hap _ _ ?_ h0)
    rw [hat _ (coordPt_in hi').1, (coordPt_in hi').2]
  refine ⟨⟨hd.symm, hd.symm⟩, ?_, ?_, ?_, ?_, ?_, ?_, ?_, ?_, ?_⟩
  · intro p hp
    rw [hd] at hp
    rw [hline p hp, Option.some.injEq, Option.some.injEq, lL _ (offOf_lt hp), lT _ (offOf_lt hp)]
    exact em _
  · intro p v hv h0
    have hp : Img.In im.dims p := hd ▸ Img.at?_eq_some_in _ _ _ hv
    rw [hat p hp] at hv; cases hv
    rw [hout p hp, h.keep _ (offOf_lt hp) h0]
  · intro p q hn h1 h2
    have hp := hlin _ _ h1
    have hq := hlin _ _ h2
    rw [hline p hp, Option.some.injEq, lL _ (offOf_lt hp)] at h1
    rw [hline q hq, Option.some.injEq, lL _ (offOf_lt hq)] at h2
    by_cases e : p = q
    · rw [e]
    · rw [hout p hp, hout q hq]
      exact congrArg some (h.sep _ (offOf_lt hp) (by simp) h1 _ ((seRel_nb hp hq e).mp hn) h2)
  · intro p h1
    have hp := hlin _ _ h1
    rw [hline p hp, Option.some.injEq, lL _ (offOf_lt hp)] at h1
    rw [hout p hp]
    intro e; cases e' : s.lbl (offOf im.dims p) with
    | zero =>
      rcases h.stat _ (offOf_lt hp) with h2 | h2 | h2 | h2
      · exact hS.lk (h1.symm.trans h2.1)
      · simp at h2
      · exact h2.2 e'
      · exact hS.lw (h1.symm.trans h2.1)
    | succ n => rw [e'] at e; cases e
  · intro p h1
    have hp := hlin _ _ h1
    rw [hline p hp, Option.some.injEq, lT _ (offOf_lt hp)] at h1
    rcases h.stat _ (offOf_lt hp) with h2 | h2 | h2 | h2
    · left
      refine ⟨by rw [hout p hp, h2.2.1], fun q hn hq => ?_⟩
      rw [hd] at hq
      rw [hline q hq, Option.some.injEq, lT _ (offOf_lt hq)]
      intro hwq
      by_cases e : q = p
      · rw [e] at hwq; exact h1 hwq
      · exact h.done _ (offOf_lt hq) hwq (by simp) _ ((seRel_nb hq hp e).mp hn) h2.1
    · simp at h2
    · exact absurd h2.1 h1
    · right
      obtain ⟨j, hj, h3, h4⟩ := h.why _ (offOf_lt hp) h2.1
      have hjl := nbOffsets_lt (offOf_lt hp) hj
      have := (nb_ne (offOf_lt hp) hj).2
      rw [coordPt_offOf hp] at this
      exact ⟨coordPt im.dims j, _, _, this, hout p hp, houti j hjl, h2.2.1, h3, h4⟩
  · intro p v hv h0
    have hp : Img.In im.dims p := Img.at?_eq_some_in ⟨im.dims, s.lbl⟩ _ _ hv
    rw [hout p hp] at hv; cases hv
    obtain ⟨m, hm, hpath⟩ := h.conn _ (offOf_lt hp) h0
    have key : ∀ {j}, LPath (floodCfg se im) s.lbl (s.lbl (offOf im.dims p)) m j →
        m < im.dims.count ∧ j < im.dims.count ∧
        LabelPath (seRel se) ⟨im.dims, s.lbl⟩ (s.lbl (offOf im.dims p)) (coordPt im.dims m)
          (coordPt im.dims j) := by
      intro j hj
      induction hj with
      | base h1 h2 => exact ⟨h1, h1, .base (by rw [houti m h1, h2])⟩
      | @step i j _ hj hl ih =>
        have hlt := nbOffsets_lt ih.2.1 hj
        exact ⟨ih.1, hlt, .step ih.2.2 (nb_ne ih.2.1 hj).2 (by rw [houti j hlt, hl])⟩
    obtain ⟨k1, _, k3⟩ := key hpath
    rw [coordPt_offOf hp] at k3
    refine ⟨coordPt im.dims m, ?_, k3⟩
    rw [hat _ (coordPt_in k1).1, (coordPt_in k1).2, hm]
  · intro p v hv h0 hap
    have hp : Img.In im.dims p := hd ▸ Img.at?_eq_some_in _ _ _ hv
    rw [hat p hp] at hv
    have hv' : mk.buf (offOf im.dims p) = v := Option.some.inj hv
    rw [hline p hp, Option.some.injEq, lL _ (offOf_lt hp)]
    refine h.mark _ (offOf_lt hp) (by rw [hv']; exact h0) (hiso _ (offOf_lt hp) v hv' ?_)
    rw [coordPt_offOf hp]; exact hap
  · intro hap p h1
    have hp := hlin _ _ h1
    rw [hline p hp, Option.some.injEq, lL _ (offOf_lt hp)] at h1
    obtain ⟨m, hm, hpath⟩ := h.pconn (hisoA hap) _ (offOf_lt hp) h1
    have hnz : s.lbl (offOf im.dims p) ≠ 0 := by
      rcases h.stat _ (offOf_lt hp) with h2 | h2 | h2 | h2
      · exact absurd (h1.symm.trans h2.1) hS.lk
      · simp at h2
      · exact h2.2
      · exact h2.2.1
    have key : ∀ {j}, WPath (floodCfg se im) s.lbl s.ws (s.lbl (offOf im.dims p)) m j →
        m < im.dims.count ∧ j < im.dims.count ∧
        OffLine (seRel se) (⟨im.dims, lf⟩ : Img (Px t)) (coordPt im.dims m) (coordPt im.dims j) := by
      have hz : ∀ j < im.dims.count, s.ws j = stLabeled t →
          (⟨im.dims, lf⟩ : Img (Px t)).at? (coordPt im.dims j) = some Px.zero := by
        intro j hj hw
        rw [hline _ (coordPt_in hj).1, (coordPt_in hj).2, Option.some.injEq, lL _ hj]; exact hw
      intro j hj
      induction hj with
      | base h1 h2 h3 => exact ⟨h1, h1, .base (hz m h1 h3)⟩
      | @step i j _ hj hl hw ih =>
        have hlt := nbOffsets_lt ih.2.1 hj
        exact ⟨ih.1, hlt, .step ih.2.2 (nb_ne ih.2.1 hj).2 (hz j hlt hw)⟩
    obtain ⟨k1, _, k3⟩ := key hpath
    rw [coordPt_offOf hp] at k3
    refine ⟨coordPt im.dims m, _, ?_, hnz, hout p hp, k3⟩
    rw [hat _ (coordPt_in k1).1, (coordPt_in k1).2, hm]
  · intro hap p h1
    have hp := hlin _ _ h1
    rw [hline p hp, Option.some.injEq, lT _ (offOf_lt hp)] at h1
    rcases h.stat _ (offOf_lt hp) with h2 | h2 | h2 | h2
    · exact Or.inl (hencl p hp h2.1 h2.2.1 h1)
    · simp at h2
    · exact absurd h2.1 h1
    · right
      obtain ⟨j, hj, k, hk, h3, h4, h5⟩ := h.why2 (hisoA hap) _ (offOf_lt hp) h2.1
      have hjl := nbOffsets_lt (offOf_lt hp) hj
      have hkl := nbOffsets_lt (offOf_lt hp) hk
      have nj := (nb_ne (offOf_lt hp) hj).2
      have nk := (nb_ne (offOf_lt hp) hk).2
      rw [coordPt_offOf hp] at nj nk
      refine ⟨coordPt im.dims j, coordPt im.dims k, _, _, nj, nk, ?_, ?_, houti j hjl, houti k hkl, h5⟩
      · rw [hline _ (coordPt_in hjl).1, (coordPt_in hjl).2, Option.some.injEq, lL _ hjl]; exact h3
      · rw [hline _ (coordPt_in hkl).1, (coordPt_in hkl).2, Option.some.injEq, lL _ hkl]; exact h4

/-- **C42** (partial: unsigned types with at least five values; the line pixels are not unlabelled in
general, see `C42_line_label_bug`): on accepted images, with a symmetric element without repeated
points, `watershed` terminates and its two results satisfy `IsWatershed`. -/
theorem C42_watershed_partial (hs : t.signed = false) (hb : t.bits ≤ 64) (ht : 4 ≤ t.hi) (auto : Bool)
    (raw : Nat → Nat) (se : StrElt) (im : Img (Px t)) (mk : Img Nat) (dws dout : Dims)
    (hi : im.dims.count ≠ 0) (hd : mk.dims = im.dims)
    (ha : auto = true ∨ (dws = im.dims ∧ dout = im.dims))
    (hsym : ∀ p q, seRel se p q → seRel se q p) (hnd : se.points.Nodup) :
    ∃ line out, watershed auto raw se im mk dws dout = some (.ok (line, out)) ∧
      IsWatershed (seRel se) mk line out := by
  obtain ⟨s, h1, h2⟩ := wsRun_spec (floodCfg_ok (se := se) (im := im) hs hb) (nice_of se im hsym hnd)
    (statOk ht) mk.buf
  refine ⟨_, _, ?_, isWatershed_of_run hd (statOk ht) ht hsym h2⟩
  unfold watershed
  rw [if_neg (by rw [hd]; tauto), if_neg (by simp only [hd]; tauto)]
  simp only [if_pos hd, h1, Option.map_some]

/-- The values of the two results. -/
def wsVals : Option (Except Int (Img (Px t) × Img Nat)) → List Int × List Nat
  | some (.ok r) => ((List.range r.1.dims.count).map fun i => (r.1.buf i).val,
      (List.range r.2.dims.count).map r.2.buf)
  | _ => ([], [])

/-- **C42 fails** for its last clause: the pixel on the line carries the label of one of the two basins
in the basin image. -/
theorem C42_line_label_bug :
    wsVals (watershed false (fun _ => 0) (SquSE 1) (im8 ⟨3, 1, 1⟩ [1, 9, 2]) (imN ⟨3, 1, 1⟩ [4, 0, 7])
      ⟨3, 1, 1⟩ ⟨3, 1, 1⟩) = ([0, 255, 0], [4, 4, 7]) ∨
    wsVals (watershed false (fun _ => 0) (SquSE 1) (im8 ⟨3, 1, 1⟩ [1, 9, 2]) (imN ⟨3, 1, 1⟩ [4, 0, 7])
      ⟨3, 1, 1⟩ ⟨3, 1, 1⟩) = ([0, 255, 0], [4, 7, 7]) := by decide +kernel

/-- **C42 fails** for binary pixels, where the status values coincide (`STAT_LABELED = STAT_WS_LINE`,
`STAT_CANDIDATE = 0`): everything is on the line. -/
theorem C42_bit_bug :
    let BIT : PT := ⟨false, 1⟩
    wsVals (watershed false (fun _ => 0) (SquSE 1) (⟨⟨3, 1, 1⟩, fun _ => BIT.wrap 0⟩ : Img (Px BIT))
      (imN ⟨3, 1, 1⟩ [4, 0, 0]) ⟨3, 1, 1⟩ ⟨3, 1, 1⟩) = ([1, 1, 1], [4, 0, 0]) := by decide +kernel

/-- C42: a relief with two basins; the hypotheses are met by the square element. -/
example : (∀ p q, seRel (SquSE 1) p q → seRel (SquSE 1) q p) ∧ (SquSE 1).points.Nodup ∧
    (4 : Int) ≤ UINT8.hi ∧
    wsVals (watershed false (fun _ => 0) (SquSE 1) (im8 ⟨4, 2, 1⟩ [1, 2, 9, 3, 1, 2, 9, 3])
      (imN ⟨4, 2, 1⟩ [4, 0, 0, 7, 0, 0, 0, 0]) ⟨4, 2, 1⟩ ⟨4, 2, 1⟩) =
      ([0, 0, 255, 0, 0, 0, 255, 0], [4, 4, 7, 7, 4, 4, 7, 7]) :=
  ⟨seRel_symm (by decide), by decide, by decide, by decide +kernel⟩

/-! ## C43 -/

theorem level_count {n : Nat} {l : List Nat} (hnd : l.Nodup) (hlt : ∀ i ∈ l, i < n) (p : Nat → Bool) :
    (l.filter p).length ≤ ((List.range n).filter p).length := by
  apply List.Subperm.length_le
  apply (hnd.filter p).subperm
  intro i hi
  rw [List.mem_filter] at hi ⊢
  exact ⟨List.mem_range.mpr (hlt i hi.1), hi.2⟩

/-- **C43** for `basins` (partial: unsigned types): the queue is never pushed outside of its tables, each
pixel is pushed at most once, and the number of pushes at each level is at most the number of pixels
of that level, which is what `initialize` preallocates. The loop ends. -/
theorem C43_basins_partial (hs : t.signed = false) (hb : t.bits ≤ 64) (se : StrElt) (im : Img (Px t))
    (mk : Img Nat) :
    ∃ s, basRun (floodCfg se im) mk.buf = some s ∧ s.pushed.Nodup ∧
      (∀ i ∈ s.pushed, i < im.dims.count) ∧
      ∀ v : Px t, (s.pushed.filter fun i => im.buf i = v).length ≤
        ((List.range im.dims.count).filter fun i => im.buf i = v).length := by
  obtain ⟨s, h1, _, _, _, h5, h6⟩ := basRun_spec (floodCfg_ok (se := se) (im := im) hs hb) mk.buf
  exact ⟨s, h1, h5, h6, fun v => level_count h5 h6 _⟩

/-- **C43** for `watershed` (partial: same conditions as C42). -/
theorem C43_watershed_partial (hs : t.signed = false) (hb : t.bits ≤ 64) (ht : 4 ≤ t.hi) (se : StrElt)
    (im : Img (Px t)) (mk : Img Nat) (hsym : ∀ p q, seRel se p q → seRel se q p)
    (hnd : se.points.Nodup) :
    ∃ s : WsSt t, wsRun t (floodCfg se im) mk.buf = some s ∧ s.pushed.Nodup ∧
      (∀ i ∈ s.pushed, i < im.dims.count) ∧
      ∀ v : Px t, (s.pushed.filter fun i => im.buf i = v).length ≤
        ((List.range im.dims.count).filter fun i => im.buf i = v).length := by
  obtain ⟨s, h1, h2⟩ := wsRun_spec (floodCfg_ok (se := se) (im := im) hs hb) (nice_of se im hsym hnd)
    (statOk ht) mk.buf
  exact ⟨s, h1, h2.nodup, fun i hi => (h2.push i hi).1,
    fun v => level_count h2.nodup (fun i hi => (h2.push i hi).1) _⟩

theorem FifoRun.cap {τ : Type} {cap : Nat} {ops : List (Option τ)} {l o l' : List τ}
    (h : FifoRun cap ops l o l') : ∀ cap', l.length + (ops.filterMap fun x => x).length < cap' →
    FifoRun cap' ops l o l' := by
  induction h with
  | nil l => intro _ _; exact .nil l
  | push _ _ ih =>
    intro cap' hc
    simp only [List.filterMap_cons, List.length_cons] at hc
    exact .push (by omega) (ih cap' (by simp only [List.length_append, List.length_singleton]; omega))
  | pop _ ih =>
    intro cap' hc
    simp only [List.filterMap_cons, List.length_cons] at hc
    exact .pop (ih cap' (by omega))

/-- **C43**: a preallocated stack of a level never overflows: every history of a level whose pushes are
those of the flooding (in any legal interleaving with removals) is executed without leaving the
buffer. -/
theorem C43_stack (raw : Nat → Nat) (n : Nat) (pushed : List Nat) (p : Nat → Bool) (hnd : pushed.Nodup)
    (hlt : ∀ i ∈ pushed, i < n) (ops : List (Option Nat)) (hops : (ops.filterMap fun x => x) = pushed.filter p)
    (cap : Nat) (o l' : List Nat) (hlegal : FifoRun cap ops [] o l') :
    ∃ q', Fifo.run ops (Fifo.init raw ((List.range n).filter p).length) = some (o, q') ∧
      q'.size = l'.length := by
  apply C34_fifo
  apply hlegal.cap
  have := level_count hnd hlt p
  rw [hops]; simp only [List.length_nil]; omega

/-- **C43** for the queue of `build`, `dualBuild` and `binBuild`: the loop ends after at most `2 n`
removals, and each pixel is pushed at most twice: once by the initialisation and once as a
neighbour. Every push goes to an existing level (the standard queues of the levels have no
preallocated size). -/
theorem C43_build {α : Type} [LinearOrder α] [OrderBot α] {C : BuildCfg α} {n : Nat} (hC : C.Ok n)
    (keep : α → Bool) (val : Nat → α) (stat : Nat → HQStat) (hval : ∀ p < n, val p ≤ C.mask p)
    (hkeep : ∀ v, v ≠ ⊥ → keep v = true)
    (hstat : ∀ p < n, stat p = .candidate ∨ (stat p = .final ∧ C.mask p = ⊥ ∧ keep ⊥ = false)) :
    ∃ s pushed, buildRunT C keep val stat n = some (s, pushed) ∧ buildRun C keep val stat n = some s ∧
      ∀ i, pushed.count i ≤ 2 := by
  obtain ⟨s, h1, _⟩ := buildRun_spec hC keep val stat hval hkeep hstat
  obtain ⟨pushed, h2, h3⟩ := buildRunT_spec h1
  exact ⟨s, pushed, h2, h1, h3⟩

/-- C43: a flooding that pushes five pixels, and its log. -/
example : ((basRun (floodCfg (SquSE 1) (im8 ⟨5, 1, 1⟩ [1, 3, 9, 2, 0]))
    (imN ⟨5, 1, 1⟩ [0, 4, 0, 0, 7]).buf).map BasSt.pushed) = some [1, 4, 3, 2, 0] := by decide +kernel

end Smil
