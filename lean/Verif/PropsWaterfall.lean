import Verif.WaterfallLemmas

/-!
# C71: watershed without markers, waterfall
-/

namespace Smil
variable {t : PT}
open StrElt

/-- **C71** (partial: unsigned types of at least three bits, elements of size 1, minima at the maximum of the type are not counted):
`watershed` without markers ends without error and divides the image in one zone for each regional minimum. -/
theorem C71_watershed_partial (hs : t.signed = false) (hb : t.bits ≤ 64) (ht : 4 ≤ t.hi) (E : Env (Px t))
    (raw : Nat → Nat) (M : Nat) (se : StrElt) (im : Img (Px t)) (dout : Dims) (hi : im.dims.count ≠ 0)
    (ha : E.auto = true ∨ dout = im.dims)
    (hN : ∀ p q, seRel se p q → seRel se q p) (hnd : se.points.Nodup) (hsz : se.size ≤ 1)
    (hM : 2 ≤ M) (hc : im.dims.count < M) :
    ∃ line, watershedMinima E raw M se im dout = some (.ok line) ∧ IsMinWatershed (seRel se) im line :=
  watershedMinima_spec hs hb ht E raw M se im dout hi ha hN hnd hsz hM hc

theorem OffLine.trans {N : IntPoint → IntPoint → Prop} {line : Img (Px t)} {p q r : IntPoint}
    (h : OffLine N line p q) (h' : OffLine N line q r) : OffLine N line p r := by
  induction h' with
  | base _ => exact h
  | step _ h1 h2 ih => exact .step ih h1 h2

theorem OffLine.symm {N : IntPoint → IntPoint → Prop} (hN : ∀ p q, N p q → N q p) {line : Img (Px t)}
    {p q : IntPoint} (h : OffLine N line p q) : OffLine N line q p := by
  induction h with
  | base h => exact .base h
  | step h1 hn hz ih =>
    exact ((OffLine.base hz).step (hN _ _ hn) h1.ends.2).trans ih

/-- **C71**: a zone (the pixels joined off the line to a pixel `p` off the line) contains exactly one regional minimum: all of one
minimum, and nothing of another. -/
theorem C71_zones {N : IntPoint → IntPoint → Prop} (hN : ∀ p q, N p q → N q p) {im line : Img (Px t)}
    (h : IsMinWatershed N im line) (p : IntPoint) (hp : line.at? p = some Px.zero) :
    ∃ m, LowMin N im m ∧ ∀ q, (LowMin N im q ∧ OffLine N line p q) ↔ FlatPath N im m q := by
  obtain ⟨m, hm, hmp⟩ := h.all p hp
  refine ⟨m, hm, fun q => ⟨fun ⟨h1, h2⟩ => h.one m q hm h1 (hmp.trans h2), fun hq => ?_⟩⟩
  refine ⟨hm.flat hN hq, (hmp.symm hN).trans ?_⟩
  induction hq with
  | refl hin => exact .base (h.minima m hm)
  | step h1 h2 ha hb hab ih =>
    exact .step ih h2 (h.minima _ (hm.flat hN (.step h1 h2 ha hb hab)))

/-- **C71**: a step of the waterfall fills the relief up to the lowest passes on the line and computes the watershed of the result. -/
theorem C71_waterfall_partial (hs : t.signed = false) (hb : t.bits ≤ 64) (ht : 4 ≤ t.hi) (E : Env (Px t))
    (raw : Nat → Nat) (M : Nat) (se : StrElt) (grad ws : Img (Px t)) (dg dw : Dims)
    (hi : grad.dims.count ≠ 0) (hg0 : dg.count ≠ 0) (hw0 : dw.count ≠ 0) (hd : ws.dims = grad.dims)
    (ha : E.auto = true ∨ (dg = grad.dims ∧ dw = grad.dims))
    (hN : ∀ p q, seRel se p q → seRel se q p) (hnd : se.points.Nodup) (hsz : se.size ≤ 1)
    (hM : 2 ≤ M) (hc : grad.dims.count < M) :
    ∃ g w, waterfall E raw M se grad ws dg dw = some (.ok (g, w)) ∧ IsWaterfall (seRel se) grad ws g ∧
      IsMinWatershed (seRel se) g w :=
  waterfall_spec hs hb ht E raw M se grad ws dg dw hi hg0 hw0 hd ha hN hnd hsz hM hc

/-- **C71**: the new relief is above the old one and equal to it on the line. Each of its minima contains a pixel of the line and all of
a minimum of the old relief: no minimum appears, and the minima inside the zones have disappeared. -/
theorem C71_filled {N : IntPoint → IntPoint → Prop} (hN : ∀ p q, N p q → N q p) {grad ws g : Img (Px t)}
    (h : IsWaterfall N grad ws g) :
    Img.Le grad g ∧
    (∀ p w, ws.at? p = some w → w ≠ Px.zero → g.at? p = grad.at? p) ∧
    ∀ p, LowMin N g p →
      (∃ q w, FlatPath N g p q ∧ ws.at? q = some w ∧ w ≠ Px.zero) ∧
      ∃ m, LowMin N grad m ∧ ∀ m', FlatPath N grad m m' → FlatPath N g p m' := by
  refine ⟨⟨h.dims.2.symm, fun p u v hu hv => h.ge hu hv⟩, fun p w hw h0 => ?_, fun p hp => ⟨?_, h.minima hN hp⟩⟩
  · have hin : Img.In grad.dims p := h.dims.1 ▸ Img.at?_eq_some_in _ _ _ hw
    have h1 := Img.at?_some grad p hin
    obtain ⟨v, hv⟩ := h.at h1
    rw [h1, hv]
    exact congrArg some (le_antisymm (h.least p v _ hv (.base hw h0 h1 le_rfl)) (h.ge h1 hv))
  · obtain ⟨⟨v, hv, hr⟩, v', hv', hne⟩ := hp
    rw [hv] at hv'; cases hv'
    obtain ⟨q, w, h1, h2, h3⟩ := h.line hv hne hr
    exact ⟨q, w, h1.flat hN, h2, h3⟩

/-- **C71**: `waterfall` with `n` levels performs `n` steps. -/
theorem C71_levels_partial (hs : t.signed = false) (hb : t.bits ≤ 64) (ht : 4 ≤ t.hi) (E : Env (Px t))
    (raw : Nat → Nat) (M : Nat) (se : StrElt) (n : Nat) (grad out : Img (Px t)) (h : Accepts E grad out)
    (hN : ∀ p q, seRel se p q → seRel se q p) (hnd : se.points.Nodup) (hsz : se.size ≤ 1)
    (hM : 2 ≤ M) (hc : grad.dims.count < M) :
    ∃ g w, waterfallN E raw M se n grad out = some (.ok w) ∧ WaterfallChain (seRel se) grad n g w := by
  obtain ⟨o, ho, _⟩ := checkSize_ok E grad out h
  have hi : grad.dims.count ≠ 0 := by have := h.1; unfold Img.alloc at this; simpa using this
  obtain ⟨ws, h1, h2⟩ := watershedMinima_spec hs hb ht E raw M se grad grad.dims hi (Or.inr rfl) hN hnd
    hsz hM hc
  obtain ⟨g, w, h3, h4⟩ := waterfallLoop_spec hs hb ht E raw M se grad hi hN hnd hsz hM hc n 0 grad ws rfl
    (.zero h2)
  refine ⟨g, w, ?_, by rwa [Nat.zero_add] at h4⟩
  unfold waterfallN
  rw [ho]
  simp only [h1, Option.bind_some, h3, Option.map_some]

/-- **C71**: along the hierarchy the relief only rises, the line is the watershed of the relief, and every minimum of the last relief
contains all of a minimum of the first: the number of zones never grows. -/
theorem C71_hierarchy {N : IntPoint → IntPoint → Prop} (hN : ∀ p q, N p q → N q p) {grad g ws : Img (Px t)}
    {n : Nat} (h : WaterfallChain N grad n g ws) :
    Img.Le grad g ∧ IsMinWatershed N g ws ∧
    ∀ p, LowMin N g p → ∃ m, LowMin N grad m ∧ ∀ m', FlatPath N grad m m' → FlatPath N g p m' := by
  induction h with
  | zero h => exact ⟨Img.Le.refl _, h, fun p hp => ⟨p, hp, fun _ h => h⟩⟩
  | succ _ h1 h2 ih =>
    obtain ⟨k1, _, k3⟩ := C71_filled hN h1
    refine ⟨ih.1.trans k1, h2, fun p hp => ?_⟩
    obtain ⟨m, hm, hm'⟩ := (k3 p hp).2
    obtain ⟨m0, e1, e2⟩ := ih.2.2 m hm
    exact ⟨m0, e1, fun x hx => hm' x (e2 x hx)⟩

/-- **C71 fails** when the whole image is at the maximum of the type: it has a regional minimum, yet everything is on the line. -/
theorem C71_top_bug {N : IntPoint → IntPoint → Prop} {im line : Img (Px t)} (h : IsMinWatershed N im line)
    (htop : ∀ p a, im.at? p = some a → a = ⊤) (p : IntPoint) (hp : Img.In im.dims p) :
    line.at? p = some ⊤ ∧ IsRegMin N im p := by
  constructor
  · rcases h.val p hp with h0 | h0
    · obtain ⟨m, ⟨_, c, hc, hne⟩, _⟩ := h.all p h0
      exact absurd (htop m c hc) hne
    · exact h0
  · have h1 := Img.at?_some im p hp
    rw [htop p _ h1] at h1
    exact ⟨⊤, h1, fun q _ s a _ ha => (htop s a ha).ge⟩

/-- **C71 fails** at the top of the hierarchy: when one zone is left (no pixel on the line), the next step does not keep it but sets the
relief to the maximum and puts every pixel on the line. -/
theorem C71_last_level_bug (hs : t.signed = false) (hb : t.bits ≤ 64) (ht : 4 ≤ t.hi) (E : Env (Px t))
    (raw : Nat → Nat) (M : Nat) (se : StrElt) (grad ws : Img (Px t)) (dg dw : Dims)
    (hi : grad.dims.count ≠ 0) (hg0 : dg.count ≠ 0) (hw0 : dw.count ≠ 0) (hd : ws.dims = grad.dims)
    (ha : E.auto = true ∨ (dg = grad.dims ∧ dw = grad.dims))
    (hN : ∀ p q, seRel se p q → seRel se q p) (hnd : se.points.Nodup) (hsz : se.size ≤ 1)
    (hM : 2 ≤ M) (hc : grad.dims.count < M) (hws : ∀ p w, ws.at? p = some w → w = Px.zero) :
    ∃ g w, waterfall E raw M se grad ws dg dw = some (.ok (g, w)) ∧
      ∀ p, Img.In grad.dims p → g.at? p = some ⊤ ∧ w.at? p = some ⊤ := by
  obtain ⟨g, w, h1, h2, h3⟩ := waterfall_spec hs hb ht E raw M se grad ws dg dw hi hg0 hw0 hd ha hN hnd hsz
    hM hc
  refine ⟨g, w, h1, ?_⟩
  have hno : ∀ p v, ¬ Flooded (seRel se) grad ws v p := by
    intro p v hf
    induction hf with
    | base e1 e2 _ _ => exact e2 (hws _ _ e1)
    | step _ _ _ _ ih => exact ih
  have htop : ∀ p a, g.at? p = some a → a = ⊤ := by
    intro p a hpa
    by_contra hne
    exact hno p a (h2.reach p a hpa hne)
  intro p hp
  have hp' : Img.In g.dims p := h2.dims.2.symm ▸ hp
  refine ⟨?_, (C71_top_bug h3 htop p hp').1⟩
  have := Img.at?_some g p hp'
  rw [htop p _ this] at this
  exact this

/-- The values of a result. -/
def lineVals (r : Option (Except Int (Img (Px t)))) : List Int :=
  match r with
  | some (.ok r) => (List.range r.dims.count).map fun i => (r.buf i).val
  | _ => []

/-- **C71 fails**, instance: a relief with one zone; its watershed is empty, the first level of its waterfall is full. -/
theorem C71_one_zone_bug :
    lineVals (watershedMinima exEnv8 (fun _ => 0) 4294967295 (SquSE 1) (im8 ⟨3, 1, 1⟩ [1, 2, 3]) ⟨3, 1, 1⟩) =
      [0, 0, 0] ∧
    lineVals (waterfallN exEnv8 (fun _ => 0) 4294967295 (SquSE 1) 1 (im8 ⟨3, 1, 1⟩ [1, 2, 3])
      (im8 ⟨3, 1, 1⟩ [])) = [255, 255, 255] := by decide +kernel

/-- **C71 fails** for elements of size 2: `minima` and the flooding use the points of the element, `label` its homothetic. The two minima
below get one label and no line separates them. -/
theorem C71_size_bug :
    lineVals (watershedMinima exEnv8 (fun _ => 0) 4294967295 (SquSE 1) (im8 ⟨3, 1, 1⟩ [1, 2, 1]) ⟨3, 1, 1⟩) =
      [0, 255, 0] ∧
    lineVals (watershedMinima exEnv8 (fun _ => 0) 4294967295 (SquSE 2) (im8 ⟨3, 1, 1⟩ [1, 2, 1]) ⟨3, 1, 1⟩) =
      [0, 0, 0] := by decide +kernel

/-- **C71**, refused images. -/
theorem C71_errors (E : Env (Px t)) (raw : Nat → Nat) (M : Nat) (se : StrElt) (grad ws out : Img (Px t))
    (dg dw : Dims) (n : Nat) :
    (grad.dims.count = 0 → watershedMinima E raw M se grad dg = some (.error (-99)) ∧
      waterfall E raw M se grad ws dg dw = some (.error (-99)) ∧
      waterfallN E raw M se n grad out = some (.error (-99))) ∧
    (grad.dims.count ≠ 0 → E.auto = false → dg ≠ grad.dims →
      watershedMinima E raw M se grad dg = some (.error (-98))) ∧
    ((ws.dims.count = 0 ∨ dg.count = 0 ∨ dw.count = 0) →
      waterfall E raw M se grad ws dg dw = some (.error (-99))) ∧
    (grad.dims.count ≠ 0 → ws.dims.count ≠ 0 → dg.count ≠ 0 → dw.count ≠ 0 → E.auto = false →
      ¬ (ws.dims = grad.dims ∧ dg = grad.dims ∧ dw = grad.dims) →
      waterfall E raw M se grad ws dg dw = some (.error (-98))) := by
  refine ⟨fun h => ⟨?_, ?_, ?_⟩, fun h ha hd => ?_, fun h => ?_, fun h1 h2 h3 h4 ha hd => ?_⟩
  · unfold watershedMinima; rw [if_pos h]; rfl
  · unfold waterfall; rw [if_pos (Or.inl h)]; rfl
  · unfold waterfallN checkSize
    have : grad.alloc = false := by unfold Img.alloc; simp [h]
    simp [this]; rfl
  · unfold watershedMinima; rw [if_neg h, if_pos ⟨by simp [ha], hd⟩]; rfl
  · unfold waterfall; rw [if_pos (Or.inr h)]; rfl
  · unfold waterfall; rw [if_neg (by tauto), if_pos ⟨by simp [ha], hd⟩]; rfl

/-- C71: three zones, of which the first step merges two; the hypotheses are met. -/
example : (∀ p q, seRel (SquSE 1) p q → seRel (SquSE 1) q p) ∧ (SquSE 1).points.Nodup ∧ (SquSE 1).size ≤ 1 ∧
    lineVals (watershedMinima exEnv8 (fun _ => 0) 4294967295 (SquSE 1)
      (im8 ⟨7, 1, 1⟩ [1, 3, 2, 9, 1, 4, 2]) ⟨7, 1, 1⟩) = [0, 255, 0, 255, 0, 255, 0] ∧
    lineVals (waterfallN exEnv8 (fun _ => 0) 4294967295 (SquSE 1) 1
      (im8 ⟨7, 1, 1⟩ [1, 3, 2, 9, 1, 4, 2]) (im8 ⟨7, 1, 1⟩ [])) = [0, 0, 0, 255, 0, 0, 0] :=
  ⟨seRel_symm (by decide), by decide, by decide, by decide +kernel, by decide +kernel⟩

end Smil
