import Verif.Waterfall
import Verif.PropsBuild
import Verif.PropsLabel
import Verif.PropsWatershed

/-!
# Watershed without markers and waterfall: specification and lemmas
-/

namespace Smil
variable {t : PT}

/-! ### Specification -/

/-- `p` belongs to a regional minimum whose value is below the maximum of the type. -/
def LowMin (N : IntPoint → IntPoint → Prop) (im : Img (Px t)) (p : IntPoint) : Prop :=
  IsRegMin N im p ∧ ∃ c, im.at? p = some c ∧ c ≠ ⊤

/-- `line` divides the image in one zone for each regional minimum of `im` (below the maximum). -/
structure IsMinWatershed (N : IntPoint → IntPoint → Prop) (im line : Img (Px t)) : Prop where
  dims : line.dims = im.dims
  /-- two values: 0 off the line, the maximum on it -/
  val : ∀ p, Img.In im.dims p → line.at? p = some Px.zero ∨ line.at? p = some ⊤
  /-- the minima are off the line -/
  minima : ∀ p, LowMin N im p → line.at? p = some Px.zero
  /-- two minima joined off the line are one minimum -/
  one : ∀ p q, LowMin N im p → LowMin N im q → OffLine N line p q → FlatPath N im p q
  /-- every pixel off the line is joined to a minimum off the line -/
  all : ∀ p, line.at? p = some Px.zero → ∃ m, LowMin N im m ∧ OffLine N line m p
  /-- a pixel on the line is enclosed by the line or touches two different zones -/
  thin : ∀ p, line.at? p = some ⊤ → (∀ q, N q p → Img.In im.dims q → line.at? q = some ⊤) ∨
    ∃ q q', N p q ∧ N p q' ∧ line.at? q = some Px.zero ∧ line.at? q' = some Px.zero ∧
      ¬ OffLine N line q q'

/-- A path leads from a line pixel (a non-zero pixel of `ws`) to `p` without rising above `h`. -/
inductive Flooded (N : IntPoint → IntPoint → Prop) (grad ws : Img (Px t)) (h : Px t) : IntPoint → Prop
  | base {p w a} : ws.at? p = some w → w ≠ Px.zero → grad.at? p = some a → a ≤ h → Flooded N grad ws h p
  | step {q p b} : Flooded N grad ws h q → N q p → grad.at? p = some b → b ≤ h → Flooded N grad ws h p

/-- `g` is `grad` with every zone filled up to its lowest pass on the line: the least height at which a
path leads to a line pixel, or the maximum if there is none. -/
structure IsWaterfall (N : IntPoint → IntPoint → Prop) (grad ws g : Img (Px t)) : Prop where
  dims : ws.dims = grad.dims ∧ g.dims = grad.dims
  least : ∀ p v h, g.at? p = some v → Flooded N grad ws h p → v ≤ h
  reach : ∀ p v, g.at? p = some v → v ≠ ⊤ → Flooded N grad ws v p

/-- `n` steps of the waterfall lead from `grad` to the relief `g` with line `ws`. -/
inductive WaterfallChain (N : IntPoint → IntPoint → Prop) (grad : Img (Px t)) :
    Nat → Img (Px t) → Img (Px t) → Prop
  | zero {ws} : IsMinWatershed N grad ws → WaterfallChain N grad 0 grad ws
  | succ {n g ws g' ws'} : WaterfallChain N grad n g ws → IsWaterfall N g ws g' →
      IsMinWatershed N g' ws' → WaterfallChain N grad (n + 1) g' ws'

/-! ### Plateaus -/

section plateau
variable {α : Type} {N : IntPoint → IntPoint → Prop} {f : Img α}

theorem Plateau.val {c : α} {p q : IntPoint} (h : Plateau N f c p q) :
    f.at? p = some c ∧ f.at? q = some c := by
  induction h with
  | refl h => exact ⟨h, h⟩
  | cons _ h _ ih => exact ⟨ih.1, h⟩

theorem Plateau.trans {c : α} {p q r : IntPoint} (h : Plateau N f c p q) (h' : Plateau N f c q r) :
    Plateau N f c p r := by
  induction h' with
  | refl _ => exact h
  | cons h1 h2 _ ih => exact .cons h1 h2 ih

theorem FlatPath.plateau (hN : ∀ p q, N p q → N q p) {c : α} {p q : IntPoint} (h : FlatPath N f p q)
    (hc : f.at? p = some c) : Plateau N f c p q := by
  induction h with
  | refl _ => exact .refl hc
  | @step q r a b _ h1 ha hb hab ih =>
    have := ih.val.2
    rw [ha] at this; cases this
    exact .cons (hN _ _ h1) (by rw [hb, hab]) ih

theorem Plateau.flat (hN : ∀ p q, N p q → N q p) {c : α} {p q : IntPoint} (h : Plateau N f c p q) :
    FlatPath N f p q := by
  induction h with
  | refl h => exact .refl (Img.at?_eq_some_in _ _ _ h)
  | cons h1 h2 h3 ih => exact .step ih (hN _ _ h1) h3.val.2 h2 rfl

end plateau

theorem LowMin.flat {N : IntPoint → IntPoint → Prop} (hN : ∀ p q, N p q → N q p) {im : Img (Px t)}
    {p q : IntPoint} (hp : LowMin N im p) (h : FlatPath N im p q) : LowMin N im q := by
  obtain ⟨⟨c, hc, hr⟩, c', hc', hne⟩ := hp
  rw [hc] at hc'; cases hc'
  have hpl := FlatPath.plateau hN h hc
  exact ⟨⟨c, hpl.val.2, fun x hx => hr x (hpl.trans hx)⟩, c, hpl.val.2, hne⟩

/-- Neighbouring pixels of minima belong to one minimum. -/
theorem LowMin.adj {N : IntPoint → IntPoint → Prop} (hN : ∀ p q, N p q → N q p) {im : Img (Px t)}
    {p q : IntPoint} (hp : LowMin N im p) (hq : LowMin N im q) (h : N p q) :
    im.at? p = im.at? q := by
  obtain ⟨⟨c, hc, hr⟩, _⟩ := hp
  obtain ⟨⟨d, hd, hs⟩, _⟩ := hq
  rw [hc, hd, le_antisymm (hr p (.refl hc) q d (hN _ _ h) hd) (hs q (.refl hd) p c h hc)]

/-! ### Watershed from the minima -/

theorem reps_length {α : Type} {N : IntPoint → IntPoint → Prop} {link : α → α → Prop} {keep : α → Prop}
    {im : Img α} {reps : List IntPoint} (h : IsReps N link keep im reps) :
    reps.length ≤ im.dims.count := by
  have hnd : (reps.map (offOf im.dims)).Nodup := by
    rw [List.Nodup, List.pairwise_map]
    exact h.apart.imp fun hab => Nat.ne_of_lt hab.1
  have hsub : ∀ i ∈ reps.map (offOf im.dims), i ∈ List.range im.dims.count := by
    intro i hi
    obtain ⟨p, hp, rfl⟩ := List.mem_map.mp hi
    obtain ⟨a, ha, _⟩ := h.kept p hp
    exact List.mem_range.mpr (offOf_lt (Img.at?_eq_some_in _ _ _ ha))
  have := (List.subperm_of_subset hnd hsub).length_le
  simpa using this

theorem bits_pos (ht : 4 ≤ t.hi) (hs : t.signed = false) : 1 ≤ t.bits := by
  by_contra hb
  have h0 : t.bits = 0 := by omega
  unfold PT.hi at ht
  rw [hs, h0] at ht
  norm_num at ht

/-- The markers of the watershed: the minima below the maximum, one label for each. -/
structure IsMinMarkers (N : IntPoint → IntPoint → Prop) (im : Img (Px t)) (mk : Img Nat) : Prop where
  dims : mk.dims = im.dims
  mark : ∀ p v, mk.at? p = some v → (v ≠ 0 ↔ LowMin N im p)
  same : ∀ p q v, mk.at? p = some v → v ≠ 0 → mk.at? q = some v → FlatPath N im p q
  flat : ∀ p q v w, mk.at? p = some v → mk.at? q = some w → v ≠ 0 → FlatPath N im p q → v = w

theorem minimaLabeled_spec (hs : t.signed = false) (hb : t.bits ≤ 64) (ht : 4 ≤ t.hi) (E : Env (Px t))
    (raw : Nat → Nat) (M : Nat) (se : StrElt) (im : Img (Px t)) (hi : im.dims.count ≠ 0)
    (hN : ∀ p q, seRel se p q → seRel se q p) (hsz : se.size ≤ 1) (hM : 2 ≤ M)
    (hc : im.dims.count < M) :
    ∃ mk, minimaLabeled E raw M se im = some mk ∧ IsMinMarkers (seRel se) im mk := by
  have hia : im.alloc = true := by unfold Img.alloc; simpa using hi
  obtain ⟨m, hm, hmd, hmv⟩ := C38_minima_partial hs (bits_pos ht hs) hb E se im ⟨im.dims, E.raw⟩
    (accepts_of_dims E hia rfl)
  have hex : execSe se = se := by unfold execSe; rw [if_neg (by omega)]
  have hN' : ∀ p q, seRel (execSe se) p q → seRel (execSe se) q p := by rw [hex]; exact hN
  obtain ⟨n, mk, h1, h2, ⟨reps, h3, h3'⟩, h4, h5⟩ := C39_label E.auto M se se m im.dims hN' hM
    ⟨by rw [hmd]; exact hi, hi, Or.inl hmd.symm⟩
  have hn : n < M := by
    have := reps_length h3
    rw [hmd] at this; omega
  have hl := h5 hn
  rw [hex] at hl
  refine ⟨mk, by unfold minimaLabeled; rw [hm]; simp only [Option.bind_some, h1, Option.map_some], ?_⟩
  have hzt : (Px.zero : Px t) ≠ ⊤ := by
    intro e
    have := congrArg Px.val e
    rw [Px.top_val] at this
    have h0 : (Px.zero : Px t).val = 0 := rfl
    omega
  -- the marked pixels are the minima
  have hmin : ∀ p c, im.at? p = some c → ∀ a, m.at? p = some a → (a ≠ Px.zero ↔ LowMin (seRel se) im p) := by
    intro p c hc a ha
    obtain ⟨k1, k2⟩ := hmv p c hc
    have hiff : LowMin (seRel se) im p ↔ IsRegMin (seRel se) im p ∧ c ≠ ⊤ := by
      constructor
      · rintro ⟨e1, c', e2, e3⟩; rw [hc] at e2; cases e2; exact ⟨e1, e3⟩
      · rintro ⟨e1, e3⟩; exact ⟨e1, c, hc, e3⟩
    rw [hiff]
    by_cases hh : IsRegMin (seRel se) im p ∧ c ≠ ⊤
    · have := k1 hh; rw [ha] at this; cases this
      exact ⟨fun _ => hh, fun _ => hzt.symm⟩
    · have := k2 hh; rw [ha] at this; cases this
      exact ⟨fun e => absurd rfl e, fun e => absurd e hh⟩
  have him : ∀ {p a}, m.at? p = some a → ∃ c, im.at? p = some c := by
    intro p a ha
    have hin : Img.In im.dims p := hmd ▸ Img.at?_eq_some_in _ _ _ ha
    exact ⟨_, Img.at?_some im p hin⟩
  have hmi : ∀ {p c}, im.at? p = some c → ∃ a, m.at? p = some a := by
    intro p c hc
    have hin : Img.In m.dims p := hmd.symm ▸ Img.at?_eq_some_in _ _ _ hc
    exact ⟨_, Img.at?_some m p hin⟩
  have hmark : ∀ p v, mk.at? p = some v → (v ≠ 0 ↔ LowMin (seRel se) im p) := by
    intro p v hv
    have hin : Img.In m.dims p := h2 ▸ Img.at?_eq_some_in _ _ _ hv
    have ha := Img.at?_some m p hin
    obtain ⟨c, hc⟩ := him ha
    rw [← hmin p c hc _ ha, ne_eq, h4 p _ v ha hv]
  refine ⟨h2.trans hmd, hmark, ?_, ?_⟩
  · intro p q v hp h0 hq
    have hpath := (hl.same p q v v hp hq h0).mp rfl
    have hpm := (hmark p v hp).mp h0
    clear hq
    -- from a flat path of the marked pixels to a flat path of the image
    induction hpath with
    | refl hin => exact .refl (hmd ▸ hin)
    | @step q r a b hpq hqr ha hb hab ih =>
      have ih := ih
      have hmq : mk.at? q = some v := by
        have hin : Img.In mk.dims q := h2.symm ▸ Img.at?_eq_some_in _ _ _ ha
        have hk := Img.at?_some mk q hin
        rw [hk]; congr 1
        exact ((hl.same p q v _ hp hk h0).mpr hpq).symm
      have hmr : mk.at? r = some v := by
        have hin : Img.In mk.dims r := h2.symm ▸ Img.at?_eq_some_in _ _ _ hb
        have hk := Img.at?_some mk r hin
        rw [hk]; congr 1
        exact ((hl.same p r v _ hp hk h0).mpr (.step hpq hqr ha hb hab)).symm
      obtain ⟨c, hcq⟩ := him ha
      obtain ⟨d, hdr⟩ := him hb
      have hadj := LowMin.adj hN ((hmark q v hmq).mp h0) ((hmark r v hmr).mp h0) hqr
      refine .step ih hqr hcq hdr ?_
      rw [hcq, hdr] at hadj; exact Option.some.inj hadj
  · intro p q v w hp hq h0 hpath
    refine (hl.same p q v w hp hq h0).mpr ?_
    have hpm := (hmark p v hp).mp h0
    clear hq
    induction hpath with
    | refl hin => exact .refl (hmd.symm ▸ hin)
    | @step q r a b hpq hqr ha hb hab ih =>
      obtain ⟨a', ha'⟩ := hmi ha
      obtain ⟨b', hb'⟩ := hmi hb
      have l1 := hpm.flat hN hpq
      have l2 := hpm.flat hN (.step hpq hqr ha hb hab)
      have t1 : a' = ⊤ := by
        have := (hmv q a ha).1 ⟨l1.1, by obtain ⟨c, e1, e2⟩ := l1.2; rw [ha] at e1; cases e1; exact e2⟩
        rw [ha'] at this; exact Option.some.inj this
      have t2 : b' = ⊤ := by
        have := (hmv r b hb).1 ⟨l2.1, by obtain ⟨c, e1, e2⟩ := l2.2; rw [hb] at e1; cases e1; exact e2⟩
        rw [hb'] at this; exact Option.some.inj this
      exact .step ih hqr ha' hb' (t1.trans t2.symm)

theorem OffLine.ends {N : IntPoint → IntPoint → Prop} {line : Img (Px t)} {p q : IntPoint}
    (h : OffLine N line p q) : line.at? p = some Px.zero ∧ line.at? q = some Px.zero := by
  induction h with
  | base h => exact ⟨h, h⟩
  | step _ _ h ih => exact ⟨ih.1, h⟩

theorem OffLine.label {N : IntPoint → IntPoint → Prop} {mk out : Img Nat} {line : Img (Px t)}
    (h : IsWatershed N mk line out) {p q : IntPoint} (hp : OffLine N line p q) : out.at? p = out.at? q := by
  induction hp with
  | base _ => rfl
  | step hpq hn hz ih => rw [ih]; exact h.sep _ _ hn hpq.ends.2 hz

theorem isMinWatershed_of {N : IntPoint → IntPoint → Prop} (hN : ∀ p q, N p q → N q p) {im : Img (Px t)}
    {mk out : Img Nat} {line : Img (Px t)} (hm : IsMinMarkers N im mk) (h : IsWatershed N mk line out) :
    IsMinWatershed N im line := by
  have hap : MarksApart N mk := by
    intro p v hp h0 q w hn hq hw
    have l1 := (hm.mark p v hp).mp h0
    have l2 := (hm.mark q w hq).mp hw
    have hadj := LowMin.adj hN l1 l2 hn
    obtain ⟨c, hc, _⟩ := l1.2
    refine (hm.flat p q v w hp hq h0 (.step (.refl (Img.at?_eq_some_in _ _ _ hc)) hn hc ?_ rfl)).symm
    rw [← hadj, hc]
  have hmk : ∀ {p}, LowMin N im p → ∃ v, mk.at? p = some v ∧ v ≠ 0 := by
    intro p hp
    obtain ⟨c, hc, _⟩ := hp.2
    have hk := Img.at?_some mk p (hm.dims.symm ▸ Img.at?_eq_some_in _ _ _ hc)
    exact ⟨_, hk, (hm.mark p _ hk).mpr hp⟩
  refine ⟨h.dims.2.trans hm.dims, fun p hp => h.val p (hm.dims.symm ▸ hp), ?_, ?_, ?_, ?_⟩
  · intro p hp
    obtain ⟨v, hv, h0⟩ := hmk hp
    exact h.off p v hv h0 (hap p v hv h0)
  · intro p q hp hq hpath
    obtain ⟨v, hv, h0⟩ := hmk hp
    obtain ⟨w, hw, hw0⟩ := hmk hq
    have := hpath.label h
    rw [h.keep p v hv h0, h.keep q w hw hw0] at this
    cases this
    exact hm.same p q v hv h0 hw
  · intro p hp
    obtain ⟨m, v, e1, e2, _, e4⟩ := h.zone hap p hp
    exact ⟨m, (hm.mark m v e1).mp e2, e4⟩
  · intro p hp
    rcases h.thin hap p hp with ⟨_, h2⟩ | ⟨q, q', v, w, e1, e2, e3, e4, e5, e6, e7⟩
    · exact Or.inl fun q hn hq => h2 q hn (hm.dims.symm ▸ hq)
    · refine Or.inr ⟨q, q', e1, e2, e3, e4, fun hh => ?_⟩
      have := hh.label h
      rw [e5, e6] at this
      exact e7 (Option.some.inj this)

theorem watershedMinima_spec (hs : t.signed = false) (hb : t.bits ≤ 64) (ht : 4 ≤ t.hi) (E : Env (Px t))
    (raw : Nat → Nat) (M : Nat) (se : StrElt) (im : Img (Px t)) (dout : Dims) (hi : im.dims.count ≠ 0)
    (ha : E.auto = true ∨ dout = im.dims)
    (hN : ∀ p q, seRel se p q → seRel se q p) (hnd : se.points.Nodup) (hsz : se.size ≤ 1)
    (hM : 2 ≤ M) (hc : im.dims.count < M) :
    ∃ line, watershedMinima E raw M se im dout = some (.ok line) ∧ IsMinWatershed (seRel se) im line := by
  obtain ⟨mk, h1, h2⟩ := minimaLabeled_spec hs hb ht E raw M se im hi hN hsz hM hc
  obtain ⟨line, out, h3, h4⟩ := C42_watershed_partial hs hb ht E.auto raw se im mk im.dims im.dims hi
    h2.dims (Or.inr ⟨rfl, rfl⟩) hN hnd
  refine ⟨line, ?_, isMinWatershed_of hN h2 h4⟩
  unfold watershedMinima
  rw [if_neg hi, if_neg (by tauto), h1]
  simp only [Option.bind_some, h3, Option.map_some, Except.map]

/-! ### Waterfall -/

theorem flooded_of_carried {N : IntPoint → IntPoint → Prop} {grad ws f : Img (Px t)} {v : Px t}
    {p : IntPoint} (hf : ∀ p w a, ws.at? p = some w → grad.at? p = some a →
      f.at? p = some (if w = Px.zero then ⊤ else a)) (hd : ws.dims = grad.dims) (hv : v ≠ ⊤)
    (h : Carried (α := (Px t)ᵒᵈ) N f grad v p) : Flooded N grad ws v p := by
  induction h with
  | @base p a b h1 h2 h3 h4 =>
    have h2' : grad.at? p = some b := h2
    have hin : Img.In ws.dims p := hd ▸ Img.at?_eq_some_in _ _ _ h2'
    have hw := Img.at?_some ws p hin
    have h1' : f.at? p = some a := h1
    rw [hf p _ _ hw h2'] at h1'
    have e := Option.some.inj h1'
    have h3' : (show Px t from a) ≤ v := h3
    have h4' : (show Px t from b) ≤ v := h4
    refine .base hw ?_ h2' h4'
    intro h0
    have e2 : (show Px t from a) = ⊤ := by
      rw [← e]; exact if_pos h0
    rw [e2] at h3'
    exact hv (top_le_iff.mp h3')
  | step _ h1 h2 h3 ih => exact .step ih h1 h2 h3

theorem carried_of_flooded {N : IntPoint → IntPoint → Prop} {grad ws f : Img (Px t)} {v : Px t}
    {p : IntPoint} (hf : ∀ p w a, ws.at? p = some w → grad.at? p = some a →
      f.at? p = some (if w = Px.zero then ⊤ else a))
    (h : Flooded N grad ws v p) : Carried (α := (Px t)ᵒᵈ) N f grad v p := by
  induction h with
  | @base p w a h1 h2 h3 h4 =>
    have := hf p w a h1 h3
    rw [if_neg h2] at this
    exact .base (α := (Px t)ᵒᵈ) this h3 h4 h4
  | step _ h1 h2 h3 ih => exact .step (α := (Px t)ᵒᵈ) ih h1 h2 h3

theorem isWaterfall_of {N : IntPoint → IntPoint → Prop} {grad ws f g : Img (Px t)}
    (hf : ∀ p w a, ws.at? p = some w → grad.at? p = some a →
      f.at? p = some (if w = Px.zero then ⊤ else a)) (hd : ws.dims = grad.dims) (hfd : f.dims = grad.dims)
    (h : IsDualBuild N f grad g) : IsWaterfall N grad ws g := by
  obtain ⟨h1, h2, h3⟩ := h
  have key : ∀ p v, g.at? p = some v → Carried (α := (Px t)ᵒᵈ) N f grad v p ∧
      ∀ u : Px t, Carried (α := (Px t)ᵒᵈ) N f grad u p → v ≤ u := by
    intro p v hv
    have hin : Img.In f.dims p := h2 ▸ Img.at?_eq_some_in _ _ _ hv
    obtain ⟨v', e1, e2, e3⟩ := h3 p hin
    have e1' : g.at? p = some v' := e1
    rw [hv] at e1'; cases e1'
    exact ⟨e2, fun u hu => e3 hu⟩
  exact ⟨⟨hd, h2.trans hfd⟩, fun p v h hv hfl => (key p v hv).2 h (carried_of_flooded hf hfl),
    fun p v hv hne => flooded_of_carried hf hd hne (key p v hv).1⟩

theorem waterfall_spec (hs : t.signed = false) (hb : t.bits ≤ 64) (ht : 4 ≤ t.hi) (E : Env (Px t))
    (raw : Nat → Nat) (M : Nat) (se : StrElt) (grad ws : Img (Px t)) (dg dw : Dims)
    (hi : grad.dims.count ≠ 0) (hg0 : dg.count ≠ 0) (hw0 : dw.count ≠ 0) (hd : ws.dims = grad.dims)
    (ha : E.auto = true ∨ (dg = grad.dims ∧ dw = grad.dims))
    (hN : ∀ p q, seRel se p q → seRel se q p) (hnd : se.points.Nodup) (hsz : se.size ≤ 1)
    (hM : 2 ≤ M) (hc : grad.dims.count < M) :
    ∃ g w, waterfall E raw M se grad ws dg dw = some (.ok (g, w)) ∧ IsWaterfall (seRel se) grad ws g ∧
      IsMinWatershed (seRel se) g w := by
  set f : Img (Px t) := Img.zipF (fun w a => kTest w a (t.wrap t.hi)) ws grad with hf
  have hfd : f.dims = grad.dims := hd
  have hfa : f.alloc = true := by
    unfold Img.alloc; rw [hfd]; simpa using hi
  have hout : (⟨grad.dims, E.raw⟩ : Img (Px t)).alloc = true := by
    unfold Img.alloc; simpa using hi
  obtain ⟨g, h1, h2⟩ := C35_dualBuild_partial hs hb E se f grad ⟨grad.dims, E.raw⟩
    ⟨hfa, hout, hfd.symm, Or.inl hfd.symm⟩
  have htop : t.wrap t.hi = (⊤ : Px t) := Px.ext (t.wrap_of_mem (by have := (⊤ : Px t).lo_le; rwa [Px.top_val] at this) le_rfl)
  have hw := isWaterfall_of (ws := ws) (fun p w a hw ha => by
    rw [(zipF_map2 (fun w a => kTest w a (t.wrap t.hi)) hd.symm).2.2 p w a hw ha]
    congr 1
    show kTest w a (t.wrap t.hi) = _
    unfold kTest Px.truthy
    by_cases h0 : w = Px.zero
    · rw [if_pos h0, if_neg, htop]
      rw [h0]; simp [Px.zero]
    · rw [if_neg h0, if_pos]
      have : w.val ≠ 0 := fun e => h0 (Px.ext e)
      simpa using this) hd hfd h2
  have hgd : g.dims = grad.dims := hw.dims.2
  obtain ⟨w, h3, h4⟩ := watershedMinima_spec hs hb ht E raw M se g grad.dims (by rw [hgd]; exact hi)
    (Or.inr hgd.symm) hN hnd hsz hM (by rw [hgd]; exact hc)
  refine ⟨g, w, ?_, hw, h4⟩
  unfold waterfall
  rw [if_neg (by rw [hd]; tauto), if_neg (by rw [hd]; tauto)]
  simp only [if_pos hd, ← hf, h1, Option.bind_some, h3, Option.map_some]

section flood
variable {N : IntPoint → IntPoint → Prop} {grad ws g : Img (Px t)}

theorem Flooded.relief {h : Px t} {p : IntPoint} (hf : Flooded N grad ws h p) :
    ∃ a, grad.at? p = some a ∧ a ≤ h := by
  cases hf with
  | base _ _ h3 h4 => exact ⟨_, h3, h4⟩
  | step _ _ h3 h4 => exact ⟨_, h3, h4⟩

theorem IsWaterfall.ge (hw : IsWaterfall N grad ws g) {p : IntPoint} {a v : Px t}
    (ha : grad.at? p = some a) (hv : g.at? p = some v) : a ≤ v := by
  by_cases h : v = ⊤
  · rw [h]; exact le_top
  · obtain ⟨b, hb, hle⟩ := (hw.reach p v hv h).relief
    rw [ha] at hb; cases hb; exact hle

theorem IsWaterfall.at (hw : IsWaterfall N grad ws g) {p : IntPoint} {a : Px t}
    (ha : grad.at? p = some a) : ∃ v, g.at? p = some v :=
  ⟨_, Img.at?_some g p (hw.dims.2.symm ▸ Img.at?_eq_some_in _ _ _ ha)⟩

/-- Every minimum of the new relief contains a line pixel. -/
theorem IsWaterfall.line (hw : IsWaterfall N grad ws g) {p : IntPoint} {v : Px t}
    (hv : g.at? p = some v) (hne : v ≠ ⊤)
    (hr : ∀ q, Plateau N g v p q → ∀ s a, N s q → g.at? s = some a → v ≤ a) :
    ∃ q w, Plateau N g v p q ∧ ws.at? q = some w ∧ w ≠ Px.zero := by
  have key : ∀ x, Flooded N grad ws v x → Plateau N g v p x →
      ∃ q w, Plateau N g v p q ∧ ws.at? q = some w ∧ w ≠ Px.zero := by
    intro x hx
    induction hx with
    | base h1 h2 _ _ => exact fun hp => ⟨_, _, hp, h1, h2⟩
    | @step q x b hq hn hb hle ih =>
      intro hp
      obtain ⟨a, ha, _⟩ := hq.relief
      obtain ⟨u, hu⟩ := hw.at ha
      have e : u = v := le_antisymm (hw.least q u v hu hq) (hr x hp q u hn hu)
      exact ih (.cons hn (by rw [hu, e]) hp)
  exact key p (hw.reach p v hv hne) (.refl hv)

/-- Every minimum of the new relief contains a minimum of the old one. -/
theorem IsWaterfall.minima (hN : ∀ p q, N p q → N q p) (hw : IsWaterfall N grad ws g) {p : IntPoint}
    (hp : LowMin N g p) : ∃ m, LowMin N grad m ∧ ∀ m', FlatPath N grad m m' → FlatPath N g p m' := by
  obtain ⟨⟨v, hv, hr⟩, v', hv', hne⟩ := hp
  rw [hv] at hv'; cases hv'
  have hgr : ∀ q, Plateau N g v p q → ∃ a, grad.at? q = some a ∧ a ≤ v := by
    intro q hq
    have h1 := hq.val.2
    have h2 := Img.at?_some grad q (hw.dims.2 ▸ Img.at?_eq_some_in _ _ _ h1)
    exact ⟨_, h2, hw.ge h2 h1⟩
  -- a low neighbour of the plateau belongs to it
  have hext : ∀ q s a, Plateau N g v p q → N s q → grad.at? s = some a → a ≤ v → Plateau N g v p s := by
    intro q s a hq hn ha hle
    have hfl : Flooded N grad ws v s :=
      .step (hw.reach q v hq.val.2 hne) (hN _ _ hn) ha hle
    obtain ⟨u, hu⟩ := hw.at ha
    have e : u = v := le_antisymm (hw.least s u v hu hfl) (hr q hq s u hn hu)
    exact .cons hn (by rw [hu, e]) hq
  -- the lowest pixel of the plateau
  have hlow : ∃ m c, Plateau N g v p m ∧ grad.at? m = some c ∧
      ∀ q a, Plateau N g v p q → grad.at? q = some a → c ≤ a := by
    have : ∃ k : Nat, ∃ m c, Plateau N g v p m ∧ grad.at? m = some c ∧ (c.val - t.lo).toNat = k := by
      obtain ⟨a, ha, _⟩ := hgr p (.refl hv)
      exact ⟨_, p, a, .refl hv, ha, rfl⟩
    classical
    obtain ⟨m, c, h1, h2, h3⟩ := Nat.find_spec this
    refine ⟨m, c, h1, h2, fun q a hq ha => ?_⟩
    have := Nat.find_min' this ⟨q, a, hq, ha, rfl⟩
    rw [Px.le_iff]
    have := a.lo_le; have := c.lo_le
    omega
  obtain ⟨m, c, h1, h2, h3⟩ := hlow
  obtain ⟨c', e1, hcv⟩ := hgr m h1
  rw [h2] at e1; cases e1
  have hpl : ∀ q, Plateau N grad c m q → Plateau N g v p q := by
    intro q hq
    induction hq with
    | refl _ => exact h1
    | cons hn hc _ ih => exact hext _ _ c ih hn hc hcv
  refine ⟨m, ⟨⟨c, h2, fun q hq s a hn ha => ?_⟩, c, h2, ?_⟩, fun m' hm' => ?_⟩
  · by_contra hlt
    rw [not_le] at hlt
    exact absurd (h3 s a (hext q s a (hpl q hq) hn ha (hlt.le.trans hcv)) ha) (not_le.mpr hlt)
  · intro e; rw [e] at hcv; exact hne (top_le_iff.mp hcv)
  · exact (hpl m' (FlatPath.plateau hN hm' h2)).flat hN

end flood

theorem waterfallLoop_spec (hs : t.signed = false) (hb : t.bits ≤ 64) (ht : 4 ≤ t.hi) (E : Env (Px t))
    (raw : Nat → Nat) (M : Nat) (se : StrElt) (grad0 : Img (Px t)) (hi : grad0.dims.count ≠ 0)
    (hN : ∀ p q, seRel se p q → seRel se q p) (hnd : se.points.Nodup) (hsz : se.size ≤ 1)
    (hM : 2 ≤ M) (hc : grad0.dims.count < M) (n : Nat) : ∀ (k : Nat) (grad ws : Img (Px t)),
    grad.dims = grad0.dims → WaterfallChain (seRel se) grad0 k grad ws →
    ∃ g w, waterfallLoop E raw M se n grad ws = some w ∧ WaterfallChain (seRel se) grad0 (k + n) g w := by
  induction n with
  | zero => intro k grad ws _ h; exact ⟨grad, ws, rfl, h⟩
  | succ n ih =>
    intro k grad ws hd h
    have hwd : ws.dims = grad.dims := by cases h with
      | zero h => exact h.dims
      | succ _ _ h => exact h.dims
    obtain ⟨g, w, h1, h2, h3⟩ := waterfall_spec hs hb ht E raw M se grad ws grad.dims ws.dims
      (by rw [hd]; exact hi) (by rw [hd]; exact hi) (by rw [hwd, hd]; exact hi) hwd
      (Or.inr ⟨rfl, hwd⟩) hN hnd hsz hM (by rw [hd]; exact hc)
    obtain ⟨g', w', h4, h5⟩ := ih (k + 1) g w (h2.dims.2.trans hd) (.succ h h2 h3)
    refine ⟨g', w', ?_, by rw [← Nat.add_assoc, Nat.add_right_comm]; exact h5⟩
    unfold waterfallLoop
    rw [h1]
    exact h4

end Smil
