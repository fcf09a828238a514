import Verif.HExtrema
import Verif.WaterfallLemmas

/-!
# Extrema of a given height: specification and lemmas
-/

namespace Smil
variable {t : PT}

/-! ### Specification -/

/-- A path of steps of `N` from `p` to `q` inside the set `S`. -/
inductive SetPath (N : IntPoint → IntPoint → Prop) (S : IntPoint → Prop) (p : IntPoint) : IntPoint → Prop
  | refl : S p → SetPath N S p p
  | step {q r} : SetPath N S p q → N q r → S r → SetPath N S p r

/-- The pixels of value at most `l`. -/
def Below (f : Img (Px t)) (l : Int) (p : IntPoint) : Prop := ∃ a, f.at? p = some a ∧ a.val ≤ l

/-- The pixels of value at least `l`. -/
def Above (f : Img (Px t)) (l : Int) (p : IntPoint) : Prop := ∃ a, f.at? p = some a ∧ l ≤ a.val

/-- `q` is the bottom of a basin that is deeper than `h`: no path leads from `q` to a lower pixel without
rising by more than `h`. The level `h` above the bottom must be below the maximum of the type. -/
def Bottom (N : IntPoint → IntPoint → Prop) (f : Img (Px t)) (h : Int) (q : IntPoint) (a : Px t) : Prop :=
  f.at? q = some a ∧ a.val + h < t.hi ∧
    ∀ s b, SetPath N (Below f (a.val + h)) q s → f.at? s = some b → a.val ≤ b.val

/-- `p` is reached from the bottom of such a basin without rising by more than `h`. -/
def HMin (N : IntPoint → IntPoint → Prop) (f : Img (Px t)) (h : Int) (p : IntPoint) : Prop :=
  ∃ q a, Bottom N f h q a ∧ SetPath N (Below f (a.val + h)) q p

/-- `q` is the summit of a peak that is higher than `h`. -/
def Summit (N : IntPoint → IntPoint → Prop) (f : Img (Px t)) (h : Int) (q : IntPoint) (a : Px t) : Prop :=
  f.at? q = some a ∧ t.lo < a.val - h ∧
    ∀ s b, SetPath N (Above f (a.val - h)) q s → f.at? s = some b → b.val ≤ a.val

/-- `p` is reached from the summit of such a peak without going down by more than `h`. -/
def HMax (N : IntPoint → IntPoint → Prop) (f : Img (Px t)) (h : Int) (p : IntPoint) : Prop :=
  ∃ q a, Summit N f h q a ∧ SetPath N (Above f (a.val - h)) q p

/-- `lab` gives a label to the pixels of `S`, one for each part joined by paths of `N` in `S`. -/
structure IsSetLabels (N : IntPoint → IntPoint → Prop) (D : Dims) (S : IntPoint → Prop) (lab : Img Nat) :
    Prop where
  dims : lab.dims = D
  mark : ∀ p v, lab.at? p = some v → (v ≠ 0 ↔ S p)
  same : ∀ p q v w, lab.at? p = some v → lab.at? q = some w → v ≠ 0 → (v = w ↔ SetPath N S p q)

/-! ### Paths -/

section
variable {N : IntPoint → IntPoint → Prop} {S S' : IntPoint → Prop}

theorem SetPath.ends {p q : IntPoint} (h : SetPath N S p q) : S p ∧ S q := by
  induction h with
  | refl h => exact ⟨h, h⟩
  | step _ _ h ih => exact ⟨ih.1, h⟩

theorem SetPath.trans {p q r : IntPoint} (h : SetPath N S p q) (h' : SetPath N S q r) : SetPath N S p r := by
  induction h' with
  | refl _ => exact h
  | step _ h1 h2 ih => exact .step ih h1 h2

theorem SetPath.symm (hN : ∀ p q, N p q → N q p) {p q : IntPoint} (h : SetPath N S p q) : SetPath N S q p := by
  induction h with
  | refl h => exact .refl h
  | step h1 hn hz ih => exact ((SetPath.refl hz).step (hN _ _ hn) h1.ends.2).trans ih

theorem SetPath.mono (hS : ∀ p, S p → S' p) {p q : IntPoint} (h : SetPath N S p q) : SetPath N S' p q := by
  induction h with
  | refl h => exact .refl (hS _ h)
  | step _ h1 h2 ih => exact .step ih h1 (hS _ h2)

theorem SetPath.congr (hS : ∀ p, S p ↔ S' p) {p q : IntPoint} : SetPath N S p q ↔ SetPath N S' p q :=
  ⟨.mono fun p => (hS p).mp, .mono fun p => (hS p).mpr⟩

/-- Every pixel of the path is itself reached. -/
theorem SetPath.self {p q : IntPoint} (h : SetPath N S p q) : SetPath N (SetPath N S p) p q := by
  induction h with
  | refl h => exact .refl (.refl h)
  | step h1 h2 h3 ih => exact .step ih h2 (.step h1 h2 h3)

end

/-! ### Regional maxima of the reconstruction -/

section
variable {α : Type} [LinearOrder α] [OrderBot α] {N : IntPoint → IntPoint → Prop}

/-- The pixels at `L` or above. -/
def UpSet (f : Img α) (L : α) (p : IntPoint) : Prop := ∃ a, f.at? p = some a ∧ L ≤ a

theorem carried_iff_path {mk f : Img α} {dec : α → α} (h3 : ∀ a, dec a ≤ a) (hm : Img.IsMap dec f mk) {v : α}
    {p : IntPoint} :
    Carried N mk f v p ↔ ∃ z b, f.at? z = some b ∧ v ≤ dec b ∧ SetPath N (UpSet f v) z p := by
  constructor
  · intro h
    induction h with
    | @base p a b h1 h2 h3 h4 =>
      have := hm.2 _ _ h2
      rw [h1] at this; cases this
      exact ⟨p, b, h2, h3, .refl ⟨b, h2, h4⟩⟩
    | step _ h1 h2 h3 ih =>
      obtain ⟨z, b, e1, e2, e3⟩ := ih
      exact ⟨z, b, e1, e2, .step e3 h1 ⟨_, h2, h3⟩⟩
  · rintro ⟨z, b, e1, e2, e3⟩
    induction e3 with
    | refl _ => exact .base (hm.2 _ _ e1) e1 e2 (e2.trans (h3 b))
    | step _ h1 h2 ih =>
      obtain ⟨c, hc, hle⟩ := h2
      exact .step ih h1 hc hle

theorem regMax_iff_path (hN : ∀ p q, N p q → N q p) {dec : α → α} (h1 : ∀ a b, a ≤ b → dec a ≤ dec b)
    (h2 : ∀ a b, a < b → dec a ≠ ⊥ → dec a < dec b) (h3 : ∀ a, dec a ≤ a) {mk f g : Img α}
    (hm : Img.IsMap dec f mk) (hg : IsBuild N mk f g) {p : IntPoint} {c : α} (hc : g.at? p = some c) :
    (IsRegMax N g p ∧ c ≠ ⊥) ↔ ∃ q a, (f.at? q = some a ∧ dec a ≠ ⊥ ∧
      ∀ s b, SetPath N (UpSet f (dec a)) q s → f.at? s = some b → b ≤ a) ∧
        SetPath N (UpSet f (dec a)) q p := by
  have hdim : g.dims = f.dims := hg.2.1.trans hg.1.symm
  have hgf : ∀ {s a}, f.at? s = some a → ∃ b, g.at? s = some b := fun {s a} ha =>
    ⟨_, Img.at?_some g s (hdim ▸ Img.at?_eq_some_in _ _ _ ha)⟩
  have hfg : ∀ {s b}, g.at? s = some b → ∃ a, f.at? s = some a ∧ b ≤ a := fun {s b} hb => (hg.at hb).1.mask
  have hat : ∀ {s v}, g.at? s = some v → ∃ z b, f.at? z = some b ∧ v ≤ dec b ∧ SetPath N (UpSet f v) z s :=
    fun hv => (carried_iff_path h3 hm).mp (hg.at hv).1
  have hle : ∀ {s v u z b}, g.at? s = some v → f.at? z = some b → u ≤ dec b → SetPath N (UpSet f u) z s → u ≤ v :=
    fun hv e1 e2 e3 => (hg.at hv).2 ((carried_iff_path h3 hm).mpr ⟨_, _, e1, e2, e3⟩)
  constructor
  · rintro ⟨⟨c', hc', hreg⟩, hbot⟩
    rw [hc] at hc'; cases hc'
    obtain ⟨z, b, e1, e2, e3⟩ := hat hc
    -- what is reached at the level `c` belongs to the plateau
    have hpl : ∀ s, SetPath N (UpSet f c) p s → Plateau N g c p s := by
      intro s hs
      induction hs with
      | refl _ => exact .refl hc
      | @step q r hpq hn hr ih =>
        obtain ⟨a, ha, _⟩ := hr
        obtain ⟨v, hv⟩ := hgf ha
        have hcv : c ≤ v := hle hv e1 e2 ((e3.trans hpq).step hn ⟨a, ha, ‹_›⟩)
        have := hreg _ ih r v (hN _ _ hn) hv
        have e : v = c := le_antisymm this hcv
        subst e
        exact .cons (hN _ _ hn) hv ih
    have hz := (hpl z (e3.symm hN)).val.2
    have hbc : dec b ≤ c := hle hz e1 (le_refl _) (.refl ⟨b, e1, h3 b⟩)
    have e : dec b = c := le_antisymm hbc e2
    refine ⟨z, b, ⟨e1, by rw [e]; exact hbot, fun s d hs hd => ?_⟩, by rw [e]; exact e3⟩
    rw [e] at hs
    have hgs := (hpl s ((e3.symm hN).trans hs)).val.2
    by_contra hlt
    have hlt := not_le.mp hlt
    have := h2 b d hlt (by rw [e]; exact hbot)
    have hd' : dec d ≤ c := hle hgs hd (le_refl _) (.refl ⟨d, hd, h3 d⟩)
    rw [e] at this
    exact absurd hd' (not_le.mpr this)
  · rintro ⟨q, a, ⟨e1, e2, e3⟩, e4⟩
    have key : ∀ s, SetPath N (UpSet f (dec a)) q s → g.at? s = some (dec a) := by
      intro s hs
      obtain ⟨b, hb, _⟩ := hs.ends.2
      obtain ⟨v, hv⟩ := hgf hb
      have hge : dec a ≤ v := hle hv e1 (le_refl _) hs
      rw [hv]; congr 1
      by_contra hne
      have hlt : dec a < v := lt_of_le_of_ne hge (Ne.symm hne)
      obtain ⟨z, b', k1, k2, k3⟩ := hat hv
      have hup : SetPath N (UpSet f (dec a)) z s := k3.mono fun x ⟨y, hy, hvy⟩ => ⟨y, hy, hge.trans hvy⟩
      have := e3 z b' (hs.trans (hup.symm hN)) k1
      exact absurd (k2.trans (h1 _ _ this)) (not_le.mpr hlt)
    have hcp := key p e4
    rw [hc] at hcp
    obtain rfl : c = dec a := Option.some.inj hcp
    refine ⟨⟨dec a, hc, fun r hr s v hn hv => ?_⟩, e2⟩
    have hqr : SetPath N (UpSet f (dec a)) q r := by
      clear hn hv
      induction hr with
      | refl _ => exact e4
      | @cons x y hn hx hy ih =>
        obtain ⟨b, hb, hle'⟩ := hfg hx
        exact .step (ih) (hN _ _ hn) ⟨b, hb, hle'⟩
    by_contra hlt
    have hlt := not_le.mp hlt
    obtain ⟨b, hb, hle'⟩ := hfg hv
    have := key s (.step hqr (hN _ _ hn) ⟨b, hb, hlt.le.trans hle'⟩)
    rw [hv] at this; cases this
    exact absurd hlt (lt_irrefl _)

end

/-! ### Pixels -/

/-- `hBuild` is the reconstruction from the saturated difference. -/
theorem hBuild_spec (hs : t.signed = false) (hb : t.bits ≤ 64) (E : Env (Px t)) (se : StrElt)
    (k : Px t) (im out : Img (Px t)) (h : Accepts E im out) :
    ∃ m r, hBuild E false se k im out = some (.ok r) ∧ IsBuild (seRel se) m im r ∧
      Img.IsMap (fun a => (kSub a k).getD ⊥) im m := by
  obtain ⟨o, ho, hd⟩ := checkSize_ok E im out h
  obtain ⟨m, hm⟩ := Img.mapK_total (fun a => kSub a k) im (fun p u _ => by
    obtain ⟨r, h1, _⟩ := C06_sub_unsigned hs u k; rw [h1]; rfl)
  obtain ⟨hmd, hmv⟩ := Img.mapK_some _ _ _ hm
  have hma := alloc_of_dims hmd h.1
  obtain ⟨b, h1, h2⟩ := build_spec hs hb E se m im m ⟨hma, hma, hmd.symm, Or.inl rfl⟩
  refine ⟨m, b, ?_, h2, hmd, fun p a ha => ?_⟩
  · unfold hBuild
    rw [ho]
    simp only [protectedInput, Bool.false_eq_true, if_false, hm, Option.bind_some, h1]
  · obtain ⟨v, hv, hv'⟩ := hmv p a ha
    rw [hv']
    show some v = some _
    simp only [hv, Option.getD_some]

/-- `hDualBuild` is the dual reconstruction from the saturated sum. -/
theorem hDualBuild_spec (hs : t.signed = false) (hb : t.bits ≤ 64) (E : Env (Px t)) (se : StrElt)
    (k : Px t) (im out : Img (Px t)) (h : Accepts E im out) :
    ∃ m r, hDualBuild E false se k im out = some (.ok r) ∧ IsDualBuild (seRel se) m im r ∧
      Img.IsMap (fun a => (kAdd a k).getD ⊤) im m := by
  obtain ⟨o, ho, hd⟩ := checkSize_ok E im out h
  obtain ⟨m, hm⟩ := Img.mapK_total (fun a => kAdd a k) im (fun p u _ => by
    obtain ⟨r, h1, _⟩ := C06_add_unsigned hs u k; rw [h1]; rfl)
  obtain ⟨hmd, hmv⟩ := Img.mapK_some _ _ _ hm
  have hma := alloc_of_dims hmd h.1
  obtain ⟨b, h1, h2⟩ := dualBuild_spec hs hb E se m im m ⟨hma, hma, hmd.symm, Or.inl rfl⟩
  refine ⟨m, b, ?_, h2, hmd, fun p a ha => ?_⟩
  · unfold hDualBuild
    rw [ho]
    simp only [protectedInput, Bool.false_eq_true, if_false, hm, Option.bind_some, h1]
  · obtain ⟨v, hv, hv'⟩ := hmv p a ha
    rw [hv']
    show some v = some _
    simp only [hv, Option.getD_some]

theorem sub_val (hs : t.signed = false) (k a : Px t) :
    ((kSub a k).getD ⊥).val = max 0 (a.val - k.val) := by
  obtain ⟨r, h1, h2⟩ := C06_sub_unsigned hs a k
  rw [h1]
  show r.val = _
  have := a.le_hi; have := k.lo_le; have h0 := lo_unsigned hs; have := a.lo_le
  rw [h2]; unfold clampSpec; split_ifs <;> omega

theorem add_val (hs : t.signed = false) (k a : Px t) :
    ((kAdd a k).getD ⊤).val = min t.hi (a.val + k.val) := by
  obtain ⟨r, h1, h2⟩ := C06_add_unsigned hs a k
  rw [h1]
  show r.val = _
  have := a.le_hi; have := k.lo_le; have h0 := lo_unsigned hs; have := a.lo_le
  rw [h2]; unfold clampSpec; split_ifs <;> omega

/-- The regional maxima above 0 of `hBuild` are the peaks higher than `k`. -/
theorem hMax_iff (hs : t.signed = false) {N : IntPoint → IntPoint → Prop} (hN : ∀ p q, N p q → N q p)
    (k : Px t) {mk f g : Img (Px t)} (hm : Img.IsMap (fun a => (kSub a k).getD ⊥) f mk)
    (hg : IsBuild N mk f g) {p : IntPoint} {c : Px t} (hc : g.at? p = some c) :
    (IsRegMax N g p ∧ c ≠ ⊥) ↔ HMax N f k.val p := by
  have h0 := lo_unsigned hs
  have hk := k.lo_le
  have hne : ∀ a : Px t, (kSub a k).getD ⊥ ≠ ⊥ ↔ t.lo < a.val - k.val := by
    intro a
    rw [ne_eq, Px.ext_iff, Px.bot_val, sub_val hs]; omega
  rw [regMax_iff_path hN (dec := fun a => (kSub a k).getD ⊥) ?_ ?_ ?_ hm hg hc]
  · have hset : ∀ a : Px t, t.lo < a.val - k.val → ∀ p,
        (UpSet f ((kSub a k).getD ⊥) p ↔ Above f (a.val - k.val) p) := by
      intro a ha p
      unfold UpSet Above
      refine exists_congr fun b => and_congr_right fun _ => ?_
      rw [Px.le_iff, sub_val hs]; omega
    refine exists_congr fun q => exists_congr fun a => ?_
    constructor
    · rintro ⟨⟨e1, e2, e3⟩, e4⟩
      have hlt := (hne a).mp e2
      refine ⟨⟨e1, hlt, fun s b hs' hb => Px.le_iff.mp (e3 s b ?_ hb)⟩, ?_⟩
      · exact (SetPath.congr (hset a hlt)).mpr hs'
      · exact (SetPath.congr (hset a hlt)).mp e4
    · rintro ⟨⟨e1, e2, e3⟩, e4⟩
      refine ⟨⟨e1, (hne a).mpr e2, fun s b hs' hb => Px.le_iff.mpr (e3 s b ?_ hb)⟩, ?_⟩
      · exact (SetPath.congr (hset a e2)).mp hs'
      · exact (SetPath.congr (hset a e2)).mpr e4
  · intro a b hab
    rw [Px.le_iff] at hab ⊢
    rw [sub_val hs, sub_val hs]; omega
  · intro a b hab h
    have := (hne a).mp h
    rw [Px.lt_iff] at hab ⊢
    rw [sub_val hs, sub_val hs]; omega
  · intro a
    have := a.lo_le
    rw [Px.le_iff, sub_val hs]; omega

/-- The regional minima below the maximum of `hDualBuild` are the basins deeper than `k`. -/
theorem hMin_iff (hs : t.signed = false) {N : IntPoint → IntPoint → Prop} (hN : ∀ p q, N p q → N q p)
    (k : Px t) {mk f g : Img (Px t)} (hm : Img.IsMap (fun a => (kAdd a k).getD ⊤) f mk)
    (hg : IsDualBuild N mk f g) {p : IntPoint} {c : Px t} (hc : g.at? p = some c) :
    (IsRegMin N g p ∧ c ≠ ⊤) ↔ HMin N f k.val p := by
  have h0 := lo_unsigned hs
  have hk := k.lo_le
  have hne : ∀ a : Px t, (kAdd a k).getD ⊤ ≠ ⊤ ↔ a.val + k.val < t.hi := by
    intro a
    rw [ne_eq, Px.ext_iff, Px.top_val, add_val hs]; omega
  have key := regMax_iff_path (α := (Px t)ᵒᵈ) hN (dec := fun a : Px t => (kAdd a k).getD ⊤) ?_ ?_ ?_
    (mk := mk) (f := f) (g := g) hm hg (p := p) (c := c) hc
  · have key' : (IsRegMin N g p ∧ c ≠ ⊤) ↔ _ := key
    rw [key']
    have hset : ∀ a : Px t, a.val + k.val < t.hi → ∀ p,
        (UpSet (α := (Px t)ᵒᵈ) f ((kAdd a k).getD ⊤) p ↔ Below f (a.val + k.val) p) := by
      intro a ha p
      unfold UpSet Below
      have hb : ∀ b : Px t, b ≤ (kAdd a k).getD ⊤ ↔ b.val ≤ a.val + k.val := by
        intro b
        have := b.le_hi
        rw [Px.le_iff, add_val hs]; omega
      exact exists_congr fun b => and_congr_right fun _ => hb b
    refine exists_congr fun q => exists_congr fun a => ?_
    constructor
    · rintro ⟨⟨e1, e2, e3⟩, e4⟩
      have hlt := (hne a).mp e2
      refine ⟨⟨e1, hlt, fun s b hs' hb => Px.le_iff.mp (e3 s b ?_ hb)⟩, ?_⟩
      · exact (SetPath.congr (hset a hlt)).mpr hs'
      · exact (SetPath.congr (hset a hlt)).mp e4
    · rintro ⟨⟨e1, e2, e3⟩, e4⟩
      refine ⟨⟨e1, (hne a).mpr e2, fun s b hs' hb => Px.le_iff.mpr (e3 s b ?_ hb)⟩, ?_⟩
      · exact (SetPath.congr (hset a e2)).mp hs'
      · exact (SetPath.congr (hset a e2)).mpr e4
  · intro (a : Px t) (b : Px t) (hab : @LE.le (Px t) _ b a)
    show @LE.le (Px t) _ ((kAdd b k).getD ⊤) ((kAdd a k).getD ⊤)
    rw [Px.le_iff] at hab ⊢
    rw [add_val hs, add_val hs]; omega
  · intro (a : Px t) (b : Px t) (hab : @LT.lt (Px t) _ b a) h
    have := (hne a).mp h
    show @LT.lt (Px t) _ ((kAdd b k).getD ⊤) ((kAdd a k).getD ⊤)
    rw [Px.lt_iff] at hab ⊢
    rw [add_val hs, add_val hs]; omega
  · intro (a : Px t)
    show @LE.le (Px t) _ a ((kAdd a k).getD ⊤)
    have := a.le_hi
    rw [Px.le_iff, add_val hs]; omega

/-! ### Labels -/

/-- Labelling an image that is the maximum on `S` and 0 elsewhere. -/
theorem labelSet_spec (auto : Bool) (M : Nat) (se : StrElt) (m : Img (Px t)) (S : IntPoint → Prop)
    (ht : 0 < t.hi) (hi : m.dims.count ≠ 0) (hN : ∀ p q, seRel se p q → seRel se q p) (hsz : se.size ≤ 1)
    (hM : 2 ≤ M) (hc : m.dims.count < M)
    (h1 : ∀ p, Img.In m.dims p → S p → m.at? p = some ⊤)
    (h2 : ∀ p, Img.In m.dims p → ¬ S p → m.at? p = some Px.zero) (h3 : ∀ p, S p → Img.In m.dims p) :
    ∃ n lab, label auto M false se se m m.dims = some (.ok (n, lab)) ∧
      IsSetLabels (seRel se) m.dims S lab := by
  have hex : execSe se = se := by unfold execSe; rw [if_neg (by omega)]
  have hN' : ∀ p q, seRel (execSe se) p q → seRel (execSe se) q p := by rw [hex]; exact hN
  obtain ⟨n, mk, e1, e2, ⟨reps, e3, e3'⟩, e4, e5⟩ := C39_label auto M se se m m.dims hN' hM
    ⟨hi, hi, Or.inl rfl⟩
  have hn : n < M := by
    have := reps_length e3
    omega
  have hl := e5 hn
  rw [hex] at hl
  have hzt : (Px.zero : Px t) ≠ ⊤ := by
    intro e
    have := congrArg Px.val e
    rw [Px.top_val] at this
    have h0 : (Px.zero : Px t).val = 0 := rfl
    omega
  have hS : ∀ p a, m.at? p = some a → (a ≠ Px.zero ↔ S p) ∧ (S p ↔ a = ⊤) := by
    intro p a ha
    have hin := Img.at?_eq_some_in _ _ _ ha
    by_cases hp : S p
    · have := h1 p hin hp; rw [ha] at this; cases this
      exact ⟨⟨fun _ => hp, fun _ => hzt.symm⟩, ⟨fun _ => rfl, fun _ => hp⟩⟩
    · have := h2 p hin hp; rw [ha] at this; cases this
      exact ⟨⟨fun e => absurd rfl e, fun e => absurd e hp⟩, ⟨fun e => absurd e hp, fun e => absurd e hzt⟩⟩
  have hmark : ∀ p v, mk.at? p = some v → (v ≠ 0 ↔ S p) := by
    intro p v hv
    have hin : Img.In m.dims p := e2 ▸ Img.at?_eq_some_in _ _ _ hv
    have ha := Img.at?_some m p hin
    rw [← (hS p _ ha).1, ne_eq, e4 p _ v ha hv]
  refine ⟨n, mk, e1, e2, hmark, fun p q v w hp hq h0 => ?_⟩
  rw [hl.same p q v w hp hq h0]
  have hpS := (hmark p v hp).mp h0
  constructor
  · intro h
    have : SetPath (seRel se) S p q ∧ S q := by
      clear hq
      induction h with
      | refl _ => exact ⟨.refl hpS, hpS⟩
      | @step q r a b hpq hqr ha hb hab ih =>
        have hr : S r := (hS r b hb).2.mpr (by rw [← hab]; exact (hS q a ha).2.mp ih.2)
        exact ⟨.step ih.1 hqr hr, hr⟩
    exact this.1
  · intro h
    clear hq
    induction h with
    | refl h => exact .refl (h3 _ h)
    | step hpq hqr hr ih =>
      exact .step ih hqr (h1 _ (h3 _ hpq.ends.2) hpq.ends.2) (h1 _ (h3 _ hr) hr) rfl

end Smil
