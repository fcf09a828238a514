import Verif.HitOrMissLemmas
import Mathlib.Tactic.IntervalCases

/-!
# C52: hit-or-miss finds exactly the positions of the template

The elements covered are those without a kernel of their own (`HmtOK`): those made by the
constructors of composite elements of DCompositeSE.h and their rotations.
-/

namespace Smil
open StrElt
variable {t : PT}

/-- A binary image: only the two extreme values. -/
def BinImg (im : Img (Px t)) : Prop := ∀ p u, im.at? p = some u → u = ⊥ ∨ u = ⊤

/-- What a template point may read: the wanted value, or the outside when the border value is the
maximum. -/
def Covers (border want : Px t) : Option (Px t) → Prop
  | some u => u = want
  | none => border = ⊤

/-- Placed at `p`, the foreground points fall on the set and the background points off the set. -/
def Matches (border : Px t) (fg bg : StrElt) (im : Img (Px t)) (p : IntPoint) : Prop :=
  (∀ b ∈ fg.points, ∃ q, phys fg.odd p + phys fg.odd b = phys fg.odd q ∧ Covers border ⊤ (im.at? q)) ∧
  (∀ b ∈ bg.points, ∃ q, phys bg.odd p + phys bg.odd b = phys bg.odd q ∧ Covers border ⊥ (im.at? q))

theorem Px.compl_bot : (⊥ : Px t).compl = ⊤ := by
  apply Px.ext; simp only [Px.compl]
  show t.hi + t.lo - t.lo = t.hi
  omega

theorem Px.compl_top : (⊤ : Px t).compl = ⊥ := by
  apply Px.ext; simp only [Px.compl]
  show t.hi + t.lo - t.hi = t.lo
  omega

theorem grayHit_iff {border : Px t} (hb : border = ⊥ ∨ border = ⊤) (hn : (⊥ : Px t) ≠ ⊤)
    {fg bg : StrElt} {im : Img (Px t)} (hbin : BinImg im) {p : IntPoint} {u : Px t} (hu : ⊥ < u) :
    GrayHit border fg bg im p u ↔ Matches border fg bg im p := by
  have hlow : ∀ x : Px t, x = ⊥ ∨ x = ⊤ → (u ≤ x ↔ x = ⊤) := by
    rintro x (rfl | rfl)
    · exact ⟨fun h => absurd h (not_le.mpr hu), fun h => absurd h hn⟩
    · exact ⟨fun _ => rfl, fun _ => le_top⟩
  have h1 : ∀ q, u ≤ (im.at? q).getD border ↔ Covers border ⊤ (im.at? q) := by
    intro q
    cases hq : im.at? q with
    | none => exact hlow _ hb
    | some x => exact hlow _ (hbin q x hq)
  have h2 : ∀ q, u ≤ ((im.at? q).map Px.compl).getD border ↔ Covers border ⊥ (im.at? q) := by
    intro q
    cases hq : im.at? q with
    | none => exact hlow _ hb
    | some x =>
      show u ≤ x.compl ↔ x = ⊥
      rcases hbin q x hq with rfl | rfl
      · rw [Px.compl_bot]; exact ⟨fun _ => rfl, fun _ => le_top⟩
      · rw [Px.compl_top]
        exact ⟨fun h => absurd h (not_le.mpr hu), fun h => absurd h.symm hn⟩
  unfold GrayHit Matches ReadsAbove
  simp only [h1, h2]

theorem isHit_binary {border : Px t} (hb : border = ⊥ ∨ border = ⊤) (hn : (⊥ : Px t) ≠ ⊤)
    {fg bg : StrElt} {im r : Img (Px t)} (hbin : BinImg im) (h : IsHit border fg bg im r) :
    ∀ p, Img.In im.dims p → (Matches border fg bg im p → r.at? p = some ⊤) ∧
      (¬ Matches border fg bg im p → r.at? p = some ⊥) := by
  intro p hp
  obtain ⟨v, hv, hu⟩ := h.2 p hp
  rw [hv]
  constructor
  · intro hm
    have := (hu ⊤).mpr ((grayHit_iff hb hn hbin (bot_lt_iff_ne_bot.mpr hn.symm)).mpr hm)
    rw [top_le_iff.mp this]
  · intro hm
    by_contra hc
    have hv0 : ⊥ < v := bot_lt_iff_ne_bot.mpr fun e => hc (by rw [e])
    exact hm ((grayHit_iff hb hn hbin hv0).mp ((hu v).mp le_rfl))

/-- **C52**, grey levels: at every pixel the transform is the greatest level `u` such that the
foreground points are at least `u` and the complements of the background points at least `u`. -/
theorem C52_hitOrMiss_gray_partial (E : Env (Px t)) (hs : t.signed = false ∨ t.bits ≤ 16) (border : Px t)
    (fg bg : StrElt) (im out : Img (Px t)) (h : Accepts E im out) (hf : HmtOK im.dims fg)
    (hb : HmtOK im.dims bg) :
    ∃ r, hitOrMiss E false border fg bg im out = some (.ok r) ∧ r.dims = im.dims ∧
      ∀ p, Img.In im.dims p → ∃ v, r.at? p = some v ∧ IsGreatest { u | GrayHit border fg bg im p u } v := by
  obtain ⟨r, h1, h2, h3⟩ := hitOrMiss_spec E hs border fg bg im out h hf hb
  refine ⟨r, h1, h2, fun p hp => ?_⟩
  obtain ⟨v, hv, hu⟩ := h3 p hp
  exact ⟨v, hv, (hu v).mp le_rfl, fun u hu' => (hu u).mpr hu'⟩

/-- **C52**, binary images: the transform is the maximum exactly where the template matches, the
minimum elsewhere. -/
theorem C52_hitOrMiss_partial (E : Env (Px t)) (hs : t.signed = false ∨ t.bits ≤ 16)
    (hn : (⊥ : Px t) ≠ ⊤) (border : Px t) (hbo : border = ⊥ ∨ border = ⊤)
    (fg bg : StrElt) (im out : Img (Px t)) (h : Accepts E im out) (hbin : BinImg im)
    (hf : HmtOK im.dims fg) (hb : HmtOK im.dims bg) :
    ∃ r, hitOrMiss E false border fg bg im out = some (.ok r) ∧ r.dims = im.dims ∧
      ∀ p, Img.In im.dims p → (Matches border fg bg im p → r.at? p = some ⊤) ∧
        (¬ Matches border fg bg im p → r.at? p = some ⊥) := by
  obtain ⟨r, h1, h2⟩ := hitOrMiss_spec E hs border fg bg im out h hf hb
  exact ⟨r, h1, h2.1, isHit_binary hbo hn hbin h2⟩

theorem hitOrMissLoop_spec (E : Env (Px t)) (hs : t.signed = false ∨ t.bits ≤ 16)
    (hn : (⊥ : Px t) ≠ ⊤) (border : Px t) (hbo : border = ⊥ ∨ border = ⊤) (im : Img (Px t))
    (ha : im.alloc = true) (hbin : BinImg im) (cs : List CompStrElt)
    (hc : ∀ c ∈ cs, HmtOK im.dims c.fg ∧ HmtOK im.dims c.bg) :
    ∀ (P : IntPoint → Prop) (o : Img (Px t)), o.dims = im.dims →
      (∀ p, Img.In im.dims p → (P p → o.at? p = some ⊤) ∧ (¬ P p → o.at? p = some ⊥)) →
      ∃ r, hitOrMissLoop E false border im cs o = some (.ok r) ∧ r.dims = im.dims ∧
        ∀ p, Img.In im.dims p →
          ((P p ∨ ∃ c ∈ cs, Matches border c.fg c.bg im p) → r.at? p = some ⊤) ∧
          (¬ (P p ∨ ∃ c ∈ cs, Matches border c.fg c.bg im p) → r.at? p = some ⊥) := by
  induction cs with
  | nil =>
    intro P o hd ho
    refine ⟨o, rfl, hd, fun p hp => ?_⟩
    simpa using ho p hp
  | cons c cs ih =>
    intro P o hd ho
    obtain ⟨m, hm, hh⟩ := hitOrMiss_spec E hs border c.fg c.bg im ⟨im.dims, E.raw⟩
      (accepts_of_dims E ha rfl) (hc c (by simp)).1 (hc c (by simp)).2
    have hmv := isHit_binary hbo hn hbin hh
    have hz := zipF_map2 (kSup : Px t → Px t → Px t) (a := o) (b := m) (hh.1.trans hd.symm)
    obtain ⟨r, hr, hrd, hrv⟩ := ih (fun c' h' => hc c' (by simp [h']))
      (fun p => P p ∨ Matches border c.fg c.bg im p) (Img.zipF kSup o m) (hz.1.trans hd) (by
        intro p hp
        constructor
        · intro hor
          by_cases hP : P p
          · by_cases hM : Matches border c.fg c.bg im p
            · rw [hz.2.2 p _ _ ((ho p hp).1 hP) ((hmv p hp).1 hM), kSup_eq_max, max_self]
            · rw [hz.2.2 p _ _ ((ho p hp).1 hP) ((hmv p hp).2 hM), kSup_eq_max, max_eq_left bot_le]
          · rw [hz.2.2 p _ _ ((ho p hp).2 hP) ((hmv p hp).1 (hor.resolve_left hP)), kSup_eq_max,
              max_eq_right bot_le]
        · intro hor
          push Not at hor
          rw [hz.2.2 p _ _ ((ho p hp).2 hor.1) ((hmv p hp).2 hor.2), kSup_eq_max, max_self])
    refine ⟨r, ?_, hrd, fun p hp => ?_⟩
    · simp only [hitOrMissLoop, Bool.false_eq_true, if_false, hm, andThen, Option.bind_some]
      exact hr
    · have e : ((P p ∨ Matches border c.fg c.bg im p) ∨ ∃ c ∈ cs, Matches border c.fg c.bg im p) ↔
          (P p ∨ ∃ c' ∈ c :: cs, Matches border c'.fg c'.bg im p) := by
        simp only [List.exists_mem_cons_iff]; tauto
      have := hrv p hp
      simp only [e] at this
      exact this

/-- **C52**, list of templates: the transform marks the positions where one of them matches. -/
theorem C52_hitOrMissList_partial (E : Env (Px t)) (hs : t.signed = false ∨ t.bits ≤ 16)
    (hn : (⊥ : Px t) ≠ ⊤) (border : Px t) (hbo : border = ⊥ ∨ border = ⊤)
    (cs : List CompStrElt) (im out : Img (Px t)) (h : Accepts E im out) (hbin : BinImg im)
    (hc : ∀ c ∈ cs, HmtOK im.dims c.fg ∧ HmtOK im.dims c.bg) :
    ∃ r, hitOrMissList E false border cs im out = some (.ok r) ∧ r.dims = im.dims ∧
      ∀ p, Img.In im.dims p → ((∃ c ∈ cs, Matches border c.fg c.bg im p) → r.at? p = some ⊤) ∧
        (¬ (∃ c ∈ cs, Matches border c.fg c.bg im p) → r.at? p = some ⊥) := by
  obtain ⟨o, ho, hd⟩ := checkSize_ok E im out h
  obtain ⟨r, hr, hrd, hv⟩ := hitOrMissLoop_spec E hs hn border hbo im h.1 hbin cs hc (fun _ => False)
    ⟨im.dims, fun _ => ⊥⟩ rfl (fun p hp => ⟨fun h => h.elim, fun _ => by
      exact Img.at?_some (⟨im.dims, fun _ => ⊥⟩ : Img (Px t)) p hp⟩)
  refine ⟨r, ?_, hrd, fun p hp => by simpa using hv p hp⟩
  unfold hitOrMissList; rw [ho]; exact hr

theorem isThin_binary (hn : (⊥ : Px t) ≠ ⊤) {fg bg : StrElt} {im r : Img (Px t)} (hbin : BinImg im)
    (h : IsThin fg bg im r) : BinImg r ∧
      ∀ p, r.at? p = some ⊤ ↔ im.at? p = some ⊤ ∧ ¬ Matches ⊥ fg bg im p := by
  obtain ⟨hd, m, hm, hv⟩ := h
  have hmv := isHit_binary (Or.inl rfl) hn hbin hm
  have key : ∀ p a, im.at? p = some a →
      (Matches ⊥ fg bg im p → r.at? p = some ⊥) ∧ (¬ Matches ⊥ fg bg im p → r.at? p = some a) := by
    intro p a ha
    have hp := Img.at?_eq_some_in _ _ _ ha
    constructor
    · intro hM; rw [hv p a _ ha ((hmv p hp).1 hM), Px.compl_top, min_eq_right bot_le]
    · intro hM; rw [hv p a _ ha ((hmv p hp).2 hM), Px.compl_bot, min_eq_left le_top]
  constructor
  · intro p u hu
    have hp : Img.In im.dims p := hd ▸ Img.at?_eq_some_in _ _ _ hu
    have ha := Img.at?_some im p hp
    by_cases hM : Matches ⊥ fg bg im p
    · rw [(key p _ ha).1 hM] at hu; cases hu; exact Or.inl rfl
    · rw [(key p _ ha).2 hM] at hu; cases hu; exact hbin p _ ha
  · intro p
    constructor
    · intro hu
      have hp : Img.In im.dims p := hd ▸ Img.at?_eq_some_in _ _ _ hu
      have ha := Img.at?_some im p hp
      by_cases hM : Matches ⊥ fg bg im p
      · rw [(key p _ ha).1 hM] at hu; exact absurd (Option.some.inj hu) hn
      · rw [(key p _ ha).2 hM] at hu
        exact ⟨by rw [ha]; exact hu, hM⟩
    · rintro ⟨ha, hM⟩
      exact (key p _ ha).2 hM

theorem isThick_binary (hn : (⊥ : Px t) ≠ ⊤) {fg bg : StrElt} {im r : Img (Px t)} (hbin : BinImg im)
    (h : IsThick fg bg im r) : BinImg r ∧
      ∀ p, r.at? p = some ⊤ ↔ im.at? p = some ⊤ ∨ (Img.In im.dims p ∧ Matches ⊥ fg bg im p) := by
  obtain ⟨hd, m, hm, hv⟩ := h
  have hmv := isHit_binary (Or.inl rfl) hn hbin hm
  have key : ∀ p a, im.at? p = some a →
      (Matches ⊥ fg bg im p → r.at? p = some ⊤) ∧ (¬ Matches ⊥ fg bg im p → r.at? p = some a) := by
    intro p a ha
    have hp := Img.at?_eq_some_in _ _ _ ha
    constructor
    · intro hM; rw [hv p a _ ha ((hmv p hp).1 hM), max_eq_right le_top]
    · intro hM; rw [hv p a _ ha ((hmv p hp).2 hM), max_eq_left bot_le]
  constructor
  · intro p u hu
    have hp : Img.In im.dims p := hd ▸ Img.at?_eq_some_in _ _ _ hu
    have ha := Img.at?_some im p hp
    by_cases hM : Matches ⊥ fg bg im p
    · rw [(key p _ ha).1 hM] at hu; cases hu; exact Or.inr rfl
    · rw [(key p _ ha).2 hM] at hu; cases hu; exact hbin p _ ha
  · intro p
    constructor
    · intro hu
      have hp : Img.In im.dims p := hd ▸ Img.at?_eq_some_in _ _ _ hu
      have ha := Img.at?_some im p hp
      by_cases hM : Matches ⊥ fg bg im p
      · exact Or.inr ⟨hp, hM⟩
      · rw [(key p _ ha).2 hM] at hu
        exact Or.inl (by rw [ha]; exact hu)
    · rintro (ha | ⟨hp, hM⟩)
      · by_cases hM : Matches ⊥ fg bg im p
        · exact (key p _ ha).1 hM
        · exact (key p _ ha).2 hM
      · exact (key p _ (Img.at?_some im p hp)).1 hM

/-- **C52**: thinning removes exactly the positions of the template; the result is binary. -/
theorem C52_thin_partial (E : Env (Px t)) (hs : t.signed = false ∨ t.bits ≤ 16) (hn : (⊥ : Px t) ≠ ⊤)
    (fg bg : StrElt) (im out : Img (Px t)) (h : Accepts E im out) (hbin : BinImg im)
    (hf : HmtOK im.dims fg) (hb : HmtOK im.dims bg) :
    ∃ r, thin E fg bg im out = some (.ok r) ∧ r.dims = im.dims ∧ BinImg r ∧
      ∀ p, r.at? p = some ⊤ ↔ im.at? p = some ⊤ ∧ ¬ Matches ⊥ fg bg im p := by
  obtain ⟨r, h1, h2⟩ := thin_spec E hs fg bg im out h hf hb
  obtain ⟨h3, h4⟩ := isThin_binary hn hbin h2
  exact ⟨r, h1, h2.1, h3, h4⟩

/-- **C52**: thickening adds exactly the positions of the template. -/
theorem C52_thick_partial (E : Env (Px t)) (hs : t.signed = false ∨ t.bits ≤ 16) (hn : (⊥ : Px t) ≠ ⊤)
    (fg bg : StrElt) (im out : Img (Px t)) (h : Accepts E im out) (hbin : BinImg im)
    (hf : HmtOK im.dims fg) (hb : HmtOK im.dims bg) :
    ∃ r, thick E fg bg im out = some (.ok r) ∧ r.dims = im.dims ∧ BinImg r ∧
      ∀ p, r.at? p = some ⊤ ↔ im.at? p = some ⊤ ∨ (Img.In im.dims p ∧ Matches ⊥ fg bg im p) := by
  obtain ⟨r, h1, h2⟩ := thick_spec E hs fg bg im out h hf hb
  obtain ⟨h3, h4⟩ := isThick_binary hn hbin h2
  exact ⟨r, h1, h2.1, h3, h4⟩

/-- **C52**: thinning by a list is anti-extensive and thickening by a list extensive, on grey-level
images too. -/
theorem C52_extensivity_partial (E : Env (Px t)) (hs : t.signed = false ∨ t.bits ≤ 16)
    (cs : List CompStrElt) (im out : Img (Px t)) (h : Accepts E im out)
    (hc : ∀ c ∈ cs, HmtOK im.dims c.fg ∧ HmtOK im.dims c.bg) :
    (∃ r, thinList E cs im out = some (.ok r) ∧ Img.Le r im) ∧
    (∃ r, thickList E cs im out = some (.ok r) ∧ Img.Le im r) := by
  obtain ⟨r, h1, h2⟩ := thinList_spec E hs cs im out h hc
  obtain ⟨r', h1', h2'⟩ := thickList_spec E hs cs im out h hc
  exact ⟨⟨r, h1, h2.le fun _ _ _ h => h.le⟩, ⟨r', h1', h2'.ge fun _ _ _ h => h.le⟩⟩

/-! ### The iterated versions -/

theorem Steps.trans {R : Img (Px t) → Img (Px t) → Prop} {a b c : Img (Px t)} (h : Steps R a b)
    (h' : Steps R b c) : Steps R a c := by
  induction h with
  | refl => exact h'
  | step h _ ih => exact .step h (ih h')

theorem isHit_congr {border : Px t} {fg bg : StrElt} {a a' hm : Img (Px t)} (h : Img.Same a a')
    (hh : IsHit border fg bg a hm) : IsHit border fg bg a' hm := by
  have e : a.at? = a'.at? := funext h.2
  refine ⟨hh.1.trans h.1, fun p hp => ?_⟩
  have := hh.2 p (h.1 ▸ hp)
  unfold GrayHit at *
  rw [e] at this
  exact this

theorem isThin_congr {fg bg : StrElt} {a a' r r' : Img (Px t)} (h : Img.Same a a') (h' : Img.Same r r')
    (hh : IsThin fg bg a r) : IsThin fg bg a' r' := by
  obtain ⟨hd, m, hm, hv⟩ := hh
  refine ⟨h'.1.symm.trans (hd.trans h.1), m, isHit_congr h hm, fun p x v hx hv' => ?_⟩
  rw [← h'.2]
  exact hv p x v (by rw [h.2]; exact hx) hv'

theorem isThick_congr {fg bg : StrElt} {a a' r r' : Img (Px t)} (h : Img.Same a a') (h' : Img.Same r r')
    (hh : IsThick fg bg a r) : IsThick fg bg a' r' := by
  obtain ⟨hd, m, hm, hv⟩ := hh
  refine ⟨h'.1.symm.trans (hd.trans h.1), m, isHit_congr h hm, fun p x v hx hv' => ?_⟩
  rw [← h'.2]
  exact hv p x v (by rw [h.2]; exact hx) hv'

theorem thinChain_fixed {cs : List CompStrElt} {a r : Img (Px t)} (h : Chain ThinBy cs a r)
    (hs : Img.Same a r) : ∀ c ∈ cs, IsThin c.fg c.bg r r := by
  induction h with
  | nil => intro c hc; cases hc
  | @cons c cs a b r h hch ih =>
    have h1 : Img.Le b a := IsThin.le h
    have h2 : Img.Le r b := hch.le fun _ _ _ h => IsThin.le h
    have hbr : Img.Same b r := (h1.trans hs.le).antisymm h2
    intro c' hc'
    rcases List.mem_cons.mp hc' with rfl | hc'
    · exact isThin_congr hs hbr h
    · exact ih hbr c' hc'

theorem thickChain_fixed {cs : List CompStrElt} {a r : Img (Px t)} (h : Chain ThickBy cs a r)
    (hs : Img.Same a r) : ∀ c ∈ cs, IsThick c.fg c.bg r r := by
  induction h with
  | nil => intro c hc; cases hc
  | @cons c cs a b r h hch ih =>
    have h1 : Img.Le a b := IsThick.le h
    have h2 : Img.Le b r := hch.ge fun _ _ _ h => IsThick.le h
    have hbr : Img.Same b r := h2.antisymm (hs.symm.le.trans h1)
    intro c' hc'
    rcases List.mem_cons.mp hc' with rfl | hc'
    · exact isThick_congr hs hbr h
    · exact ih hbr c' hc'

theorem Chain.dims {R : CompStrElt → Img (Px t) → Img (Px t) → Prop}
    (hR : ∀ c a b, R c a b → b.dims = a.dims) {cs : List CompStrElt} {a b : Img (Px t)}
    (h : Chain R cs a b) : b.dims = a.dims := by
  induction h with
  | nil a => rfl
  | cons h _ ih => exact ih.trans (hR _ _ _ h)

theorem chain_thin_binary (hn : (⊥ : Px t) ≠ ⊤) {cs : List CompStrElt} {a b : Img (Px t)}
    (h : Chain ThinBy cs a b) (ha : BinImg a) : BinImg b := by
  induction h with
  | nil a => exact ha
  | cons h _ ih => exact ih (isThin_binary hn ha h).1

theorem chain_thick_binary (hn : (⊥ : Px t) ≠ ⊤) {cs : List CompStrElt} {a b : Img (Px t)}
    (h : Chain ThickBy cs a b) (ha : BinImg a) : BinImg b := by
  induction h with
  | nil a => exact ha
  | cons h _ ih => exact ih (isThick_binary hn ha h).1

theorem Steps.inv {R : Img (Px t) → Img (Px t) → Prop} {P : Img (Px t) → Prop}
    (hP : ∀ a b, P a → R a b → P b) {a b : Img (Px t)} (h : Steps R a b) (ha : P a) : P b := by
  induction h with
  | refl => exact ha
  | step h _ ih => exact ih (hP _ _ ha h)

/-- The number of iterations that always suffices. -/
def thinFuel (im : Img (Px t)) : Nat := (im.dims.count * (t.hi - t.lo)).toNat + 1

/-- **C52**: `fullThin` ends, on every image, after at most `thinFuel im` rounds; its result is
obtained by rounds of thinnings and is left unchanged by every template of the list. -/
theorem C52_fullThin_partial (E : Env (Px t)) (hs : t.signed = false ∨ t.bits ≤ 16)
    (cs : List CompStrElt) (im out : Img (Px t)) (h : Accepts E im out)
    (hc : ∀ c ∈ cs, HmtOK im.dims c.fg ∧ HmtOK im.dims c.bg) (fuel : Nat) (hfuel : thinFuel im ≤ fuel) :
    ∃ r, fullThin E fuel cs im out = some (.ok r) ∧ Steps (Chain ThinBy cs) im r ∧
      ∀ c ∈ cs, IsThin c.fg c.bg r r := by
  obtain ⟨o, ho, hd⟩ := checkSize_ok E im out h
  obtain ⟨o1, ho1, hch1⟩ := thinList_spec E hs cs im o (accepts_of_dims E h.1 hd) hc
  have hd1 : o1.dims = im.dims := hch1.dims fun _ _ _ h => h.1
  obtain ⟨b, r, hr, hst, hR, hv⟩ := untilStable_spec (fun a => thinList E cs a a) (Chain ThinBy cs)
    im.dims Img.vol (im.dims.count * t.lo) (fun _ _ => Iff.rfl) (fun a ha => ha ▸ vol_lower a)
    (fun _ _ h => h.dims fun _ _ _ h => h.1) (fun _ _ h => vol_le (h.le fun _ _ _ h => h.le))
    (fun a ha => thinList_spec E hs cs a a (accepts_of_dims E (alloc_of_dims ha h.1) rfl)
      (by rw [ha]; exact hc)) fuel o1 hd1 (by
        have h1 := vol_upper o1
        rw [hd1] at h1
        unfold thinFuel at hfuel
        rw [mul_sub] at hfuel
        omega)
  have hsame : Img.Same b r := (vol_strict (hR.le fun _ _ _ h => h.le) hv).symm
  refine ⟨r, ?_, .step hch1 (hst.trans (.step hR (.refl r))), thinChain_fixed hR hsame⟩
  unfold fullThin
  rw [ho]
  simp only [ho1, andThen, Option.bind_some]
  exact hr

/-- **C52**: `fullThick` ends, on every image, at an image left unchanged by every template. -/
theorem C52_fullThick_partial (E : Env (Px t)) (hs : t.signed = false ∨ t.bits ≤ 16)
    (cs : List CompStrElt) (im out : Img (Px t)) (h : Accepts E im out)
    (hc : ∀ c ∈ cs, HmtOK im.dims c.fg ∧ HmtOK im.dims c.bg) (fuel : Nat) (hfuel : thinFuel im ≤ fuel) :
    ∃ r, fullThick E fuel cs im out = some (.ok r) ∧ Steps (Chain ThickBy cs) im r ∧
      ∀ c ∈ cs, IsThick c.fg c.bg r r := by
  obtain ⟨o, ho, hd⟩ := checkSize_ok E im out h
  obtain ⟨o1, ho1, hch1⟩ := thickList_spec E hs cs im o (accepts_of_dims E h.1 hd) hc
  have hd1 : o1.dims = im.dims := hch1.dims fun _ _ _ h => h.1
  obtain ⟨b, r, hr, hst, hR, hv⟩ := untilStable_spec (fun a => thickList E cs a a) (Chain ThickBy cs)
    im.dims (fun a => - a.vol) (-(im.dims.count * t.hi)) (fun _ _ => by omega)
    (fun a ha => by have := vol_upper a; rw [ha] at this; omega)
    (fun _ _ h => h.dims fun _ _ _ h => h.1)
    (fun _ _ h => by have := vol_le (h.ge fun _ _ _ h => h.le); omega)
    (fun a ha => thickList_spec E hs cs a a (accepts_of_dims E (alloc_of_dims ha h.1) rfl)
      (by rw [ha]; exact hc)) fuel o1 hd1 (by
        have h1 := vol_lower o1
        rw [hd1] at h1
        unfold thinFuel at hfuel
        rw [mul_sub] at hfuel
        omega)
  have hsame : Img.Same b r := vol_strict (hR.ge fun _ _ _ h => h.le) hv.symm
  refine ⟨r, ?_, .step hch1 (hst.trans (.step hR (.refl r))), thickChain_fixed hR hsame⟩
  unfold fullThick
  rw [ho]
  simp only [ho1, andThen, Option.bind_some]
  exact hr

/-- **C52**, binary images: where `fullThin` ends no set pixel matches a template, and where
`fullThick` ends every match is a set pixel. -/
theorem C52_full_binary_partial (E : Env (Px t)) (hs : t.signed = false ∨ t.bits ≤ 16)
    (hn : (⊥ : Px t) ≠ ⊤) (cs : List CompStrElt) (im out : Img (Px t)) (h : Accepts E im out)
    (hbin : BinImg im) (hc : ∀ c ∈ cs, HmtOK im.dims c.fg ∧ HmtOK im.dims c.bg) (fuel : Nat)
    (hfuel : thinFuel im ≤ fuel) :
    (∃ r, fullThin E fuel cs im out = some (.ok r) ∧ BinImg r ∧ Img.Le r im ∧
      ∀ c ∈ cs, ∀ p, r.at? p = some ⊤ → ¬ Matches ⊥ c.fg c.bg r p) ∧
    (∃ r, fullThick E fuel cs im out = some (.ok r) ∧ BinImg r ∧ Img.Le im r ∧
      ∀ c ∈ cs, ∀ p, Img.In im.dims p → Matches ⊥ c.fg c.bg r p → r.at? p = some ⊤) := by
  obtain ⟨r, h1, h2, h3⟩ := C52_fullThin_partial E hs cs im out h hc fuel hfuel
  obtain ⟨r', h1', h2', h3'⟩ := C52_fullThick_partial E hs cs im out h hc fuel hfuel
  have hb : BinImg r := h2.inv (fun _ _ ha h => chain_thin_binary hn h ha) hbin
  have hb' : BinImg r' := h2'.inv (fun _ _ ha h => chain_thick_binary hn h ha) hbin
  have hd' : r'.dims = im.dims := h2'.inv (P := fun x => x.dims = im.dims)
    (fun _ _ ha h => (h.dims fun _ _ _ h => h.1).trans ha) rfl
  refine ⟨⟨r, h1, hb, ?_, fun c hcm p hp => ?_⟩, ⟨r', h1', hb', ?_, fun c hcm p hp hm => ?_⟩⟩
  · exact h2.inv (P := fun x => Img.Le x im) (fun _ _ ha h => (h.le fun _ _ _ h => h.le).trans ha)
      (Img.Le.refl im)
  · exact (((isThin_binary hn hb (h3 c hcm)).2 p).mp hp).2
  · exact h2'.inv (P := fun x => Img.Le im x) (fun _ _ ha h => ha.trans (h.ge fun _ _ _ h => h.le))
      (Img.Le.refl im)
  · exact ((isThick_binary hn hb' (h3' c hcm)).2 p).mpr (Or.inr ⟨hd' ▸ hp, hm⟩)

/-- **C52**: the images that are refused give an error code. -/
theorem C52_errors (E : Env (Px t)) (im out : Img (Px t)) (c : Int) (h : checkSize E im out = .error c)
    (inPl : Bool) (border : Px t) (fg bg : StrElt) (cs : List CompStrElt) (fuel : Nat) :
    hitOrMiss E inPl border fg bg im out = some (.error c) ∧
    hitOrMissList E inPl border cs im out = some (.error c) ∧
    thin E fg bg im out = some (.error c) ∧ thick E fg bg im out = some (.error c) ∧
    thinList E cs im out = some (.error c) ∧ thickList E cs im out = some (.error c) ∧
    fullThin E fuel cs im out = some (.error c) ∧ fullThick E fuel cs im out = some (.error c) := by
  unfold hitOrMiss hitOrMissList thin thick thinList thickList fullThin fullThick
  rw [h]
  exact ⟨rfl, rfl, rfl, rfl, rfl, rfl, rfl, rfl⟩

/-! ### Examples and witnesses -/

/-- The end of a horizontal run: the point and the pixel on its right set, the pixel on its left not. -/
def exHmt : CompStrElt := ⟨⟨false, .generic, 1, [⟨0, 0, 0⟩, ⟨1, 0, 0⟩]⟩, ⟨false, .generic, 1, [⟨-1, 0, 0⟩]⟩⟩

/-- Pixel values of a result. -/
def hmtRow (r : Option (Except Int (Img (Px UINT8)))) : Option (List Int) :=
  match r with
  | some (.ok im) => some ((List.range im.dims.count).map fun i => (im.buf i).val)
  | _ => none

/-- A line of UINT8 pixels. -/
def hmtLine (l : List Int) : Img (Px UINT8) := ⟨⟨l.length, 1, 1⟩, fun i => UINT8.wrap (l.getD i 0)⟩

/-- The hypotheses of the theorems are met, and the results are not trivial: the left end of a run
touching the left side does not match because the outside is not background. -/
example : Accepts exEnv8 (hmtLine [255, 255, 0, 255, 255, 255]) (hmtLine [255, 255, 0, 255, 255, 255]) ∧
    HmtOK ⟨6, 1, 1⟩ exHmt.fg ∧ HmtOK ⟨6, 1, 1⟩ exHmt.bg ∧ (⊥ : Px UINT8) ≠ ⊤ ∧
    hmtRow (hitOrMiss exEnv8 false ⊥ exHmt.fg exHmt.bg (hmtLine [255, 255, 0, 255, 255, 255])
      (hmtLine [0, 0, 0, 0, 0, 0])) = some [0, 0, 0, 255, 0, 0] ∧
    hmtRow (thin exEnv8 exHmt.fg exHmt.bg (hmtLine [255, 255, 0, 255, 255, 255])
      (hmtLine [0, 0, 0, 0, 0, 0])) = some [255, 255, 0, 0, 255, 255] ∧
    hmtRow (fullThin exEnv8 3 [exHmt] (hmtLine [255, 255, 0, 255, 255, 255])
      (hmtLine [0, 0, 0, 0, 0, 0])) = some [255, 255, 0, 0, 0, 255] :=
  ⟨⟨by decide, by decide, Or.inl rfl⟩, hmtOK_iff (by decide), hmtOK_iff (by decide), by decide,
    by decide +kernel, by decide +kernel, by decide +kernel⟩

example : BinImg (hmtLine [255, 0]) := by
  intro p u hu
  obtain ⟨i, hi, rfl, -⟩ := Img.at?_buf _ p u hu
  have hi2 : i < 2 := hi
  interval_cases i
  · exact Or.inr (by decide +kernel)
  · exact Or.inl (by decide +kernel)

/-- In place (`imOut` is `imIn`) the second erosion reads the result of the first: on
`255 255 0 255 255 255` the transform is empty instead of marking the fourth pixel. -/
theorem C52_inplace_bug :
    hmtRow (hitOrMiss exEnv8 true ⊥ exHmt.fg exHmt.bg (hmtLine [255, 255, 0, 255, 255, 255])
      (hmtLine [255, 255, 0, 255, 255, 255])) = some [0, 0, 0, 0, 0, 0] ∧
    hmtRow (hitOrMiss exEnv8 false ⊥ exHmt.fg exHmt.bg (hmtLine [255, 255, 0, 255, 255, 255])
      (hmtLine [0, 0, 0, 0, 0, 0])) = some [0, 0, 0, 255, 0, 0] := by
  decide +kernel

/-- In place the version for lists first erases the input: nothing is ever found. -/
theorem C52_inplace_list_bug :
    hmtRow (hitOrMissList exEnv8 true ⊥ [exHmt] (hmtLine [255, 255, 0, 255, 255, 255])
      (hmtLine [255, 255, 0, 255, 255, 255])) = some [0, 0, 0, 0, 0, 0] := by
  decide +kernel

/-- An element without points leaves the image it should write as it was, so that a template with an
empty foreground looks at the complement of the image instead of being satisfied: the pixel on the right
of an unset pixel is found only if it is itself unset. -/
theorem C52_empty_bug :
    hmtRow (hitOrMiss exEnv8 false ⊥ ⟨false, .generic, 1, []⟩ exHmt.bg (hmtLine [255, 0, 255, 0, 0])
      (hmtLine [0, 0, 0, 0, 0])) = some [0, 0, 0, 0, 255] ∧
    Matches ⊥ ⟨false, .generic, 1, []⟩ exHmt.bg (hmtLine [255, 0, 255, 0, 0]) ⟨2, 0, 0⟩ := by
  refine ⟨by decide +kernel, ⟨fun b hb => (nomatch hb), fun b hb => ⟨⟨1, 0, 0⟩, ?_, ?_⟩⟩⟩
  · have : b = ⟨-1, 0, 0⟩ := by simpa [exHmt] using hb
    subst this; decide
  · show Covers ⊥ ⊥ _
    have : (hmtLine [255, 0, 255, 0, 0]).at? ⟨1, 0, 0⟩ = some ⊥ := by decide +kernel
    rw [this]; rfl

end Smil
