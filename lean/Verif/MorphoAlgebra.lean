import Verif.MorphoTopLemmas

/-! # Algebra of dilations and erosions given by relations, and of their iterates -/

set_option linter.unusedSectionVars false

namespace Smil
open StrElt
variable {α : Type}

/-- `out` collects at `p` the greatest lower bound of the pixels `q` of `im` with `N p q`. -/
def IsEroBy [Preorder α] (N : IntPoint → IntPoint → Prop) (im out : Img α) : Prop :=
  out.dims = im.dims ∧ ∀ p, Img.In im.dims p →
    ∃ v, out.at? p = some v ∧ IsGLB { u | ∃ q, N p q ∧ im.at? q = some u } v

theorem isEro_iff [Preorder α] (se : StrElt) (im out : Img α) :
    IsEro se im out ↔ IsEroBy (seRel se) im out := by
  unfold IsEro IsEroBy eroSet seRel
  have : ∀ p, { u | ∃ q, ∃ b ∈ se.points, phys se.odd p + phys se.odd b = phys se.odd q ∧
      im.at? q = some u } = { u | ∃ q, (∃ b ∈ se.points, phys se.odd p + phys se.odd b =
      phys se.odd q) ∧ im.at? q = some u } := by
    intro p; ext u
    constructor
    · rintro ⟨q, b, hb, h, hu⟩; exact ⟨q, ⟨b, hb, h⟩, hu⟩
    · rintro ⟨q, ⟨b, hb, h⟩, hu⟩; exact ⟨q, b, hb, h, hu⟩
  simp only [this]

theorem seRel_transpose (se : StrElt) (q p : IntPoint) : seRel se.transpose q p ↔ seRel se p q := by
  unfold seRel
  rw [(C22_transpose se).2.2.1]
  constructor
  · rintro ⟨b, hb, h⟩
    rw [transpose_mem] at hb
    refine ⟨_, hb, ?_⟩
    rw [phys_transposePt, ← h]; simp
  · rintro ⟨b, hb, h⟩
    refine ⟨transposePt se.odd b, by rw [transpose_mem, transposePt_invol]; exact hb, ?_⟩
    rw [phys_transposePt, ← h]; simp

/-- The dual of a dilation. -/
theorem isDilBy_dual [Preorder α] (N : IntPoint → IntPoint → Prop) (im out : Img α) :
    IsDilBy (α := αᵒᵈ) (fun q p => N p q) im out ↔ IsEroBy (α := α) N im out := Iff.rfl

/-! ### Iteration of relations -/

section iter
variable {R R' : Img α → Img α → Prop}

theorem IterRel.mono (h : ∀ a b, R a b → R' a b) {n : Nat} {a b : Img α} (hi : IterRel R n a b) :
    IterRel R' n a b := by
  induction n generalizing a with
  | zero => exact hi
  | succ n ih =>
    obtain ⟨m, h1, h2⟩ := hi
    exact ⟨m, h _ _ h1, ih h2⟩

/-- `R` does not look at more than the pixels. -/
def Respects (R : Img α → Img α → Prop) : Prop :=
  ∀ a a' b b', Img.Same a a' → Img.Same b b' → R a b → R a' b'

theorem IterRel.respects (hR : Respects R) (n : Nat) : Respects (IterRel R n) := by
  induction n with
  | zero => intro a a' b b' h h' hi; exact (h.symm.trans hi).trans h'
  | succ n ih =>
    rintro a a' b b' h h' ⟨m, h1, h2⟩
    exact ⟨m, hR _ _ _ _ h (Img.Same.refl _) h1, ih _ _ _ _ (Img.Same.refl _) h' h2⟩

theorem IterRel.add (hR : Respects R) (n k : Nat) (a b : Img α) :
    IterRel R (n + k) a b ↔ ∃ m, IterRel R n a m ∧ IterRel R k m b := by
  induction n generalizing a with
  | zero =>
    rw [Nat.zero_add]
    constructor
    · intro h; exact ⟨a, Img.Same.refl _, h⟩
    · rintro ⟨m, h1, h2⟩
      exact IterRel.respects hR k _ _ _ _ (Img.Same.symm h1) (Img.Same.refl _) h2
  | succ n ih =>
    rw [show n + 1 + k = (n + k) + 1 by omega]
    constructor
    · rintro ⟨m, h1, h2⟩
      obtain ⟨m', h3, h4⟩ := (ih m).mp h2
      exact ⟨m', ⟨m, h1, h3⟩, h4⟩
    · rintro ⟨m', ⟨m, h1, h3⟩, h4⟩
      exact ⟨m, h1, (ih m).mpr ⟨m', h3, h4⟩⟩

theorem IterRel.last (hR : Respects R) (n : Nat) (a b : Img α) :
    IterRel R (n + 1) a b ↔ ∃ m, IterRel R n a m ∧ R m b := by
  rw [IterRel.add hR]
  constructor
  · rintro ⟨m, h1, m', h2, h3⟩
    exact ⟨m, h1, hR _ _ _ _ (Img.Same.refl _) h3 h2⟩
  · rintro ⟨m, h1, h2⟩
    exact ⟨m, h1, b, h2, Img.Same.refl _⟩

theorem IterRel.dims (hR : ∀ a b, R a b → b.dims = a.dims) {n : Nat} {a b : Img α}
    (h : IterRel R n a b) : b.dims = a.dims := by
  induction n generalizing a with
  | zero => exact h.1.symm
  | succ n ih =>
    obtain ⟨m, h1, h2⟩ := h
    rw [ih h2, hR _ _ h1]

theorem IterRel.unique (hR : ∀ a a' b b', Img.Same a a' → R a b → R a' b' → Img.Same b b') {n : Nat}
    {a a' b b' : Img α} (hs : Img.Same a a') (h : IterRel R n a b) (h' : IterRel R n a' b') :
    Img.Same b b' := by
  induction n generalizing a a' with
  | zero => exact (h.symm.trans hs).trans h'
  | succ n ih =>
    obtain ⟨m, h1, h2⟩ := h
    obtain ⟨m', h3, h4⟩ := h'
    exact ih (hR _ _ _ _ hs h1 h3) h2 h4
end iter

section order
variable [PartialOrder α] {N : IntPoint → IntPoint → Prop}

theorem isDilBy_respects : Respects (IsDilBy (α := α) N) :=
  fun _ _ _ _ h h' hd => hd.of_same h h'

theorem isEroBy_respects : Respects (IsEroBy (α := α) N) :=
  fun _ _ _ _ h h' hd => IsDilBy.of_same (α := αᵒᵈ) h h' hd

theorem isEroBy_unique {im im' a b : Img α} (hs : Img.Same im im') (ha : IsEroBy N im a)
    (hb : IsEroBy N im' b) : Img.Same a b :=
  IsDilBy.unique (α := αᵒᵈ) hs ha hb

theorem Img.Le.refl (a : Img α) : Img.Le a a :=
  ⟨rfl, fun p u v h h' => by rw [h] at h'; cases h'; exact le_refl _⟩

theorem Img.Le.trans {a b c : Img α} (h : Img.Le a b) (h' : Img.Le b c) : Img.Le a c := by
  refine ⟨h.1.trans h'.1, fun p u v hu hv => ?_⟩
  have hin := Img.at?_eq_some_in _ _ _ hu
  rw [h.1] at hin
  exact (h.2 p _ _ hu (Img.at?_some b p hin)).trans (h'.2 p _ _ (Img.at?_some b p hin) hv)

theorem Img.Le.antisymm {a b : Img α} (h : Img.Le a b) (h' : Img.Le b a) : Img.Same a b := by
  refine ⟨h.1, fun p => ?_⟩
  by_cases hp : Img.In a.dims p
  · have e1 := Img.at?_some a p hp
    have e2 := Img.at?_some b p (h.1 ▸ hp)
    rw [e1, e2, le_antisymm (h.2 p _ _ e1 e2) (h'.2 p _ _ e2 e1)]
  · rw [Img.at?_none a p hp, Img.at?_none b p (h.1 ▸ hp)]

theorem Img.Same.le {a b : Img α} (h : Img.Same a b) : Img.Le a b :=
  ⟨h.1, fun p u v hu hv => by rw [h.2 p, hv] at hu; cases hu; exact le_refl _⟩

theorem Img.Le.of_same {a a' b b' : Img α} (h : Img.Same a a') (h' : Img.Same b b')
    (hl : Img.Le a b) : Img.Le a' b' := (h.symm.le.trans hl).trans h'.le

/-- The two operators form an adjunction. -/
theorem adj_one {f a g b : Img α} (hd : f.dims = g.dims) (ha : IsDilBy N f a) (hb : IsEroBy N g b) :
    Img.Le a g ↔ Img.Le f b := by
  constructor
  · intro h
    refine ⟨hd.trans hb.1.symm, fun q u v hu hv => ?_⟩
    obtain ⟨v', hv', hg⟩ := hb.2 q (hd ▸ Img.at?_eq_some_in _ _ _ hu)
    rw [hv] at hv'; cases hv'
    refine hg.2 ?_
    rintro w ⟨p, hN, hw⟩
    obtain ⟨x, hx, hl⟩ := ha.2 p (hd ▸ Img.at?_eq_some_in _ _ _ hw)
    exact (hl.1 ⟨q, hN, hu⟩).trans (h.2 p _ _ hx hw)
  · intro h
    refine ⟨ha.1.trans hd, fun p u v hu hv => ?_⟩
    obtain ⟨u', hu', hl⟩ := ha.2 p (hd.symm ▸ Img.at?_eq_some_in _ _ _ hv)
    rw [hu] at hu'; cases hu'
    refine hl.2 ?_
    rintro w ⟨q, hN, hw⟩
    obtain ⟨x, hx, hg⟩ := hb.2 q (hd ▸ Img.at?_eq_some_in _ _ _ hw)
    exact (h.2 q _ _ hw hx).trans (hg.1 ⟨p, hN, hv⟩)

theorem isDilBy_dims {a b : Img α} (h : IsDilBy N a b) : b.dims = a.dims := h.1
theorem isEroBy_dims {a b : Img α} (h : IsEroBy N a b) : b.dims = a.dims := h.1

theorem adj_iter (n : Nat) {f a g b : Img α} (hd : f.dims = g.dims)
    (ha : IterRel (IsDilBy N) n f a) (hb : IterRel (IsEroBy N) n g b) : Img.Le a g ↔ Img.Le f b := by
  induction n generalizing f b with
  | zero =>
    exact ⟨fun h => Img.Le.of_same (Img.Same.symm ha) hb h,
      fun h => Img.Le.of_same ha (Img.Same.symm hb) h⟩
  | succ n ih =>
    obtain ⟨m, h1, h2⟩ := ha
    obtain ⟨m', h3, h4⟩ := (IterRel.last isEroBy_respects n g b).mp hb
    rw [ih (h1.1.trans hd) h2 h3]
    have := IterRel.dims (fun a b h => isEroBy_dims h) h3
    exact adj_one (hd.trans this.symm) h1 h4

/-- Dilations are increasing. -/
theorem dil_mono_one {f g a b : Img α} (h : Img.Le f g) (ha : IsDilBy N f a) (hb : IsDilBy N g b) :
    Img.Le a b := by
  refine ⟨ha.1.trans (h.1.trans hb.1.symm), fun p u v hu hv => ?_⟩
  have hp : Img.In f.dims p := ha.1 ▸ Img.at?_eq_some_in _ _ _ hu
  obtain ⟨u', hu', hl⟩ := ha.2 p hp
  obtain ⟨v', hv', hl'⟩ := hb.2 p (h.1 ▸ hp)
  rw [hu] at hu'; cases hu'
  rw [hv] at hv'; cases hv'
  refine hl.2 ?_
  rintro w ⟨q, hN, hw⟩
  have hq := Img.at?_some g q (h.1 ▸ Img.at?_eq_some_in _ _ _ hw)
  exact (h.2 q _ _ hw hq).trans (hl'.1 ⟨q, hN, hq⟩)

theorem dil_mono (n : Nat) {f g a b : Img α} (h : Img.Le f g) (ha : IterRel (IsDilBy N) n f a)
    (hb : IterRel (IsDilBy N) n g b) : Img.Le a b := by
  induction n generalizing f g with
  | zero => exact Img.Le.of_same ha hb h
  | succ n ih =>
    obtain ⟨m, h1, h2⟩ := ha
    obtain ⟨m', h3, h4⟩ := hb
    exact ih (dil_mono_one h h1 h3) h2 h4

theorem Img.le_dual {a b : Img α} : Img.Le (α := αᵒᵈ) a b ↔ Img.Le b a := by
  constructor
  · rintro ⟨h1, h2⟩; exact ⟨h1.symm, fun p u v hu hv => h2 p v u hv hu⟩
  · rintro ⟨h1, h2⟩; exact ⟨h1.symm, fun p u v hu hv => h2 p v u hv hu⟩

theorem ero_mono (n : Nat) {f g a b : Img α} (h : Img.Le f g) (ha : IterRel (IsEroBy N) n f a)
    (hb : IterRel (IsEroBy N) n g b) : Img.Le a b :=
  Img.le_dual.mp (dil_mono (α := αᵒᵈ) (N := fun q p => N p q) n ((Img.le_dual (α := α)).mpr h) hb ha)

/-- A reflexive relation gives an extensive dilation. -/
theorem dil_ext (hr : ∀ p, N p p) (n : Nat) {f a : Img α} (ha : IterRel (IsDilBy N) n f a) :
    Img.Le f a := by
  induction n generalizing f with
  | zero => exact Img.Same.le ha
  | succ n ih =>
    obtain ⟨m, h1, h2⟩ := ha
    refine Img.Le.trans ⟨h1.1.symm, fun p u v hu hv => ?_⟩ (ih h2)
    obtain ⟨v', hv', hl⟩ := h1.2 p (Img.at?_eq_some_in _ _ _ hu)
    rw [hv] at hv'; cases hv'
    exact hl.1 ⟨p, hr p, hu⟩

theorem ero_ext (hr : ∀ p, N p p) (n : Nat) {f a : Img α} (ha : IterRel (IsEroBy N) n f a) :
    Img.Le a f :=
  Img.le_dual.mp (dil_ext (α := αᵒᵈ) (N := fun q p => N p q) hr n ha)

end order

section lattice
variable [LinearOrder α] {N : IntPoint → IntPoint → Prop}

theorem Img.IsMap2.at {β γ : Type} {F : α → β → γ} {a : Img α} {b : Img β} {out : Img γ}
    (h : Img.IsMap2 F a b out) (p : IntPoint) (w : γ) (hw : out.at? p = some w) :
    ∃ u v, a.at? p = some u ∧ b.at? p = some v ∧ w = F u v := by
  have hp := Img.at?_eq_some_in _ _ _ hw
  rw [h.1] at hp
  have e1 := Img.at?_some a p hp
  have e2 := Img.at?_some b p (h.2.1.symm ▸ hp)
  refine ⟨_, _, e1, e2, ?_⟩
  have := h.2.2 p _ _ e1 e2
  rw [hw] at this
  cases this; rfl

theorem dil_sup_one {f g h a b c : Img α} (hh : Img.IsMap2 max f g h) (ha : IsDilBy N f a)
    (hb : IsDilBy N g b) (hc : IsDilBy N h c) : Img.IsMap2 max a b c := by
  refine ⟨hc.1.trans (hh.1.trans ha.1.symm), hb.1.trans (hh.2.1.trans ha.1.symm), ?_⟩
  intro p u v hu hv
  have hp : Img.In f.dims p := ha.1 ▸ Img.at?_eq_some_in _ _ _ hu
  obtain ⟨u', hu', hl⟩ := ha.2 p hp
  obtain ⟨v', hv', hl'⟩ := hb.2 p (hh.2.1 ▸ hp)
  obtain ⟨w, hw, hlw⟩ := hc.2 p (hh.1 ▸ hp)
  rw [hu] at hu'; cases hu'
  rw [hv] at hv'; cases hv'
  rw [hw]
  congr 1
  apply hlw.unique
  constructor
  · rintro x ⟨q, hN, hx⟩
    obtain ⟨y, z, hy, hz, rfl⟩ := hh.at q x hx
    exact max_le_max (hl.1 ⟨q, hN, hy⟩) (hl'.1 ⟨q, hN, hz⟩)
  · intro x hx
    apply max_le
    · refine hl.2 ?_
      rintro y ⟨q, hN, hy⟩
      have hz := Img.at?_some g q (hh.2.1 ▸ Img.at?_eq_some_in _ _ _ hy)
      exact (le_max_left _ _).trans (hx ⟨q, hN, hh.2.2 q _ _ hy hz⟩)
    · refine hl'.2 ?_
      rintro y ⟨q, hN, hy⟩
      have hz := Img.at?_some f q (hh.2.1 ▸ Img.at?_eq_some_in _ _ _ hy)
      exact (le_max_right _ _).trans (hx ⟨q, hN, hh.2.2 q _ _ hz hy⟩)

theorem IsMap2.of_same {β γ : Type} {F : α → β → γ} {a a' : Img α} {b b' : Img β} {c c' : Img γ}
    (h1 : Img.Same a a') (h2 : Img.Same b b') (h3 : Img.Same c c') (h : Img.IsMap2 F a b c) :
    Img.IsMap2 F a' b' c' := by
  refine ⟨h3.1.symm.trans (h.1.trans h1.1), h2.1.symm.trans (h.2.1.trans h1.1), ?_⟩
  intro p u v hu hv
  rw [← h3.2]
  exact h.2.2 p u v (by rw [h1.2]; exact hu) (by rw [h2.2]; exact hv)

theorem dil_sup (n : Nat) {f g h a b c : Img α} (hh : Img.IsMap2 max f g h)
    (ha : IterRel (IsDilBy N) n f a) (hb : IterRel (IsDilBy N) n g b)
    (hc : IterRel (IsDilBy N) n h c) : Img.IsMap2 max a b c := by
  induction n generalizing f g h with
  | zero => exact IsMap2.of_same ha hb hc hh
  | succ n ih =>
    obtain ⟨m, h1, h2⟩ := ha
    obtain ⟨m', h3, h4⟩ := hb
    obtain ⟨m'', h5, h6⟩ := hc
    exact ih (dil_sup_one hh h1 h3 h5) h2 h4 h6

theorem ero_inf (n : Nat) {f g h a b c : Img α} (hh : Img.IsMap2 min f g h)
    (ha : IterRel (IsEroBy N) n f a) (hb : IterRel (IsEroBy N) n g b)
    (hc : IterRel (IsEroBy N) n h c) : Img.IsMap2 min a b c :=
  dil_sup (α := αᵒᵈ) (N := fun q p => N p q) n hh ha hb hc

end lattice

/-! ### Complement -/

section inv
variable [PartialOrder α] {N : IntPoint → IntPoint → Prop}

theorem Img.IsMap.at {β : Type} {F : α → β} {a : Img α} {out : Img β} (h : Img.IsMap F a out)
    (p : IntPoint) (w : β) (hw : out.at? p = some w) : ∃ u, a.at? p = some u ∧ w = F u := by
  have hp := Img.at?_eq_some_in _ _ _ hw
  rw [h.1] at hp
  have e1 := Img.at?_some a p hp
  refine ⟨_, e1, ?_⟩
  have := h.2 p _ e1
  rw [hw] at this
  cases this; rfl

/-- An order-reversing involution exchanges dilations and erosions. -/
theorem dil_inv_one (e : α → α) (he : ∀ x y, x ≤ y → e y ≤ e x) (hi : ∀ x, e (e x) = x)
    {f f' a b : Img α} (hf : Img.IsMap e f f') (ha : IsDilBy (fun q p => N p q) f' a)
    (hb : IsEroBy N f b) : Img.IsMap e a b := by
  refine ⟨hb.1.trans (hf.1.symm.trans ha.1.symm), fun p u hu => ?_⟩
  have hp : Img.In f.dims p := by
    have := Img.at?_eq_some_in _ _ _ hu
    rwa [ha.1, hf.1] at this
  obtain ⟨u', hu', hl⟩ := ha.2 p (hf.1.symm ▸ hp)
  obtain ⟨v, hv, hg⟩ := hb.2 p hp
  rw [hu] at hu'; cases hu'
  rw [hv]; congr 1
  apply hg.unique
  constructor
  · rintro x ⟨q, hN, hx⟩
    have := hl.1 ⟨q, hN, hf.2 q x hx⟩
    have := he _ _ this
    rwa [hi] at this
  · intro x hx
    have : u ≤ e x := by
      refine hl.2 ?_
      rintro y ⟨q, hN, hy⟩
      obtain ⟨z, hz, rfl⟩ := hf.at q y hy
      exact he _ _ (hx ⟨q, hN, hz⟩)
    have := he _ _ this
    rwa [hi] at this

theorem IsMap.of_same {β : Type} {F : α → β} {a a' : Img α} {c c' : Img β}
    (h1 : Img.Same a a') (h3 : Img.Same c c') (h : Img.IsMap F a c) : Img.IsMap F a' c' :=
  ⟨h3.1.symm.trans (h.1.trans h1.1), fun p u hu => by
    rw [← h3.2]; exact h.2 p u (by rw [h1.2]; exact hu)⟩

theorem IsMap.invol (e : α → α) (hi : ∀ x, e (e x) = x) {a b : Img α} (h : Img.IsMap e a b) :
    Img.IsMap e b a :=
  ⟨h.1.symm, fun p u hu => by
    obtain ⟨v, hv, rfl⟩ := h.at p u hu
    rw [hi, hv]⟩

theorem dil_inv (e : α → α) (he : ∀ x y, x ≤ y → e y ≤ e x) (hi : ∀ x, e (e x) = x) (n : Nat)
    {f f' a b : Img α} (hf : Img.IsMap e f f') (ha : IterRel (IsDilBy (fun q p => N p q)) n f' a)
    (hb : IterRel (IsEroBy N) n f b) : Img.IsMap e a b := by
  induction n generalizing f f' with
  | zero => exact IsMap.of_same ha hb (IsMap.invol e hi hf)
  | succ n ih =>
    obtain ⟨m, h1, h2⟩ := ha
    obtain ⟨m', h3, h4⟩ := hb
    exact ih (IsMap.invol e hi (dil_inv_one e he hi hf h1 h3)) h2 h4

end inv

/-! ### Openings -/

section opening
variable [PartialOrder α] {N : IntPoint → IntPoint → Prop}

/-- Erosion then dilation, `n` times each. -/
def IsOpenBy (N : IntPoint → IntPoint → Prop) (n : Nat) (f g : Img α) : Prop :=
  ∃ t, IterRel (IsEroBy N) n f t ∧ IterRel (IsDilBy N) n t g

/-- Dilation then erosion, `n` times each. -/
def IsCloseBy (N : IntPoint → IntPoint → Prop) (n : Nat) (f g : Img α) : Prop :=
  ∃ t, IterRel (IsDilBy N) n f t ∧ IterRel (IsEroBy N) n t g

theorem iterDil_dims {n : Nat} {f g : Img α} (h : IterRel (IsDilBy N) n f g) : g.dims = f.dims :=
  IterRel.dims (fun _ _ h => isDilBy_dims h) h
theorem iterEro_dims {n : Nat} {f g : Img α} (h : IterRel (IsEroBy N) n f g) : g.dims = f.dims :=
  IterRel.dims (fun _ _ h => isEroBy_dims h) h

theorem open_dims {n : Nat} {f g : Img α} (h : IsOpenBy N n f g) : g.dims = f.dims := by
  obtain ⟨t, h1, h2⟩ := h; rw [iterDil_dims h2, iterEro_dims h1]

theorem open_antiext {n : Nat} {f g : Img α} (h : IsOpenBy N n f g) : Img.Le g f := by
  obtain ⟨t, h1, h2⟩ := h
  exact (adj_iter n (iterEro_dims h1) h2 h1).mpr (Img.Le.refl t)

theorem open_mono {n : Nat} {f g f' g' : Img α} (hle : Img.Le f f') (h : IsOpenBy N n f g)
    (h' : IsOpenBy N n f' g') : Img.Le g g' := by
  obtain ⟨t, h1, h2⟩ := h
  obtain ⟨t', h3, h4⟩ := h'
  exact dil_mono n (ero_mono n hle h1 h3) h2 h4

/-- The opening is the identity on every image below which it... a dilated image is open. -/
theorem open_of_dil {n : Nat} {t g g' : Img α} (h : IterRel (IsDilBy N) n t g)
    (h' : IsOpenBy N n g g') : Img.Same g' g := by
  obtain ⟨s, h1, h2⟩ := h'
  refine Img.Le.antisymm (open_antiext ⟨s, h1, h2⟩) ?_
  refine dil_mono n ?_ h h2
  exact (adj_iter n (iterDil_dims h).symm h h1).mp (Img.Le.refl g)

theorem open_idem {n : Nat} {f g g' : Img α} (h : IsOpenBy N n f g) (h' : IsOpenBy N n g g') :
    Img.Same g' g := by
  obtain ⟨t, h1, h2⟩ := h
  exact open_of_dil h2 h'

theorem isOpenBy_dual {n : Nat} {f g : Img α} :
    IsOpenBy (α := αᵒᵈ) (fun q p => N p q) n f g ↔ IsCloseBy (α := α) N n f g := Iff.rfl

theorem close_ext {n : Nat} {f g : Img α} (h : IsCloseBy N n f g) : Img.Le f g :=
  Img.le_dual.mp (open_antiext (α := αᵒᵈ) (N := fun q p => N p q) (n := n) h)

theorem close_mono {n : Nat} {f g f' g' : Img α} (hle : Img.Le f f') (h : IsCloseBy N n f g)
    (h' : IsCloseBy N n f' g') : Img.Le g g' := by
  obtain ⟨t, h1, h2⟩ := h
  obtain ⟨t', h3, h4⟩ := h'
  exact ero_mono n (dil_mono n hle h1 h3) h2 h4

theorem close_idem {n : Nat} {f g g' : Img α} (h : IsCloseBy N n f g) (h' : IsCloseBy N n g g') :
    Img.Same g' g :=
  open_idem (α := αᵒᵈ) (N := fun q p => N p q) (n := n) h h'

theorem iterDil_split {n k : Nat} {f g : Img α} : IterRel (IsDilBy N) (n + k) f g ↔
    ∃ m, IterRel (IsDilBy N) n f m ∧ IterRel (IsDilBy N) k m g := IterRel.add isDilBy_respects n k f g

theorem iterEro_split {n k : Nat} {f g : Img α} : IterRel (IsEroBy N) (n + k) f g ↔
    ∃ m, IterRel (IsEroBy N) n f m ∧ IterRel (IsEroBy N) k m g := IterRel.add isEroBy_respects n k f g

/-- A larger opening is below a smaller one. -/
theorem open_decreasing {n k : Nat} {f g g' : Img α} (h : IsOpenBy N n f g)
    (h' : IsOpenBy N (n + k) f g') : Img.Le g' g := by
  obtain ⟨t, h1, h2⟩ := h
  obtain ⟨t', h3, h4⟩ := h'
  obtain ⟨s, h5, h6⟩ := iterEro_split.mp h3
  obtain ⟨s', h7, h8⟩ := (show IterRel (IsDilBy N) (k + n) t' g' by rw [Nat.add_comm]; exact h4) |>
    iterDil_split.mp
  have e : Img.Same t s := IterRel.unique (fun _ _ _ _ hs a b => isEroBy_unique hs a b)
    (Img.Same.refl f) h1 h5
  refine dil_mono n ?_ h8 h2
  refine Img.Le.of_same (Img.Same.refl _) e.symm ?_
  exact open_antiext (n := k) ⟨t', h6, h7⟩

/-- The smaller opening applied to the larger one changes nothing. -/
theorem open_absorb {n k : Nat} {f g g' : Img α} (h : IsOpenBy N (n + k) f g)
    (h' : IsOpenBy N n g g') : Img.Same g' g := by
  obtain ⟨t, h1, h2⟩ := h
  obtain ⟨s, h3, h4⟩ := (show IterRel (IsDilBy N) (k + n) t g by rw [Nat.add_comm]; exact h2) |>
    iterDil_split.mp
  exact open_of_dil h4 h'

end opening

/-! ### The entry points -/

section top
variable [LinearOrder α] [OrderBot α]

theorem alloc_of_dims {a b : Img α} (h : b.dims = a.dims) (ha : a.alloc = true) : b.alloc = true := by
  unfold Img.alloc at *; rw [h]; exact ha

theorem loopOne_dil (E : Env α) (se : StrElt) (k : Nat) (a : Img α) (ha : a.alloc = true)
    (hse : SEOk a.dims se) :
    ∃ r, loopOne (fun a => execSingle E max ⊥ true se a a) k a = some r ∧
      IterRel (IsDilBy (seRel se)) k a r := by
  induction k generalizing a with
  | zero => exact ⟨a, rfl, Img.Same.refl a⟩
  | succ k ih =>
    obtain ⟨r, h1, h2⟩ := execSingle_dil E true se a a ha hse
    obtain ⟨r', h3, h4⟩ := ih r (alloc_of_dims h2.1 ha) (h2.1.symm ▸ hse)
    exact ⟨r', by simp only [loopOne, h1, Option.bind_some]; exact h3, r, h2, h4⟩

theorem loopTwo_dil (E : Env α) (se : StrElt) (k : Nat) (a b : Img α) (ha : a.alloc = true)
    (hse : SEOk a.dims se) :
    ∃ r, loopTwo (fun a b => execSingle E max ⊥ false se a b) k a b = some r ∧
      IterRel (IsDilBy (seRel se)) (k + 1) a r := by
  induction k generalizing a b with
  | zero =>
    obtain ⟨r, h1, h2⟩ := execSingle_dil E false se a b ha hse
    exact ⟨r, h1, r, h2, Img.Same.refl r⟩
  | succ k ih =>
    obtain ⟨r, h1, h2⟩ := execSingle_dil E false se a b ha hse
    obtain ⟨r', h3, h4⟩ := ih r a (alloc_of_dims h2.1 ha) (h2.1.symm ▸ hse)
    exact ⟨r', by simp only [loopTwo, h1, Option.bind_some]; exact h3, r, h2, h4⟩

theorem execMorph_dil (E : Env α) (inPl : Bool) (se : StrElt) (im out : Img α)
    (ha : im.alloc = true) (hse : SEOk im.dims se) :
    ∃ r, execMorph E max ⊥ inPl se im out = some r ∧ IterRel (IsDilBy (seRel se)) se.size im r := by
  unfold execMorph
  by_cases h0 : se.size = 0
  · rw [if_pos h0, h0]; exact ⟨im, rfl, Img.Same.refl im⟩
  rw [if_neg h0, if_neg hse.notRh]
  by_cases hs : isInplaceSafe se = true
  · rw [if_pos hs]
    obtain ⟨r, h1, h2⟩ := execSingle_dil E inPl se im out ha hse
    obtain ⟨r', h3, h4⟩ := loopOne_dil E se (se.size - 1) r (alloc_of_dims h2.1 ha) (h2.1.symm ▸ hse)
    refine ⟨r', by rw [h1, Option.bind_some]; exact h3, ?_⟩
    rw [show se.size = se.size - 1 + 1 by omega]
    exact ⟨r, h2, h4⟩
  rw [if_neg hs]
  by_cases h1 : inPl = false ∧ se.size = 1
  · rw [if_pos h1, h1.2]
    obtain ⟨r, h1, h2⟩ := execSingle_dil E false se im out ha hse
    exact ⟨r, h1, r, h2, Img.Same.refl r⟩
  rw [if_neg h1]
  simp only
  obtain ⟨r, h1, h2⟩ := execSingle_dil E false se im ⟨im.dims, E.raw⟩ ha hse
  rw [h1, Option.bind_some]
  by_cases hs1 : se.size = 1
  · rw [if_pos hs1, hs1]; exact ⟨r, rfl, r, h2, Img.Same.refl r⟩
  · rw [if_neg hs1]
    obtain ⟨r', h3, h4⟩ := loopTwo_dil E se (se.size - 2) r out (alloc_of_dims h2.1 ha)
      (h2.1.symm ▸ hse)
    refine ⟨r', h3, ?_⟩
    rw [show se.size = (se.size - 2 + 1) + 1 by omega]
    exact ⟨r, h2, h4⟩

end top

section top2
variable [LinearOrder α] [BoundedOrder α]

theorem execMorph_ero (E : Env α) (inPl : Bool) (se : StrElt) (im out : Img α)
    (ha : im.alloc = true) (hse : SEOk im.dims se) :
    ∃ r, execMorph E min ⊤ inPl se.transpose im out = some r ∧
      IterRel (IsEroBy (seRel se)) se.size im r := by
  obtain ⟨r, h1, h2⟩ := execMorph_dil (α := αᵒᵈ) E inPl se.transpose im out ha hse.transpose
  refine ⟨r, h1, ?_⟩
  rw [(C22_transpose se).2.2.2.2.1] at h2
  have : (seRel se.transpose) = fun q p => seRel se p q := by
    funext q p; exact propext (seRel_transpose se q p)
  rw [this] at h2
  exact h2

/-- The conditions under which an operation is carried out. -/
def Accepts (E : Env α) (im out : Img α) : Prop :=
  im.alloc = true ∧ out.alloc = true ∧ (out.dims = im.dims ∨ E.auto = true)

theorem checkSize_ok (E : Env α) (im out : Img α) (h : Accepts E im out) :
    ∃ o, checkSize E im out = .ok o ∧ o.dims = im.dims := by
  obtain ⟨h1, h2, h3⟩ := h
  unfold checkSize
  rw [if_neg (by rw [h1, h2]; simp)]
  by_cases hd : out.dims = im.dims
  · rw [if_pos hd]; exact ⟨out, rfl, hd⟩
  · rw [if_neg hd, if_pos (h3.resolve_left hd)]; exact ⟨_, rfl, rfl⟩

theorem checkSize_ok_iff (E : Env α) (im out o : Img α) (h : checkSize E im out = .ok o) :
    Accepts E im out ∧ o.dims = im.dims := by
  unfold checkSize at h
  split at h
  · cases h
  rename_i hal
  have hal' : im.alloc = true ∧ out.alloc = true := by
    constructor
    · cases h1 : im.alloc
      · exact absurd (Or.inl h1) hal
      · rfl
    · cases h1 : out.alloc
      · exact absurd (Or.inr h1) hal
      · rfl
  split at h
  · cases h; exact ⟨⟨hal'.1, hal'.2, Or.inl ‹_›⟩, ‹_›⟩
  split at h
  · cases h; exact ⟨⟨hal'.1, hal'.2, Or.inr ‹_›⟩, rfl⟩
  · cases h

theorem dilate_spec (E : Env α) (inPl : Bool) (se : StrElt) (im out : Img α)
    (h : Accepts E im out) (hse : SEOk im.dims se) :
    ∃ r, dilate E inPl se im out = some (.ok r) ∧ IterRel (IsDilBy (seRel se)) se.size im r := by
  obtain ⟨o, ho, hd⟩ := checkSize_ok E im out h
  obtain ⟨r, h1, h2⟩ := execMorph_dil E inPl se im o h.1 hse
  refine ⟨r, ?_, h2⟩
  unfold dilate guarded
  rw [ho]; simp only [h1]; rfl

theorem erode_spec (E : Env α) (inPl : Bool) (se : StrElt) (im out : Img α)
    (h : Accepts E im out) (hse : SEOk im.dims se) :
    ∃ r, erode E inPl se im out = some (.ok r) ∧ IterRel (IsEroBy (seRel se)) se.size im r := by
  obtain ⟨o, ho, hd⟩ := checkSize_ok E im out h
  obtain ⟨r, h1, h2⟩ := execMorph_ero E inPl se im o h.1 hse
  refine ⟨r, ?_, h2⟩
  unfold erode guarded
  rw [ho]; simp only [h1]; rfl

theorem accepts_of_dims (E : Env α) {im out : Img α} (ha : im.alloc = true)
    (hd : out.dims = im.dims) : Accepts E im out :=
  ⟨ha, alloc_of_dims hd ha, Or.inl hd⟩

theorem open_spec (E : Env α) (inPl : Bool) (se : StrElt) (im out : Img α)
    (h : Accepts E im out) (hse : SEOk im.dims se) :
    ∃ r, morphOpen E inPl se im out = some (.ok r) ∧ IsOpenBy (seRel se) se.size im r := by
  obtain ⟨o, ho, hd⟩ := checkSize_ok E im out h
  unfold morphOpen
  rw [ho]
  simp only
  by_cases hs : isInplaceSafe se = true
  · rw [if_pos hs]
    obtain ⟨t, h1, h2⟩ := erode_spec E inPl se im o (accepts_of_dims E h.1 hd) hse
    have hdt := iterEro_dims h2
    have hat := alloc_of_dims hdt h.1
    obtain ⟨r, h3, h4⟩ := dilate_spec E true se t t (accepts_of_dims E hat rfl) (hdt.symm ▸ hse)
    exact ⟨r, by rw [h1]; exact h3, t, h2, h4⟩
  · rw [if_neg hs]
    obtain ⟨t, h1, h2⟩ := erode_spec E false se im ⟨im.dims, E.raw⟩ (accepts_of_dims E h.1 rfl) hse
    have hdt := iterEro_dims h2
    have hat := alloc_of_dims hdt h.1
    obtain ⟨r, h3, h4⟩ := dilate_spec E false se t o (accepts_of_dims E hat (hd.trans hdt.symm))
      (hdt.symm ▸ hse)
    exact ⟨r, by rw [h1]; exact h3, t, h2, h4⟩

theorem close_spec (E : Env α) (inPl : Bool) (se : StrElt) (im out : Img α)
    (h : Accepts E im out) (hse : SEOk im.dims se) :
    ∃ r, morphClose E inPl se im out = some (.ok r) ∧ IsCloseBy (seRel se) se.size im r := by
  obtain ⟨o, ho, hd⟩ := checkSize_ok E im out h
  unfold morphClose
  rw [ho]
  simp only
  by_cases hs : isInplaceSafe se = true
  · rw [if_pos hs]
    obtain ⟨t, h1, h2⟩ := dilate_spec E inPl se im o (accepts_of_dims E h.1 hd) hse
    have hdt := iterDil_dims h2
    have hat := alloc_of_dims hdt h.1
    obtain ⟨r, h3, h4⟩ := erode_spec E true se t t (accepts_of_dims E hat rfl) (hdt.symm ▸ hse)
    exact ⟨r, by rw [h1]; exact h3, t, h2, h4⟩
  · rw [if_neg hs]
    obtain ⟨t, h1, h2⟩ := dilate_spec E false se im ⟨im.dims, E.raw⟩ (accepts_of_dims E h.1 rfl) hse
    have hdt := iterDil_dims h2
    have hat := alloc_of_dims hdt h.1
    obtain ⟨r, h3, h4⟩ := erode_spec E false se t o (accepts_of_dims E hat (hd.trans hdt.symm))
      (hdt.symm ▸ hse)
    exact ⟨r, by rw [h1]; exact h3, t, h2, h4⟩

end top2
end Smil
