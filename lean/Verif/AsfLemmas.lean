import Verif.GeoOpsLemmas

/-!
# Alternate sequential filters

The algebra over an arbitrary preorder, then its application to the loop of the code.
-/

namespace Smil
open StrElt

/-! ### Algebra -/

section
variable {P : Type} [Preorder P]

/-- A decreasing family of openings. -/
structure IsGran (γ : Nat → P → P) : Prop where
  mono : ∀ i, Monotone (γ i)
  le : ∀ i x, γ i x ≤ x
  idem : ∀ i x, γ i x ≤ γ i (γ i x)
  decr : ∀ i j x, i ≤ j → γ j x ≤ γ i x

/-- `a i`, then `b i`, for `n` sizes from `i` on. -/
def altSeq (a b : Nat → P → P) : Nat → Nat → P → P
  | 0, _, x => x
  | n + 1, i, x => altSeq a b n (i + 1) (b i (a i x))

theorem altSeq_last (a b : Nat → P → P) (n i : Nat) (x : P) :
    altSeq a b (n + 1) i x = b (i + n) (a (i + n) (altSeq a b n i x)) := by
  induction n generalizing i x with
  | zero => rfl
  | succ n ih =>
    show altSeq a b (n + 1) (i + 1) (b i (a i x)) = _
    rw [ih]
    show b (i + 1 + n) _ = b (i + (n + 1)) _
    rw [show i + 1 + n = i + (n + 1) by omega]
    rfl

theorem altSeq_add (a b : Nat → P → P) (n m i : Nat) (x : P) :
    altSeq a b (n + m) i x = altSeq a b m (i + n) (altSeq a b n i x) := by
  induction n generalizing i x with
  | zero => simp [altSeq]
  | succ n ih =>
    rw [show n + 1 + m = (n + m) + 1 by omega]
    show altSeq a b (n + m) (i + 1) (b i (a i x)) = _
    rw [ih, show i + 1 + n = i + (n + 1) by omega]
    rfl

theorem altSeq_mono {a b : Nat → P → P} (ha : ∀ i, Monotone (a i)) (hb : ∀ i, Monotone (b i)) (n i : Nat) :
    Monotone (altSeq a b n i) := by
  induction n generalizing i with
  | zero => intro x y h; exact h
  | succ n ih => intro x y h; exact ih (i + 1) (hb i (ha i h))

variable {γ φ : Nat → P → P}

theorem alt_up (hγ : IsGran γ) (hφ : IsGran (P := Pᵒᵈ) φ) {i j : Nat} (hij : i ≤ j) (x : P) :
    γ j (φ j x) ≤ γ i (φ i (γ j (φ j x))) :=
  (hγ.idem j _).trans ((hγ.decr i j _ hij).trans (hγ.mono i (hφ.le i (γ j (φ j x)))))

theorem alt_down (hγ : IsGran γ) (hφ : IsGran (P := Pᵒᵈ) φ) {i j : Nat} (hij : i ≤ j) (x : P) :
    γ j (φ j (γ i (φ i x))) ≤ γ j (φ j x) := by
  have hm : ∀ x y : P, x ≤ y → φ j x ≤ φ j y := fun x y h => hφ.mono j (a := y) (b := x) h
  have h1 : φ i x ≤ φ j x := hφ.decr i j x hij
  have h2 : φ j (φ j x) ≤ φ j x := hφ.idem j x
  exact hγ.mono j ((hm _ _ (hγ.le i _)).trans ((hm _ _ h1).trans h2))

theorem altSeq_down (hγ : IsGran γ) (hφ : IsGran (P := Pᵒᵈ) φ) (n i j : Nat) (hij : i + n ≤ j + 1) (x : P) :
    γ j (φ j (altSeq φ γ n i x)) ≤ γ j (φ j x) := by
  induction n with
  | zero => exact le_refl _
  | succ n ih =>
    rw [altSeq_last]
    exact (alt_down hγ hφ (by omega) _).trans (ih (by omega))

theorem altSeq_up (hγ : IsGran γ) (hφ : IsGran (P := Pᵒᵈ) φ) (n i j : Nat) (hij : i + n ≤ j + 1) (z : P) :
    γ j (φ j z) ≤ altSeq φ γ n i (γ j (φ j z)) := by
  have hm : ∀ k (x y : P), x ≤ y → φ k x ≤ φ k y := fun k x y h => hφ.mono k (a := y) (b := x) h
  induction n with
  | zero => exact le_refl _
  | succ n ih =>
    rw [altSeq_last]
    exact (alt_up hγ hφ (show i + n ≤ j by omega) z).trans (hγ.mono _ (hm _ _ _ (ih (by omega))))

/-- Closing first: the filter is idempotent. -/
theorem altSeq_idem (hγ : IsGran γ) (hφ : IsGran (P := Pᵒᵈ) φ) (n i : Nat) (x : P) :
    altSeq φ γ n i (altSeq φ γ n i x) ≤ altSeq φ γ n i x ∧ altSeq φ γ n i x ≤ altSeq φ γ n i (altSeq φ γ n i x) := by
  cases n with
  | zero => exact ⟨le_refl _, le_refl _⟩
  | succ n =>
    constructor
    · rw [altSeq_last φ γ n i (altSeq φ γ (n + 1) i x)]
      refine (altSeq_down hγ hφ n i (i + n) (by omega) _).trans ?_
      rw [altSeq_last]
      exact alt_down hγ hφ (le_refl _) _
    · rw [altSeq_last φ γ n i x]
      exact altSeq_up hγ hφ (n + 1) i (i + n) (by omega) _

theorem altSeq_absorb (hγ : IsGran γ) (hφ : IsGran (P := Pᵒᵈ) φ) (n m i : Nat) (x : P) :
    altSeq φ γ (n + m) i (altSeq φ γ n i x) ≤ altSeq φ γ (n + m) i x ∧
    altSeq φ γ (n + m) i x ≤ altSeq φ γ (n + m) i (altSeq φ γ n i x) := by
  have hm := altSeq_mono (fun i => show Monotone (φ i) from fun x y h => hφ.mono i (a := y) (b := x) h)
    hγ.mono m (i + n)
  rw [altSeq_add, altSeq_add]
  exact ⟨hm (altSeq_idem hγ hφ n i x).1, hm (altSeq_idem hγ hφ n i x).2⟩

theorem altSeq_upper (hγ : IsGran γ) (hφ : IsGran (P := Pᵒᵈ) φ) (n i j : Nat) (hij : i + n ≤ j + 1) (x : P) :
    altSeq φ γ n i x ≤ φ j x := by
  have hm : ∀ k (x y : P), x ≤ y → φ k x ≤ φ k y := fun k x y h => hφ.mono k (a := y) (b := x) h
  induction n with
  | zero => exact hφ.le j x
  | succ n ih =>
    rw [altSeq_last]
    have h1 : φ (i + n) (φ j x) ≤ φ j (φ j x) := hφ.decr (i + n) j _ (by omega)
    have h2 : φ j (φ j x) ≤ φ j x := hφ.idem j x
    exact (hγ.le _ _).trans ((hm _ _ _ (ih (by omega))).trans (h1.trans h2))

theorem altSeq_lower (hγ : IsGran γ) (hφ : IsGran (P := Pᵒᵈ) φ) (n i j : Nat) (hij : i + n ≤ j + 1) (x : P) :
    γ j x ≤ altSeq φ γ n i x := by
  induction n with
  | zero => exact hγ.le j x
  | succ n ih =>
    rw [altSeq_last]
    have h1 : altSeq φ γ n i x ≤ φ (i + n) (altSeq φ γ n i x) := hφ.le (i + n) _
    exact (hγ.idem j x).trans ((hγ.decr (i + n) j _ (by omega)).trans (hγ.mono _ ((ih (by omega)).trans h1)))

/-- What is proved of the filters `ψ n`. -/
structure AltLaws (γ φ ψ : Nat → P → P) : Prop where
  mono : ∀ n, Monotone (ψ n)
  absorb : ∀ n m x, n ≤ m → ψ m (ψ n x) ≤ ψ m x ∧ ψ m x ≤ ψ m (ψ n x)
  idem : ∀ n x, ψ n (ψ n x) ≤ ψ n x ∧ ψ n x ≤ ψ n (ψ n x)
  lower : ∀ n x, γ n x ≤ ψ n x
  upper : ∀ n x, ψ n x ≤ φ n x

theorem altLaws_close (hγ : IsGran γ) (hφ : IsGran (P := Pᵒᵈ) φ) : AltLaws γ φ fun n => altSeq φ γ n 1 where
  mono := fun n => altSeq_mono (P := P) (a := φ) (b := γ)
    (fun i (x : P) (y : P) h => hφ.mono i (a := y) (b := x) h) hγ.mono n 1
  absorb := fun n m x hnm => by
    obtain ⟨k, rfl⟩ := Nat.exists_eq_add_of_le hnm
    exact altSeq_absorb hγ hφ n k 1 x
  idem := fun n x => altSeq_idem hγ hφ n 1 x
  lower := fun n x => altSeq_lower hγ hφ n 1 n (by omega) x
  upper := fun n x => altSeq_upper hγ hφ n 1 n (by omega) x

theorem IsGran.dd (hγ : IsGran γ) : IsGran (P := Pᵒᵈᵒᵈ) γ :=
  ⟨fun i (a : P) (b : P) h => hγ.mono i (a := a) (b := b) h, hγ.le, hγ.idem, hγ.decr⟩

theorem altLaws_open (hγ : IsGran γ) (hφ : IsGran (P := Pᵒᵈ) φ) : AltLaws γ φ fun n => altSeq γ φ n 1 := by
  have h := altLaws_close (P := Pᵒᵈ) (γ := φ) (φ := γ) hφ hγ.dd
  exact ⟨fun n x y hxy => h.mono n (a := y) (b := x) hxy, fun n m x hnm => (h.absorb n m x hnm).symm,
    fun n x => (h.idem n x).symm, fun n x => h.upper n x, fun n x => h.lower n x⟩

end

/-! ### Images -/

section
variable {α : Type}

/-- The images of one size. -/
def Sized (α : Type) (D : Dims) : Type := { f : Img α // f.dims = D }

instance [LinearOrder α] (D : Dims) : Preorder (Sized α D) where
  le f g := Img.Le f.1 g.1
  le_refl f := Img.Le.refl f.1
  le_trans _ _ _ h h' := h.trans h'

/-- A family of filters of images, given by relations: for each size and each image of the domain a
result, unique up to the order. -/
structure ImgGran (le : Img α → Img α → Prop) (D : Dims) (G : Nat → Img α → Img α → Prop) : Prop where
  total : ∀ i f, f.dims = D → ∃ g, G i f g
  dims : ∀ i f g, f.dims = D → G i f g → g.dims = D
  mono : ∀ i f f' g g', f.dims = D → f'.dims = D → le f f' → G i f g → G i f' g' → le g g'
  below : ∀ i f g, f.dims = D → G i f g → le g f
  idem : ∀ i f g g', f.dims = D → G i f g → G i g g' → le g g'
  decr : ∀ i j f g g', f.dims = D → i ≤ j → G i f g → G j f g' → le g' g

/-- A function that computes the filter. -/
noncomputable def ImgGran.fn {le : Img α → Img α → Prop} {D : Dims} {G : Nat → Img α → Img α → Prop}
    (h : ImgGran le D G) (i : Nat) (x : Sized α D) : Sized α D :=
  ⟨(h.total i x.1 x.2).choose, h.dims i x.1 _ x.2 (h.total i x.1 x.2).choose_spec⟩

theorem ImgGran.fn_spec {le : Img α → Img α → Prop} {D : Dims} {G : Nat → Img α → Img α → Prop}
    (h : ImgGran le D G) (i : Nat) (x : Sized α D) : G i x.1 (h.fn i x).1 :=
  (h.total i x.1 x.2).choose_spec

variable [LinearOrder α] {D : Dims} {G H : Nat → Img α → Img α → Prop}

theorem ImgGran.gran (h : ImgGran Img.Le D G) : IsGran h.fn where
  mono := fun i x y hxy => h.mono i x.1 y.1 _ _ x.2 y.2 hxy (h.fn_spec i x) (h.fn_spec i y)
  le := fun i x => h.below i x.1 _ x.2 (h.fn_spec i x)
  idem := fun i x => h.idem i x.1 _ _ x.2 (h.fn_spec i x) (h.fn_spec i _)
  decr := fun i j x hij => h.decr i j x.1 _ _ x.2 hij (h.fn_spec i x) (h.fn_spec j x)

theorem ImgGran.cogran (h : ImgGran (fun f g => Img.Le g f) D H) :
    IsGran (P := (Sized α D)ᵒᵈ) h.fn where
  mono := fun i x y hxy => h.mono i _ _ _ _ (Subtype.property (p := fun f : Img α => f.dims = D) x)
    (Subtype.property (p := fun f : Img α => f.dims = D) y) hxy (h.fn_spec i x) (h.fn_spec i y)
  le := fun i x => h.below i _ _ (Subtype.property (p := fun f : Img α => f.dims = D) x) (h.fn_spec i x)
  idem := fun i x => h.idem i _ _ _ (Subtype.property (p := fun f : Img α => f.dims = D) x) (h.fn_spec i x)
    (h.fn_spec i _)
  decr := fun i j x hij => h.decr i j _ _ _ (Subtype.property (p := fun f : Img α => f.dims = D) x) hij
    (h.fn_spec i x) (h.fn_spec j x)

omit [LinearOrder α] in
/-- The loop of the code computes the composition of the two families. -/
theorem asfLoop_alt {le le' : Img α → Img α → Prop} {first second : StrElt → Img α → Img α → Option (Except Int (Img α))}
    {se : StrElt} (hG : ImgGran le D G) (hH : ImgGran le' D H)
    (hle : ∀ a b, le a b → le b a → Img.Same a b) (hle' : ∀ a b, le' a b → le' b a → Img.Same a b)
    (hr : ∀ a, le a a) (hr' : ∀ a, le' a a) (hsame : ∀ a b c, Img.Same a b → le b c → le a c)
    (hsame' : ∀ a b c, Img.Same a b → le' b c → le' a c)
    (h1 : ∀ i a o, a.dims = D → o.dims = D → ∃ b, first (se.resize i) a o = some (.ok b) ∧ G i a b)
    (h2 : ∀ i a o, a.dims = D → o.dims = D → ∃ b, second (se.resize i) a o = some (.ok b) ∧ H i a b) (n : Nat) :
    ∀ (i : Nat) (a o : Img α) (x : Sized α D), Img.Same a x.1 → o.dims = D →
      ∃ r, asfLoop first second se n i a o = some (.ok r) ∧ Img.Same r (altSeq hG.fn hH.fn n i x).1 := by
  have key : ∀ {le : Img α → Img α → Prop} {G : Nat → Img α → Img α → Prop} (hG : ImgGran le D G)
      (_ : ∀ a b, le a b → le b a → Img.Same a b) (_ : ∀ a, le a a)
      (_ : ∀ a b c, Img.Same a b → le b c → le a c) (i : Nat) (a b : Img α) (x : Sized α D),
      Img.Same a x.1 → G i a b → Img.Same b (hG.fn i x).1 := by
    intro le G hG hle hr hsame i a b x hax hab
    have had : a.dims = D := hax.1.trans x.2
    exact hle _ _ (hG.mono i a x.1 _ _ had x.2 (hsame _ _ _ hax (hr _)) hab (hG.fn_spec i x))
      (hG.mono i x.1 a _ _ x.2 had (hsame _ _ _ hax.symm (hr _)) (hG.fn_spec i x) hab)
  induction n with
  | zero => intro i a o x hax _; exact ⟨a, rfl, hax⟩
  | succ n ih =>
    intro i a o x hax ho
    have had : a.dims = D := hax.1.trans x.2
    obtain ⟨b, e1, e2⟩ := h1 i a o had ho
    have hb := key hG hle hr hsame i a b x hax e2
    have hbd : b.dims = D := hG.dims i a b had e2
    obtain ⟨c, e3, e4⟩ := h2 i b a hbd had
    have hc := key hH hle' hr' hsame' i b c _ hb e4
    obtain ⟨r, e5, e6⟩ := ih (i + 1) c b _ hc hbd
    refine ⟨r, ?_, e6⟩
    unfold asfLoop
    simp only [andThen, e1, e3, Option.bind_some, e5]


end

/-! ### Specification of a sequential filter -/

/-- The programs `P` compute, for the elements `se(n)` and on the domain `D`, increasing and idempotent
filters such that the larger ones absorb the smaller ones, between the openings `opn` and the closings
`cls` of the same size. The buffers `out` and the environments `E` may differ from call to call. -/
structure IsSeqFilter [LE α] (D : Dims) (se : StrElt)
    (opn cls P : Env α → StrElt → Img α → Img α → Option (Except Int (Img α))) : Prop where
  total : ∀ E n im out, im.dims = D → Accepts E im out →
    ∃ r, P E (se.resize n) im out = some (.ok r) ∧ r.dims = D
  increasing : ∀ E E' n im im' out out' r r', im.dims = D → Img.Le im im' →
    P E (se.resize n) im out = some (.ok r) → P E' (se.resize n) im' out' = some (.ok r') → Img.Le r r'
  idempotent : ∀ E E' n im out out' r s, im.dims = D → P E (se.resize n) im out = some (.ok r) →
    P E' (se.resize n) r out' = some (.ok s) → Img.Same s r
  absorbs : ∀ E E' E'' n m im out out' out'' r s s', im.dims = D → n ≤ m →
    P E (se.resize n) im out = some (.ok r) → P E' (se.resize m) r out' = some (.ok s) →
    P E'' (se.resize m) im out'' = some (.ok s') → Img.Same s s'
  lower : ∀ E E' n im out out' r g, im.dims = D → P E (se.resize n) im out = some (.ok r) →
    opn E' (se.resize n) im out' = some (.ok g) → Img.Le g r
  upper : ∀ E E' n im out out' r g, im.dims = D → P E (se.resize n) im out = some (.ok r) →
    cls E' (se.resize n) im out' = some (.ok g) → Img.Le r g
  zero : ∀ E im out r, im.dims = D → P E (se.resize 0) im out = some (.ok r) → Img.Same r im

/-- From laws on functions to laws on programs. -/
theorem seqFilter_of [LinearOrder α] {D : Dims} {se : StrElt}
    {opn cls P : Env α → StrElt → Img α → Img α → Option (Except Int (Img α))}
    {γ φ ψ : Nat → Sized α D → Sized α D} (hl : AltLaws γ φ ψ) (h0 : ∀ x, ψ 0 x = x)
    (ht : ∀ E n im out, im.dims = D → Accepts E im out → ∃ r, P E (se.resize n) im out = some (.ok r))
    (hP : ∀ E n im out r (h : im.dims = D), P E (se.resize n) im out = some (.ok r) →
      Img.Same r (ψ n ⟨im, h⟩).1)
    (hγ : ∀ E n im out r (h : im.dims = D), opn E (se.resize n) im out = some (.ok r) →
      Img.Same r (γ n ⟨im, h⟩).1)
    (hφ : ∀ E n im out r (h : im.dims = D), cls E (se.resize n) im out = some (.ok r) →
      Img.Same r (φ n ⟨im, h⟩).1) : IsSeqFilter D se opn cls P := by
  have hm : ∀ n (x y : Sized α D), Img.Same x.1 y.1 → Img.Same (ψ n x).1 (ψ n y).1 := fun n x y h =>
    Img.Le.antisymm (hl.mono n (a := x) (b := y) h.le) (hl.mono n (a := y) (b := x) h.symm.le)
  have hd : ∀ E n im out r (h : im.dims = D), P E (se.resize n) im out = some (.ok r) → r.dims = D :=
    fun E n im out r h hp => (hP E n im out r h hp).1.trans (ψ n ⟨im, h⟩).2
  refine ⟨?_, ?_, ?_, ?_, ?_, ?_, ?_⟩
  · intro E n im out h ha
    obtain ⟨r, hr⟩ := ht E n im out h ha
    exact ⟨r, hr, hd E n im out r h hr⟩
  · intro E E' n im im' out out' r r' h hle h1 h2
    have h' : im'.dims = D := hle.1.symm.trans h
    exact Img.Le.of_same (hP _ _ _ _ _ h h1).symm (hP _ _ _ _ _ h' h2).symm
      (hl.mono n (a := ⟨im, h⟩) (b := ⟨im', h'⟩) hle)
  · intro E E' n im out out' r s h h1 h2
    have hr := hP _ _ _ _ _ h h1
    have hs := hP _ _ _ _ _ (hd _ _ _ _ _ h h1) h2
    have hi := hl.idem n ⟨im, h⟩
    exact hs.trans ((hm n _ _ hr).trans ((Img.Le.antisymm hi.1 hi.2).trans hr.symm))
  · intro E E' E'' n m im out out' out'' r s s' h hnm h1 h2 h3
    have hr := hP _ _ _ _ _ h h1
    have hs := hP _ _ _ _ _ (hd _ _ _ _ _ h h1) h2
    have hs' := hP _ _ _ _ _ h h3
    have hi := hl.absorb n m ⟨im, h⟩ hnm
    exact hs.trans ((hm m _ _ hr).trans ((Img.Le.antisymm hi.1 hi.2).trans hs'.symm))
  · intro E E' n im out out' r g h h1 h2
    exact Img.Le.of_same (hγ _ _ _ _ _ h h2).symm (hP _ _ _ _ _ h h1).symm (hl.lower n ⟨im, h⟩)
  · intro E E' n im out out' r g h h1 h2
    exact Img.Le.of_same (hP _ _ _ _ _ h h1).symm (hφ _ _ _ _ _ h h2).symm (hl.upper n ⟨im, h⟩)
  · intro E im out r h h1
    have := hP _ _ _ _ _ h h1
    have e : (ψ 0 ⟨im, h⟩).1 = im := congrArg Subtype.val (h0 ⟨im, h⟩)
    rw [e] at this
    exact this

/-! ### The four families -/

section
variable [LinearOrder α] [BoundedOrder α] {D : Dims} {se : StrElt}

theorem gran_open (E : Env α) (hD : D.count ≠ 0) (hse : SEOk D se) :
    ImgGran Img.Le D fun i (f g : Img α) => IsOpenBy (seRel se) i f g where
  total := fun i f hf => by
    have hal : f.alloc = true := by unfold Img.alloc; rw [hf]; simpa using hD
    obtain ⟨r, _, h⟩ := open_spec E false (se.resize i) f f (accepts_of_dims E hal rfl) (hf.symm ▸ hse.resize i)
    exact ⟨r, h⟩
  dims := fun i f g hf h => (open_dims h).trans hf
  mono := fun i f f' g g' _ _ hle h h' => open_mono hle h h'
  below := fun i f g _ h => open_antiext h
  idem := fun i f g g' _ h h' => (open_idem h h').symm.le
  decr := fun i j f g g' _ hij h h' => by
    obtain ⟨k, rfl⟩ := Nat.exists_eq_add_of_le hij
    exact open_decreasing h h'

theorem gran_close (E : Env α) (hD : D.count ≠ 0) (hse : SEOk D se) :
    ImgGran (fun a b => Img.Le b a) D fun i (f g : Img α) => IsCloseBy (seRel se) i f g where
  total := fun i f hf => by
    have hal : f.alloc = true := by unfold Img.alloc; rw [hf]; simpa using hD
    obtain ⟨r, _, h⟩ := close_spec E false (se.resize i) f f (accepts_of_dims E hal rfl) (hf.symm ▸ hse.resize i)
    exact ⟨r, h⟩
  dims := fun i f g hf h => (open_dims (α := αᵒᵈ) (N := fun q p => seRel se p q) (n := i) h).trans hf
  mono := fun i f f' g g' _ _ hle h h' => close_mono hle h' h
  below := fun i f g _ h => close_ext h
  idem := fun i f g g' _ h h' => (close_idem h h').le
  decr := fun i j f g g' _ hij h h' => by
    obtain ⟨k, rfl⟩ := Nat.exists_eq_add_of_le hij
    exact Img.le_dual.mp (open_decreasing (α := αᵒᵈ) (N := fun q p => seRel se p q) (n := i) (k := k) h h')

end

/-- Reconstruction from the erosion of size `n`. -/
def IsRecOpen [LinearOrder α] (N : IntPoint → IntPoint → Prop) (n : Nat) (f r : Img α) : Prop :=
  ∃ m, IterRel (IsEroBy N) n f m ∧ IsBuild N m f r

section
variable [LinearOrder α] {N : IntPoint → IntPoint → Prop}

theorem recOpen_dims {n : Nat} {f r : Img α} (h : IsRecOpen N n f r) : r.dims = f.dims := by
  obtain ⟨m, h1, h2⟩ := h
  exact h2.2.1.trans (iterEro_dims h1)

theorem recOpen_mono {n : Nat} {f r f' r' : Img α} (hle : Img.Le f f') (h : IsRecOpen N n f r)
    (h' : IsRecOpen N n f' r') : Img.Le r r' := by
  obtain ⟨m, h1, h2⟩ := h
  obtain ⟨m', h3, h4⟩ := h'
  exact h2.mono (fun _ _ h => h) (ero_mono _ hle h1 h3) hle h4

theorem recOpen_le {n : Nat} {f r : Img α} (h : IsRecOpen N n f r) : Img.Le r f := by
  obtain ⟨m, _, h2⟩ := h
  exact h2.le_mask

theorem recOpen_idem (hrefl : ∀ p, N p p) {n : Nat} {f r r' : Img α} (h : IsRecOpen N n f r)
    (h' : IsRecOpen N n r r') : Img.Le r r' := by
  obtain ⟨m, h1, h2⟩ := h
  have hdm : m.dims = f.dims := iterEro_dims h1
  have hdr : r.dims = f.dims := h2.2.1.trans hdm
  obtain ⟨m', h3, h4⟩ := h'
  refine ⟨(h4.2.1.trans (iterEro_dims h3)).symm, fun p u v hu hv => ?_⟩
  have key : ∀ p, Carried N m f u p → Carried N m' r u p := by
    intro p hc
    induction hc with
    | @base q a b ha hb' hva hvb =>
      have hqin : Img.In f.dims q := Img.at?_eq_some_in _ _ _ hb'
      have hrq := Img.at?_some r q (hdr.symm ▸ hqin)
      have hmq := Img.at?_some m' q (by rw [iterEro_dims h3, hdr]; exact hqin)
      refine .base hmq hrq ?_ ((h2.at hrq).2 (.base ha hb' hva hvb))
      refine ero_glb _ h3 hmq fun s c hpath hc => ?_
      rw [hdr] at hpath
      refine (h2.at hc).2 (window_carried n hpath (.base ha hb' hva hvb) fun k hk y d hy hd => ?_)
      exact hva.trans (ero_window hrefl _ h1 hk hy (Img.at?_eq_some_in _ _ _ hd) ha hd)
    | @step q p b hc hn hb' hvb ih =>
      have hin : Img.In f.dims p := Img.at?_eq_some_in _ _ _ hb'
      have hrp := Img.at?_some r p (hdr.symm ▸ hin)
      exact .step ih hn hrp ((h2.at hrp).2 (Carried.step hc hn hb' hvb))
  exact (h4.at hv).2 (key p (h2.at hu).1)

/-- With the origin, a larger erosion is below a smaller one. -/
theorem iterEro_decr (hrefl : ∀ p, N p p) {n k : Nat} {f m m' : Img α} (h : IterRel (IsEroBy N) n f m)
    (h' : IterRel (IsEroBy N) (n + k) f m') : Img.Le m' m := by
  obtain ⟨s, h1, h2⟩ := iterEro_split.mp h'
  have e : Img.Same s m := IterRel.unique (fun _ _ _ _ hs a b => isEroBy_unique hs a b) (Img.Same.refl f) h1 h
  refine Img.Le.of_same (Img.Same.refl _) e ?_
  refine ⟨iterEro_dims h2, fun p u v hu hv => ?_⟩
  exact ero_window hrefl k h2 (k := 0) (Nat.zero_le _) rfl (Img.at?_eq_some_in _ _ _ hv) hu hv

theorem recOpen_decr (hrefl : ∀ p, N p p) {n k : Nat} {f r r' : Img α} (h : IsRecOpen N n f r)
    (h' : IsRecOpen N (n + k) f r') : Img.Le r' r := by
  obtain ⟨m, h1, h2⟩ := h
  obtain ⟨m', h3, h4⟩ := h'
  exact h4.mono (fun _ _ h => h) (iterEro_decr hrefl h1 h3) (Img.Le.refl f) h2

end

section
variable {t : PT} {D : Dims} {se : StrElt}

theorem buildOpen_spec (hs : t.signed = false) (hb : t.bits ≤ 64) (E : Env (Px t)) (hse : SEOk D se) (n : Nat)
    (im out : Img (Px t)) (hd : im.dims = D) (h : Accepts E im out) :
    ∃ r, buildOpen E false (se.resize n) im out = some (.ok r) := by
  obtain ⟨o, ho, hod⟩ := checkSize_ok E im out h
  obtain ⟨m, h1, h2⟩ := erode_spec E false (se.resize n) im ⟨im.dims, E.raw⟩ (accepts_of_dims E h.1 rfl)
    (hd.symm ▸ hse.resize n)
  have hdm := iterEro_dims h2
  obtain ⟨r, h3, _⟩ := build_spec hs hb E (se.resize n) m im o
    ⟨alloc_of_dims hdm h.1, alloc_of_dims hod h.1, hdm.symm, Or.inl (hod.trans hdm.symm)⟩
  refine ⟨r, ?_⟩
  unfold buildOpen
  rw [ho]
  simp only [andThen, h1, Option.bind_some]
  exact h3

theorem buildClose_spec (hs : t.signed = false) (hb : t.bits ≤ 64) (E : Env (Px t)) (hse : SEOk D se) (n : Nat)
    (im out : Img (Px t)) (hd : im.dims = D) (h : Accepts E im out) :
    ∃ r, buildClose E false (se.resize n) im out = some (.ok r) := by
  obtain ⟨o, ho, hod⟩ := checkSize_ok E im out h
  obtain ⟨m, h1, h2⟩ := dilate_spec E false (se.resize n) im ⟨im.dims, E.raw⟩ (accepts_of_dims E h.1 rfl)
    (hd.symm ▸ hse.resize n)
  have hdm := iterDil_dims h2
  obtain ⟨r, h3, _⟩ := dualBuild_spec hs hb E (se.resize n) m im o
    ⟨alloc_of_dims hdm h.1, alloc_of_dims hod h.1, hdm.symm, Or.inl (hod.trans hdm.symm)⟩
  refine ⟨r, ?_⟩
  unfold buildClose
  rw [ho]
  simp only [andThen, h1, Option.bind_some]
  exact h3

theorem gran_recOpen (hs : t.signed = false) (hb : t.bits ≤ 64) (E : Env (Px t)) (hD : D.count ≠ 0) (hse : SEOk D se)
    (h0 : ⟨0, 0, 0⟩ ∈ se.points) :
    ImgGran Img.Le D fun i (f g : Img (Px t)) => IsRecOpen (seRel se) i f g where
  total := fun i f hf => by
    have hal : f.alloc = true := by unfold Img.alloc; rw [hf]; simpa using hD
    obtain ⟨r, h⟩ := buildOpen_spec hs hb E hse i f f hf (accepts_of_dims E hal rfl)
    exact ⟨r, buildOpen_rel hs hb (hf.symm ▸ hse.resize i) h⟩
  dims := fun i f g hf h => (recOpen_dims h).trans hf
  mono := fun i f f' g g' _ _ hle h h' => recOpen_mono hle h h'
  below := fun i f g _ h => recOpen_le h
  idem := fun i f g g' _ h h' => recOpen_idem (seRel_refl se h0) h h'
  decr := fun i j f g g' _ hij h h' => by
    obtain ⟨k, rfl⟩ := Nat.exists_eq_add_of_le hij
    exact recOpen_decr (seRel_refl se h0) h h'

theorem buildClose_rel (hs : t.signed = false) (hb : t.bits ≤ 64) (hsym : ∀ p q, seRel se p q → seRel se q p)
    {E : Env (Px t)} {im out r : Img (Px t)} (hse : SEOk im.dims se)
    (h : buildClose E false se im out = some (.ok r)) : IsRecOpen (α := (Px t)ᵒᵈ) (seRel se) se.size im r := by
  obtain ⟨_, m, h1, h2⟩ := C37_buildClose_partial hs hb hse h
  refine ⟨m, ?_, h2⟩
  have e : seRel se = fun q p => seRel se p q := by
    funext q p; exact propext ⟨hsym q p, hsym p q⟩
  rw [e]
  exact h1

theorem gran_recClose (hs : t.signed = false) (hb : t.bits ≤ 64) (E : Env (Px t)) (hD : D.count ≠ 0) (hse : SEOk D se)
    (h0 : ⟨0, 0, 0⟩ ∈ se.points) (hsym : ∀ p q, seRel se p q → seRel se q p) :
    ImgGran (fun a b => Img.Le b a) D
      fun i (f g : Img (Px t)) => IsRecOpen (α := (Px t)ᵒᵈ) (seRel se) i f g where
  total := fun i f hf => by
    have hal : f.alloc = true := by unfold Img.alloc; rw [hf]; simpa using hD
    obtain ⟨r, h⟩ := buildClose_spec hs hb E hse i f f hf (accepts_of_dims E hal rfl)
    exact ⟨r, buildClose_rel (se := se.resize i) hs hb hsym (hf.symm ▸ hse.resize i) h⟩
  dims := fun i f g hf h => (recOpen_dims (α := (Px t)ᵒᵈ) h).trans hf
  mono := fun i f f' g g' _ _ hle h h' =>
    Img.le_dual.mp (recOpen_mono (α := (Px t)ᵒᵈ) (Img.le_dual.mpr hle) h h')
  below := fun i f g _ h => Img.le_dual.mp (recOpen_le (α := (Px t)ᵒᵈ) h)
  idem := fun i f g g' _ h h' => Img.le_dual.mp (recOpen_idem (α := (Px t)ᵒᵈ) (seRel_refl se h0) h h')
  decr := fun i j f g g' _ hij h h' => by
    obtain ⟨k, rfl⟩ := Nat.exists_eq_add_of_le hij
    exact Img.le_dual.mp (recOpen_decr (α := (Px t)ᵒᵈ) (seRel_refl se h0) h h')

end

end Smil
