import Verif.PropsImageOps
import Verif.PropsTransform
import Verif.PropsCompositeSE
import Verif.PropsBuild
import Verif.PropsHitOrMiss
import Verif.PropsDualClose
import Verif.PropsResize

/-!
# Properties of the variants of operators: one image, lists of elements, the size of the output
-/

namespace Smil

/-! ### C11: `sub` and `inv` of images -/

section
variable {t : PT}

/-- **C11 for `sub`** on unsigned images: the difference clamped, at each pixel, for every aliasing of the three images and every schedule. -/
theorem C11_sub (ht : t.signed = false) (auto : Bool) (a b o : Nat)
    (order : Nat → List Nat) (ho : IsSchedule order) (S : Store (Px t)) (hS : StoreOK S)
    (hal : ∀ c ∈ [a, b, o], (S c).allocated = true)
    (hb : (S b).dims = (S a).dims) (hod : (S o).dims = (S a).dims)
    (fa fb : Nat → Px t) (n : Nat) (hn : n = (S a).dims.count)
    (hfa : ∀ i < n, pixelAt S a i = some (fa i)) (hfb : ∀ i < n, pixelAt S b i = some (fb i)) :
    ∃ S', imSub auto a b o order S = some (.ok, S') ∧
      (∀ i < n, ∃ v, pixelAt S' o i = some v ∧ v.val = clampSpec t.lo t.hi ((fa i).val - (fb i).val)) ∧
      ∀ c, c ≠ o → S' c = S c := by
  choose g hg hg' using fun i => C06_sub_unsigned ht (fa i) (fb i)
  obtain ⟨S', e, h1, -, -, -, h2⟩ := C11_pixelwise auto (lift2 kSub) a [b] o order ho S hS
    (fun c hc => hal c (by simpa using hc))
    (fun c hc => by
      simp only [List.cons_append, List.nil_append, List.mem_cons, List.not_mem_nil, or_false] at hc
      rcases hc with rfl | rfl
      · exact hb
      · exact hod) g
    (fun i hi => ⟨[fa i, fb i], by simp [hfa i (hn ▸ hi), hfb i (hn ▸ hi)], hg i⟩)
  exact ⟨S', e, fun i hi => ⟨g i, h1 i (hn ▸ hi), hg' i⟩, h2⟩

/-- **C11 for `inv`**: the values are reflected, at each pixel, in place or not, for every schedule. -/
theorem C11_inv (hs : t.signed = false ∨ t.bits ≤ 16) (auto : Bool) (a o : Nat)
    (order : Nat → List Nat) (ho : IsSchedule order) (S : Store (Px t)) (hS : StoreOK S)
    (hal : ∀ c ∈ [a, o], (S c).allocated = true) (hod : (S o).dims = (S a).dims)
    (fa : Nat → Px t) (n : Nat) (hn : n = (S a).dims.count) (hfa : ∀ i < n, pixelAt S a i = some (fa i)) :
    ∃ S', imInv auto a o order S = some (.ok, S') ∧
      (∀ i < n, ∃ v, pixelAt S' o i = some v ∧ v.val = t.hi + t.lo - (fa i).val) ∧ StoreOK S' ∧
      (S' o).allocated = true ∧ (S' o).dims = (S o).dims ∧ ∀ c, c ≠ o → S' c = S c := by
  obtain ⟨S', e, h1, h2, h3, h4, h5⟩ := C11_pixelwise auto (lift1 kInv) a [] o order ho S hS
    (fun c hc => hal c (by simpa using hc))
    (fun c hc => by
      simp only [List.nil_append, List.mem_cons, List.not_mem_nil, or_false] at hc
      rw [hc, hod]) _
    (fun i hi => ⟨[fa i], by simp [hfa i (hn ▸ hi)], kInv_eq hs (fa i)⟩)
  exact ⟨S', e, fun i hi => ⟨_, h1 i (hn ▸ hi), rfl⟩, h4, h3, h2, h5⟩

/-- **C11, `inv` twice in place** gives the image back. -/
theorem C11_inv_inv (hs : t.signed = false ∨ t.bits ≤ 16) (auto : Bool) (a : Nat)
    (order : Nat → List Nat) (ho : IsSchedule order) (S : Store (Px t)) (hS : StoreOK S)
    (hal : (S a).allocated = true) (fa : Nat → Px t) (hfa : ∀ i < (S a).dims.count, pixelAt S a i = some (fa i)) :
    ∃ S' S'', imInv auto a a order S = some (.ok, S') ∧ imInv auto a a order S' = some (.ok, S'') ∧
      (∀ i < (S a).dims.count, pixelAt S'' a i = pixelAt S a i) ∧ ∀ c, c ≠ a → S'' c = S c := by
  obtain ⟨S', e, h1, h2, h3, h4, h5⟩ := C11_inv hs auto a a order ho S hS (fun c hc => by simp at hc; rw [hc]; exact hal) rfl fa _ rfl hfa
  choose g hg hg' using h1
  obtain ⟨S'', e', k1, k2, k3, k4, k5⟩ := C11_inv hs auto a a order ho S' h2 (fun c hc => by simp at hc; rw [hc]; exact h3) rfl
    (fun i => if hi : i < (S a).dims.count then g i hi else fa i) _ rfl (fun i hi => by rw [h4] at hi; rw [dif_pos hi]; exact hg i hi)
  refine ⟨S', S'', e, e', fun i hi => ?_, fun c hc => by rw [k5 c hc, h5 c hc]⟩
  obtain ⟨v, v1, v2⟩ := k1 i (by rw [h4]; exact hi)
  rw [v1, hfa i hi, Option.some.injEq]
  rw [dif_pos hi, hg' i hi] at v2
  apply Px.ext
  omega

end

/-- An image minus another one, then inverted in place. -/
example :
    let S : Store (Px UINT8) := fun a =>
      ⟨⟨3, 1, 1⟩, true, if a = 0 then [some ⟨7, by decide, by decide⟩, some ⟨200, by decide, by decide⟩, some ⟨1, by decide, by decide⟩]
        else [some ⟨9, by decide, by decide⟩, some ⟨50, by decide, by decide⟩, some ⟨1, by decide, by decide⟩]⟩
    ((imSub true 0 1 0 List.range S).bind fun r => (imInv true 0 0 List.range r.2).map
      fun r => ((r.2 0).buf.map fun p => p.map Px.val)) = some [some 255, some 105, some 255] := by
  decide

/-! ### C20: one image -/

section
variable {α : Type}

/-- **C20, one image**: the flips of an image onto itself mirror it, and twice give it back. -/
theorem C20_flip_inplace (E : Env α) (im : Img α) (h : im.alloc = true) :
    (∃ o o', vertFlipIn E im = some (.ok o) ∧ ReadsAt (mirrorY im.dims) im o ∧ vertFlipIn E o = some (.ok o') ∧ o'.Same im) ∧
    (∃ o o', horizFlipIn E im = some (.ok o) ∧ ReadsAt (mirrorX im.dims) im o ∧ horizFlipIn E o = some (.ok o') ∧ o'.Same im) := by
  constructor
  · obtain ⟨o, h1, h2⟩ := C20_vertFlip E im im ⟨h, h, .inl rfl⟩
    obtain ⟨o', h3, _⟩ := C20_vertFlip E o o ⟨by unfold Img.alloc; rw [h2.1]; exact h, by unfold Img.alloc; rw [h2.1]; exact h, .inl rfl⟩
    exact ⟨o, o', h1, h2, h3, C20_vertFlip_involutive E im im o o o' h1 h3⟩
  · obtain ⟨o, h1, h2⟩ := C20_horizFlip E im im ⟨h, h, .inl rfl⟩
    obtain ⟨o', h3, _⟩ := C20_horizFlip E o o ⟨by unfold Img.alloc; rw [h2.1]; exact h, by unfold Img.alloc; rw [h2.1]; exact h, .inl rfl⟩
    exact ⟨o, o', h1, h2, h3, C20_horizFlip_involutive E im im o o o' h1 h3⟩

/-- **C20, one image**: `rotateX90(im, n)` turns the image. Missing: what is missing in `C20_rotate_partial`. -/
theorem C20_rotate_inplace_partial (E : Env α) (im : Img α) (count : Int) (hi : im.alloc = true) (hc : 0 ≤ count)
    (hsq : count % 4 = 1 → im.dims.w = im.dims.h) : ∃ o, rotateX90In E im count = some (.ok o) ∧ IsTurned count.toNat im o :=
  C20_rotate_partial E im count im hi hi hc hsq

end

/-! ### C24: lists of elements -/

/-- **C24, lists**: rotating a list rotates each element, in the same order; two rotations add up, and a full turn changes nothing. -/
theorem C24_rotateList (l : List CompStrElt) (hl : ∀ c ∈ l, UnitComp c) (a b : Nat) :
    ∃ m, rotateList l a = some m ∧ m.length = l.length ∧ (∀ i (h : i < l.length) (h' : i < m.length), l[i].rotate a = some m[i]) ∧
      rotateList m b = rotateList l ((a + b : Nat) : Int) ∧
      ∀ k, (∀ c ∈ l, c.fg.odd = false) → rotateList l ((8 * k : Nat) : Int) = some l := by
  induction l with
  | nil => exact ⟨[], rfl, rfl, by simp, rfl, fun k _ => rfl⟩
  | cons c l ih =>
    obtain ⟨m, h1, h2, h3, h4, h5⟩ := ih fun d hd => hl d (List.mem_cons_of_mem _ hd)
    obtain ⟨⟨c', e1, e2, _, _⟩, e3, _⟩ := C24_action c (hl c (by simp)) a b 0
    unfold rotateList at *
    rw [e1, Option.bind_some] at e3
    refine ⟨c' :: m, by simp [e1, h1], by simp [h2], ?_, ?_, fun k hk => ?_⟩
    · intro i h h'
      cases i with
      | zero => exact e1
      | succ i => exact h3 i (by simpa using h) (by simpa using h')
    · rw [List.mapM_cons, List.mapM_cons, h4, e3]
    · have := (C24_action c (hl c (by simp)) 0 0 k).2.2
      rw [hk c (by simp)] at this
      simp only [Bool.false_eq_true, if_false] at this
      rw [List.mapM_cons, this, h5 k fun d hd => hk d (List.mem_cons_of_mem _ hd)]
      rfl

/-- **C24, lists**: the complement exchanges the two parts of each element; twice, it gives the list back, and it commutes with rotations. -/
theorem C24_complList (l : List CompStrElt) (n : Int) (h : ∀ c ∈ l, c.fg.odd = c.bg.odd) :
    (∀ i (h : i < l.length) (h' : i < (complList l).length), (complList l)[i].fg = l[i].bg ∧ (complList l)[i].bg = l[i].fg) ∧
    complList (complList l) = l ∧ rotateList (complList l) n = (rotateList l n).map complList := by
  refine ⟨fun i h h' => by simp [complList, CompStrElt.compl], by simp [complList, CompStrElt.compl, Function.comp_def], ?_⟩
  induction l with
  | nil => rfl
  | cons c l ih =>
    have e := (C24_compl c n (h c (by simp))).2
    have ih := ih fun d hd => h d (List.mem_cons_of_mem _ hd)
    unfold rotateList complList at *
    rw [List.map_cons, List.mapM_cons, List.mapM_cons, e, ih]
    cases c.rotate n <;> simp
    cases List.mapM (fun c => CompStrElt.rotate c n) l <;> simp

example : (∀ c ∈ [CompStrElt.mk (SquSE0 1) (SquSE 1)], UnitComp c) ∧
    ((rotateList [⟨⟨false, .generic, 1, [⟨1, 0, 0⟩]⟩, ⟨false, .generic, 1, [⟨-1, 0, 0⟩]⟩⟩] 2).map fun l => l.map fun c => (c.fg.points, c.bg.points)) =
      some [([⟨0, -1, 0⟩], [⟨0, 1, 0⟩])] := by
  refine ⟨?_, by decide⟩
  intro c hc
  rw [List.mem_singleton] at hc
  subst hc
  constructor <;> decide

/-! ### C37: `levelPics` -/

section
variable {t : PT} {E : Env (Px t)} {se : StrElt} {im out r : Img (Px t)}

/-- The pixels reached from the border through values at least `v`. -/
inductive FromBorderUp [LE α] (N : IntPoint → IntPoint → Prop) (B : IntPoint → Prop) (f : Img α) (v : α) :
    IntPoint → Prop
  | base {p a} : B p → f.at? p = some a → v ≤ a → FromBorderUp N B f v p
  | step {q p a} : FromBorderUp N B f v q → N q p → f.at? p = some a → v ≤ a → FromBorderUp N B f v p

theorem fromBorder_compl {N : IntPoint → IntPoint → Prop} {B : IntPoint → Prop} {f g : Img (Px t)} (h : Img.IsMap Px.compl f g) (v : Px t) (p : IntPoint)
    (hp : FromBorder N B g v p) : FromBorderUp N B f v.compl p := by
  have key : ∀ p a, g.at? p = some a → a ≤ v → ∃ b, f.at? p = some b ∧ v.compl ≤ b := by
    intro p a ha hle
    have hin := Img.at?_eq_some_in _ _ _ ha
    rw [h.1] at hin
    have hf := Img.buf_offOf f p hin
    have := h.2 p _ hf
    rw [ha, Option.some.injEq] at this
    refine ⟨_, hf, ?_⟩
    rw [← compl_le, Px.compl_compl, ← this]
    exact hle
  induction hp with
  | base hB ha hle =>
    obtain ⟨b, h1, h2⟩ := key _ _ ha hle
    exact .base hB h1 h2
  | step _ hN ha hle ih =>
    obtain ⟨b, h1, h2⟩ := key _ _ ha hle
    exact .step ih hN h1 h2

theorem fromBorderUp_compl {N : IntPoint → IntPoint → Prop} {B : IntPoint → Prop} {f g : Img (Px t)} (h : Img.IsMap Px.compl f g) (v : Px t) (p : IntPoint)
    (hp : FromBorderUp N B f v p) : FromBorder N B g v.compl p := by
  induction hp with
  | base hB ha hle => exact .base hB (h.2 _ _ ha) (compl_le.mpr hle)
  | step _ hN ha hle ih => exact .step ih hN (h.2 _ _ ha) (compl_le.mpr hle)

/-- **C37, `levelPics`**, unsigned pixels: the result is defined, of the size of the image, nowhere above it, and above a value exactly where the border is reached through
pixels of at least this value. The peaks that do not touch the border are brought down. -/
theorem C37_levelPics_partial (hs : t.signed = false) (hb : t.bits ≤ 64) (h : Accepts E im out) :
    ∃ r, levelPics E se im out = some (.ok r) ∧ Img.Le r im ∧
      ∀ p v w, r.at? p = some v → ⊥ < w → (w ≤ v ↔ FromBorderUp (seRel se) (OnBorder im.dims) im w p) := by
  obtain ⟨o, ho, hd⟩ := checkSize_ok E im out h
  obtain ⟨m, hm, m1⟩ := invImg_ok E (.inl hs) im ⟨im.dims, E.raw⟩ (accepts_of_dims E h.1 rfl)
  have hma : m.alloc = true := alloc_of_dims m1.1 h.1
  obtain ⟨f, hf⟩ := C37_fillHoles_total hs hb E se m o (accepts_of_dims E hma (hd.trans m1.1.symm))
  have hle := C37_fillHoles_extensive_partial hs hb hf
  have hfa : f.alloc = true := alloc_of_dims hle.1.symm hma
  obtain ⟨r, hr, m2⟩ := invImg_ok E (.inl hs) f f (accepts_of_dims E hfa rfl)
  have hrd : r.dims = im.dims := m2.1.trans (hle.1.symm.trans m1.1)
  have hrf : ∀ p v, r.at? p = some v → f.at? p = some v.compl := by
    intro p v hv
    have hin := Img.at?_eq_some_in _ _ _ hv
    rw [m2.1] at hin
    have e := Img.buf_offOf f p hin
    have := m2.2 p _ e
    rw [hv, Option.some.injEq] at this
    rw [e, this, Px.compl_compl]
  refine ⟨r, ?_, ⟨hrd, fun p u v hu hv => ?_⟩, fun p v w hv hw => ?_⟩
  · unfold levelPics
    rw [ho]
    unfold andThen
    rw [hm]
    simp only [hf, hr, Option.bind_some]
  · have := hle.2 p _ _ (m1.2 p v hv) (hrf p u hu)
    exact compl_le.mp this
  · have hlt : w.compl < ⊤ := by
      rw [← Px.compl_bot]
      exact compl_lt.mpr hw
    have key := C37_fillHoles_value_partial hs hb hf p _ _ (hrf p v hv) hlt
    rw [compl_le] at key
    rw [key, m1.1]
    constructor
    · intro hx
      have := fromBorder_compl m1 _ p hx
      rwa [Px.compl_compl] at this
    · exact fromBorderUp_compl m1 w p

/-- A peak at 9 inside a plateau at 2. -/
example : vals8 (levelPics exEnv8 (SquSE 1) (im8 ⟨4, 3, 1⟩ [2, 2, 2, 2, 2, 9, 1, 2, 2, 2, 2, 7]) (im8 ⟨4, 3, 1⟩ [])) = [2, 2, 2, 2, 2, 2, 1, 2, 2, 2, 2, 7] := by
  decide +kernel

end

/-! ### C78, C79: the size of the output -/

section
variable {t : PT}

/-- **C78**, `resize(imIn, imOut)`: the output keeps its size and receives the nearest pixels. Missing: as in `C78_closest_partial`. -/
theorem C78_like_partial (fuel : Nat) (im out : Img (Px t)) (ha : im.alloc = true) (ho : out.alloc = true)
    (hd : im.dims.d = 1) (hD : out.dims.d = 1) (hx : out.dims.w ≠ 1) (hy : out.dims.h ≠ 1) :
    ∃ o, resizeLike (fuel + 1) false .closest im out = some (.ok o) ∧ o.dims = out.dims ∧ IsClosest im o := by
  obtain ⟨o, h1, h2, h3⟩ := C78_closest_partial fuel out.dims.w out.dims.h out.dims.d im out ha ho hd hx hy
  exact ⟨o, h1, by rw [h2, ← hD], h3⟩

/-- **C79**, `resize(imIn, imOut)`: the output keeps its size and is interpolated. -/
theorem C79_like_partial (fuel : Nat) (inPl : Bool) (m : RMethod) (hm : m = .bilinear ∨ m = .trilinear) (im out : Img (Px t)) (ha : im.alloc = true) (ho : out.alloc = true)
    (hx : out.dims.w ≠ 1) (hy : out.dims.h ≠ 1) (hz : im.dims.d = 1 ∧ out.dims.d = 1 ∨ im.dims.d ≠ 1 ∧ out.dims.d ≠ 1) :
    ∃ o, resizeLike fuel inPl m im out = some (.ok o) ∧ o.dims = out.dims ∧ IsLinear im o := by
  obtain ⟨o, h1, h2, h3⟩ := C79_linear_partial fuel out.dims.w out.dims.h out.dims.d inPl m hm im out ha ho hx hy (by tauto)
  refine ⟨o, h1, ?_, h3⟩
  rw [h2]
  rcases hz with ⟨e1, e2⟩ | ⟨e1, e2⟩
  · rw [if_pos e1, ← e2]
  · rw [if_neg e1]

end
end Smil
