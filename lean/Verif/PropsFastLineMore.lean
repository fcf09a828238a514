import Verif.PropsFastLine
import Verif.PropsMorphoAlgebra

/-! # C64: undefined behaviour, erosions, openings, squares -/

namespace Smil

section
variable {α : Type} [LinearOrder α]

/-- Lines of 1 or of `2 * r + 1` pixels: the loop on `h2` (line 274) runs below 0 and leaves the array, for all pixels. The
same for columns (line 326). -/
theorem C64_width_ub (E : Env α) (same : Bool) (dx dy : Int) (r : Nat) (raw : Nat → VH α) (im out : Img α)
    (h : Accepts E im out) (hd : im.dims.d = 1) (hw : im.dims.w < 2 ^ 31) (hh : im.dims.h < 2 ^ 31) (hr : r < 2 ^ 30) :
    (dy = 0 → im.dims.w = 1 ∨ im.dims.w = 2 * r + 1 → lineDilate E same dx dy r raw im out = none) ∧
    (dx = 0 → dy ≠ 0 → im.dims.h = 1 ∨ im.dims.h = 2 * r + 1 → lineDilate E same dx dy r raw im out = none) := by
  obtain ⟨hw0, hh0⟩ := alloc_pos h.1
  obtain ⟨o, ho, e⟩ := lineDilate_of (same := same) (dx := dx) (dy := dy) (r := r) (raw := raw) h hd
  refine ⟨fun h1 h2 => ?_, fun h1 h2 h3 => ?_⟩
  · rw [e]
    unfold grayDilate
    dsimp only
    rw [if_pos h1]
    obtain ⟨H, hH⟩ : ∃ H, im.dims.h = H + 1 := ⟨im.dims.h - 1, by omega⟩
    have hl : horLines im.dims.w im.dims.h = (List.range im.dims.w).map (fun x => ((0 * im.dims.w + x : Nat) : Int)) ::
        (List.range H).map fun y => (List.range im.dims.w).map fun x => (((y + 1) * im.dims.w + x : Nat) : Int) := by
      unfold horLines
      rw [hH, range_cons]
    rw [hl]
    unfold runLines lineStep
    rw [dilHorVer_ub false _ r _ _ _ (by simp) (by omega) (by simpa using hw0) (by omega) (by simpa using h2)]
    simp
  · rw [e]
    unfold grayDilate
    dsimp only
    rw [if_neg h2, if_pos h1]
    obtain ⟨W, hW⟩ : ∃ W, im.dims.w = W + 1 := ⟨im.dims.w - 1, by omega⟩
    have hl : verLines im.dims.w im.dims.h = (List.range im.dims.h).map (fun y => ((0 + y * im.dims.w : Nat) : Int)) ::
        (List.range W).map fun x => (List.range im.dims.h).map fun y => ((x + 1 + y * im.dims.w : Nat) : Int) := by
      unfold verLines
      rw [hW, range_cons]
    rw [hl]
    unfold runLines lineStep
    rw [dilHorVer_ub true _ r _ _ _ (by simp) (by omega) (by simpa using hh0) (by omega) (by simpa using h3)]
    simp

end

variable {t : PT}

theorem alloc_dims {α : Type} {a b : Img α} (h : b.dims = a.dims) (ha : a.alloc = true) : b.alloc = true := by
  unfold Img.alloc at *; rw [h]; exact ha

theorem accepts_new {α : Type} (E : Env α) {im : Img α} (h : im.alloc = true) : Accepts E im (newLike E im) :=
  ⟨h, h, .inl rfl⟩

theorem accepts_self {α : Type} (E : Env α) {im : Img α} (h : im.alloc = true) : Accepts E im im := ⟨h, h, .inl rfl⟩

theorem accepts_dims {α : Type} {E : Env α} {im im' out : Img α} (h : Accepts E im out) (hd : im'.dims = im.dims) :
    Accepts E im' out :=
  ⟨alloc_dims hd h.1, h.2.1, by rw [hd]; exact h.2.2⟩

/-- **C64**, erosion: `lineErode` returns the least value of the same segments, for the types where inversion is defined.
(partial: same limits as `C64_dilate_partial`.) -/
theorem C64_erode_partial (hs : t.signed = false ∨ t.bits ≤ 16) (E : Env (Px t)) (dx dy : Int) (r : Nat)
    (raw : Nat → VH (Px t)) (im out : Img (Px t)) (h : Accepts E im out) (hd : im.dims.d = 1) (hw : im.dims.w < 2 ^ 31)
    (hh : im.dims.h < 2 ^ 31) (hr : r < 2 ^ 30) (hok : LineOk im.dims dx dy r) :
    ∃ res, lineErode E dx dy r raw im out = some (.ok res) ∧ IsEroBy (segRel dx dy r) im res := by
  obtain ⟨tmp, e1, m1⟩ := invImg_ok E hs im (newLike E im) (accepts_new E h.1)
  obtain ⟨mid, e2, m2⟩ := C64_dilate_partial E false dx dy r raw tmp out (accepts_dims h m1.1) (by rw [m1.1]; exact hd)
    (by rw [m1.1]; exact hw) (by rw [m1.1]; exact hh) hr (by rw [m1.1]; exact hok)
  obtain ⟨res, e3, m3⟩ := invImg_ok E hs mid mid (accepts_self E (alloc_dims (m2.1.trans m1.1) h.1))
  refine ⟨res, ?_, ?_⟩
  · unfold lineErode
    rw [e1]; change andThen (lineDilate E false dx dy r raw tmp out) _ = _
    rw [e2]; exact e3
  · refine ero_of_dil Px.compl Px.compl_anti Px.compl_compl m1 ?_ m3
    have : (fun q p => segRel dx dy r p q) = segRel dx dy r := by
      funext q p; exact propext segRel_symm
    rw [this]; exact m2

theorem isOpenBy_one {α : Type} [PartialOrder α] {N : IntPoint → IntPoint → Prop} {f m g : Img α} (h : IsEroBy N f m)
    (h' : IsDilBy N m g) : IsOpenBy N 1 f g := ⟨m, ⟨m, h, Img.Same.refl _⟩, g, h', Img.Same.refl _⟩

theorem isCloseBy_one {α : Type} [PartialOrder α] {N : IntPoint → IntPoint → Prop} {f m g : Img α} (h : IsDilBy N f m)
    (h' : IsEroBy N m g) : IsCloseBy N 1 f g := ⟨m, ⟨m, h, Img.Same.refl _⟩, g, h', Img.Same.refl _⟩

/-- The result of `lineOpen` is the opening by the segments. -/
theorem lineOpen_spec (hs : t.signed = false ∨ t.bits ≤ 16) (E : Env (Px t)) (dx dy : Int) (r : Nat)
    (raw raw' : Nat → VH (Px t)) (im out : Img (Px t)) (h : Accepts E im out) (hd : im.dims.d = 1) (hw : im.dims.w < 2 ^ 31)
    (hh : im.dims.h < 2 ^ 31) (hr : r < 2 ^ 30) (hok : LineOk im.dims dx dy r) :
    ∃ res, lineOpen E dx dy r raw raw' im out = some (.ok res) ∧ IsOpenBy (segRel dx dy r) 1 im res := by
  obtain ⟨tmp, e1, m1⟩ := C64_erode_partial hs E dx dy r raw im (newLike E im) (accepts_new E h.1) hd hw hh hr hok
  obtain ⟨res, e2, m2⟩ := C64_dilate_partial E false dx dy r raw' tmp out (accepts_dims h m1.1) (by rw [m1.1]; exact hd)
    (by rw [m1.1]; exact hw) (by rw [m1.1]; exact hh) hr (by rw [m1.1]; exact hok)
  refine ⟨res, ?_, isOpenBy_one m1 m2⟩
  unfold lineOpen
  rw [e1]; exact e2

theorem lineClose_spec (hs : t.signed = false ∨ t.bits ≤ 16) (E : Env (Px t)) (dx dy : Int) (r : Nat)
    (raw raw' : Nat → VH (Px t)) (im out : Img (Px t)) (h : Accepts E im out) (hd : im.dims.d = 1) (hw : im.dims.w < 2 ^ 31)
    (hh : im.dims.h < 2 ^ 31) (hr : r < 2 ^ 30) (hok : LineOk im.dims dx dy r) :
    ∃ res, lineClose E dx dy r raw raw' im out = some (.ok res) ∧ IsCloseBy (segRel dx dy r) 1 im res := by
  obtain ⟨tmp, e1, m1⟩ := C64_dilate_partial E false dx dy r raw im (newLike E im) (accepts_new E h.1) hd hw hh hr hok
  obtain ⟨res, e2, m2⟩ := C64_erode_partial hs E dx dy r raw' tmp out (accepts_dims h m1.1) (by rw [m1.1]; exact hd)
    (by rw [m1.1]; exact hw) (by rw [m1.1]; exact hh) hr (by rw [m1.1]; exact hok)
  refine ⟨res, ?_, isCloseBy_one m1 m2⟩
  unfold lineClose
  rw [e1]; exact e2

/-- **C64**, openings: `lineOpen` is below the input, increasing, and idempotent. -/
theorem C64_open_partial (hs : t.signed = false ∨ t.bits ≤ 16) (E E' E'' : Env (Px t)) (dx dy : Int) (r : Nat)
    (raw raw' raw1 raw1' raw2 raw2' : Nat → VH (Px t)) (im im' out out' out'' : Img (Px t)) (h : Accepts E im out)
    (hd : im.dims.d = 1) (hw : im.dims.w < 2 ^ 31) (hh : im.dims.h < 2 ^ 31) (hr : r < 2 ^ 30)
    (hok : LineOk im.dims dx dy r) :
    ∃ res, lineOpen E dx dy r raw raw' im out = some (.ok res) ∧ Img.Le res im ∧
      (Img.Le im im' → Accepts E' im' out' → ∃ res', lineOpen E' dx dy r raw1 raw1' im' out' = some (.ok res') ∧
        Img.Le res res') ∧
      (Accepts E'' res out'' → ∃ res'', lineOpen E'' dx dy r raw2 raw2' res out'' = some (.ok res'') ∧
        Img.Same res'' res) := by
  obtain ⟨res, e, m⟩ := lineOpen_spec hs E dx dy r raw raw' im out h hd hw hh hr hok
  refine ⟨res, e, open_antiext m, fun hle h' => ?_, fun h' => ?_⟩
  · obtain ⟨res', e', m'⟩ := lineOpen_spec hs E' dx dy r raw1 raw1' im' out' h' (by rw [← hle.1]; exact hd)
      (by rw [← hle.1]; exact hw) (by rw [← hle.1]; exact hh) hr (by rw [← hle.1]; exact hok)
    exact ⟨res', e', open_mono hle m m'⟩
  · have hdm := open_dims m
    obtain ⟨res', e', m'⟩ := lineOpen_spec hs E'' dx dy r raw2 raw2' res out'' h' (by rw [hdm]; exact hd)
      (by rw [hdm]; exact hw) (by rw [hdm]; exact hh) hr (by rw [hdm]; exact hok)
    exact ⟨res', e', open_idem m m'⟩

/-- **C64**, closings: `lineClose` is above the input, increasing, and idempotent. -/
theorem C64_close_partial (hs : t.signed = false ∨ t.bits ≤ 16) (E E' E'' : Env (Px t)) (dx dy : Int) (r : Nat)
    (raw raw' raw1 raw1' raw2 raw2' : Nat → VH (Px t)) (im im' out out' out'' : Img (Px t)) (h : Accepts E im out)
    (hd : im.dims.d = 1) (hw : im.dims.w < 2 ^ 31) (hh : im.dims.h < 2 ^ 31) (hr : r < 2 ^ 30)
    (hok : LineOk im.dims dx dy r) :
    ∃ res, lineClose E dx dy r raw raw' im out = some (.ok res) ∧ Img.Le im res ∧
      (Img.Le im im' → Accepts E' im' out' → ∃ res', lineClose E' dx dy r raw1 raw1' im' out' = some (.ok res') ∧
        Img.Le res res') ∧
      (Accepts E'' res out'' → ∃ res'', lineClose E'' dx dy r raw2 raw2' res out'' = some (.ok res'') ∧
        Img.Same res'' res) := by
  obtain ⟨res, e, m⟩ := lineClose_spec hs E dx dy r raw raw' im out h hd hw hh hr hok
  refine ⟨res, e, close_ext m, fun hle h' => ?_, fun h' => ?_⟩
  · obtain ⟨res', e', m'⟩ := lineClose_spec hs E' dx dy r raw1 raw1' im' out' h' (by rw [← hle.1]; exact hd)
      (by rw [← hle.1]; exact hw) (by rw [← hle.1]; exact hh) hr (by rw [← hle.1]; exact hok)
    exact ⟨res', e', close_mono hle m m'⟩
  · have hdm := (close_ext m).1.symm
    obtain ⟨res', e', m'⟩ := lineClose_spec hs E'' dx dy r raw2 raw2' res out'' h' (by rw [hdm]; exact hd)
      (by rw [hdm]; exact hw) (by rw [hdm]; exact hh) hr (by rw [hdm]; exact hok)
    exact ⟨res', e', close_idem m m'⟩

/-! ### Squares -/

/-- `q` is in the square of half-side `r` around `p`, in the same slice. -/
def squareRel (r : Nat) (q p : IntPoint) : Prop :=
  q.z = p.z ∧ p.x - r ≤ q.x ∧ q.x ≤ p.x + r ∧ p.y - r ≤ q.y ∧ q.y ≤ p.y + r

theorem square_comp {D : Dims} (M : Int) (hM : M ≠ 0) (r : Nat) (q p : IntPoint) (hq : Img.In D q) (hp : Img.In D p) :
    (∃ m, Img.In D m ∧ segRel M 0 r q m ∧ segRel 0 (-M) r m p) ↔ squareRel r q p := by
  simp only [segRel_hor, segRel_ver (-M) (by omega)]
  unfold squareRel
  constructor
  · rintro ⟨m, -, h1, h2⟩
    omega
  · intro h
    refine ⟨⟨p.x, q.y, q.z⟩, ?_, ?_, ?_⟩
    · unfold Img.In at hq hp ⊢
      simp only
      omega
    · exact ⟨rfl, rfl, by simp only; omega, by simp only; omega⟩
    · exact ⟨h.1, rfl, by simp only; omega, by simp only; omega⟩

section
variable {α : Type} [LinearOrder α]

theorem maxSide_ne {α : Type} {im : Img α} (h : im.alloc = true) : (maxSide im.dims : Int) ≠ 0 := by
  have := alloc_pos h
  unfold maxSide
  omega

/-- **C64**, squares: `squareDilate` returns at each pixel the greatest value of the square of half-side `r`. (partial:
sides of 1 and of `2 * r + 1` pixels, see `C64_width_ub`.) -/
theorem C64_square_partial (E : Env α) (r : Nat) (raw raw' : Nat → VH α) (im out : Img α) (h : Accepts E im out)
    (hd : im.dims.d = 1) (hw : im.dims.w < 2 ^ 31) (hh : im.dims.h < 2 ^ 31) (hr : r < 2 ^ 30)
    (hw1 : im.dims.w ≠ 1 ∧ im.dims.w ≠ 2 * r + 1) (hh1 : im.dims.h ≠ 1 ∧ im.dims.h ≠ 2 * r + 1) :
    ∃ res, squareDilate E r raw raw' im out = some (.ok res) ∧ IsDilBy (squareRel r) im res := by
  have hM := maxSide_ne h.1
  obtain ⟨tmp, e1, m1⟩ := C64_dilate_partial E false (maxSide im.dims) 0 r raw im (newLike E im) (accepts_new E h.1) hd hw hh hr
    (.inl ⟨rfl, hw1.1, hw1.2⟩)
  obtain ⟨res, e2, m2⟩ := C64_dilate_partial E false 0 (-(maxSide im.dims : Int)) r raw' tmp out (accepts_dims h m1.1)
    (by rw [m1.1]; exact hd) (by rw [m1.1]; exact hw) (by rw [m1.1]; exact hh) hr
    (by rw [m1.1]; exact .inr (.inl ⟨by omega, rfl, hh1.1, hh1.2⟩))
  refine ⟨res, ?_, ?_⟩
  · unfold squareDilate
    rw [e1]; exact e2
  · exact (m1.comp m2).congr fun q p hq hp => square_comp _ hM r q p hq hp

/-- Both ways to dilate by a square agree: `squareDilate_Soille (im, r)` and `dilate (im, SquSE (r))`. -/
theorem C64_square_agree_partial [BoundedOrder α] (E : Env α) (i : Bool) (r : Nat) (hr1 : 1 ≤ r) (raw raw' : Nat → VH α)
    (im out : Img α) (h : Accepts E im out)
    (hd : im.dims.d = 1) (hw : im.dims.w < 2 ^ 31) (hh : im.dims.h < 2 ^ 31) (hr : r < 2 ^ 30)
    (hw1 : im.dims.w ≠ 1 ∧ im.dims.w ≠ 2 * r + 1) (hh1 : im.dims.h ≠ 1 ∧ im.dims.h ≠ 2 * r + 1) :
    ∃ a b, squareDilate E r raw raw' im out = some (.ok a) ∧ dilate E i (SquSE r) im out = some (.ok b) ∧
      Img.Same a b := by
  obtain ⟨a, ea, ma⟩ := C64_square_partial E r raw raw' im out h hd hw hh hr hw1 hh1
  obtain ⟨b, eb, mb⟩ := C23_square_operator E i r hr1 (by omega) im out h (by have := alloc_pos h.1; omega)
  refine ⟨a, b, ea, eb, ?_⟩
  rw [isDil_iff] at mb
  refine IsDilBy.unique (Img.Same.refl _) ma (mb.congr' fun q p hq hp => ?_)
  have hodd : ((SquSE 1).homothety r).odd = false := by
    unfold StrElt.homothety; rw [StrElt.iterate_odd]; rfl
  rw [seRel_even _ hodd, C23_square r hr1 (by omega)]
  unfold squareRel
  simp only
  omega
end

theorem ero_comp {α : Type} [PartialOrder α] {N1 N2 N : IntPoint → IntPoint → Prop} {im mid out : Img α} (h1 : IsEroBy N1 im mid)
    (h2 : IsEroBy N2 mid out)
    (hN : ∀ q p, Img.In im.dims q → Img.In im.dims p → ((∃ r, Img.In im.dims r ∧ N1 r q ∧ N2 p r) ↔ N p q)) :
    IsEroBy N im out :=
  IsDilBy.congr (α := αᵒᵈ) hN (IsDilBy.comp (α := αᵒᵈ) h1 h2)

theorem squareRel_symm {r : Nat} {q p : IntPoint} : squareRel r q p ↔ squareRel r p q := by
  unfold squareRel; omega

/-- `squareErode` returns the least value of the square of half-side `r`. -/
theorem C64_square_erode_partial (hs : t.signed = false ∨ t.bits ≤ 16) (E : Env (Px t)) (r : Nat)
    (raw raw' : Nat → VH (Px t)) (im out : Img (Px t)) (h : Accepts E im out)
    (hd : im.dims.d = 1) (hw : im.dims.w < 2 ^ 31) (hh : im.dims.h < 2 ^ 31) (hr : r < 2 ^ 30)
    (hw1 : im.dims.w ≠ 1 ∧ im.dims.w ≠ 2 * r + 1) (hh1 : im.dims.h ≠ 1 ∧ im.dims.h ≠ 2 * r + 1) :
    ∃ res, squareErode E r raw raw' im out = some (.ok res) ∧ IsEroBy (squareRel r) im res := by
  have hM := maxSide_ne h.1
  obtain ⟨tmp, e1, m1⟩ := C64_erode_partial hs E (maxSide im.dims) 0 r raw im (newLike E im) (accepts_new E h.1) hd hw hh hr
    (.inl ⟨rfl, hw1.1, hw1.2⟩)
  obtain ⟨res, e2, m2⟩ := C64_erode_partial hs E 0 (-(maxSide im.dims : Int)) r raw' tmp out (accepts_dims h m1.1)
    (by rw [m1.1]; exact hd) (by rw [m1.1]; exact hw) (by rw [m1.1]; exact hh) hr
    (by rw [m1.1]; exact .inr (.inl ⟨by omega, rfl, hh1.1, hh1.2⟩))
  refine ⟨res, ?_, ?_⟩
  · unfold squareErode
    rw [e1]; exact e2
  · refine ero_comp m1 m2 fun q p hq hp => ?_
    rw [squareRel_symm, ← square_comp (D := im.dims) _ hM r q p hq hp]
    constructor
    · rintro ⟨m, h1, h2, h3⟩
      exact ⟨m, h1, segRel_symm.1 h2, segRel_symm.1 h3⟩
    · rintro ⟨m, h1, h2, h3⟩
      exact ⟨m, h1, segRel_symm.1 h2, segRel_symm.1 h3⟩

theorem squareErode_eq (E : Env (Px t)) (r : Nat) (raw : Nat → Nat → VH (Px t)) (im out : Img (Px t)) :
    squareOpen E r raw im out = andThen (squareErode E r (raw 0) (raw 1) im out) fun o =>
      andThen (lineErode E (maxSide im.dims) 0 r (raw 0) im (newLike E im)) fun tmp =>
        andThen (lineDilate E false (maxSide im.dims) 0 r (raw 2) o tmp) fun tmp' =>
          lineDilate E false 0 (-(maxSide im.dims : Int)) r (raw 3) tmp' o := by
  unfold squareOpen squareErode andThen
  cases lineErode E (maxSide im.dims) 0 r (raw 0) im (newLike E im) with
  | none => rfl
  | some x =>
    cases x with
    | error c => rfl
    | ok tmp => rfl

/-- `squareOpen` is the opening by the square of half-side `r`: below the input, and idempotent. -/
theorem C64_square_open_partial (hs : t.signed = false ∨ t.bits ≤ 16) (E E' : Env (Px t)) (r : Nat)
    (raw raw' : Nat → Nat → VH (Px t)) (im out out' : Img (Px t)) (h : Accepts E im out)
    (hd : im.dims.d = 1) (hw : im.dims.w < 2 ^ 31) (hh : im.dims.h < 2 ^ 31) (hr : r < 2 ^ 30)
    (hw1 : im.dims.w ≠ 1 ∧ im.dims.w ≠ 2 * r + 1) (hh1 : im.dims.h ≠ 1 ∧ im.dims.h ≠ 2 * r + 1) :
    ∃ res, squareOpen E r raw im out = some (.ok res) ∧ IsOpenBy (squareRel r) 1 im res ∧ Img.Le res im ∧
      (Accepts E' res out' → ∃ res', squareOpen E' r raw' res out' = some (.ok res') ∧ Img.Same res' res) := by
  have key : ∀ (E : Env (Px t)) (raw : Nat → Nat → VH (Px t)) (im out : Img (Px t)), Accepts E im out →
      im.dims.d = 1 → im.dims.w < 2 ^ 31 → im.dims.h < 2 ^ 31 →
      (im.dims.w ≠ 1 ∧ im.dims.w ≠ 2 * r + 1) → (im.dims.h ≠ 1 ∧ im.dims.h ≠ 2 * r + 1) →
      ∃ res, squareOpen E r raw im out = some (.ok res) ∧ IsOpenBy (squareRel r) 1 im res := by
    intro E raw im out h hd hw hh hw1 hh1
    have hM := maxSide_ne h.1
    obtain ⟨o, e0, m0⟩ := C64_square_erode_partial hs E r (raw 0) (raw 1) im out h hd hw hh hr hw1 hh1
    obtain ⟨tmp, e1, m1⟩ := C64_erode_partial hs E (maxSide im.dims) 0 r (raw 0) im (newLike E im) (accepts_new E h.1) hd hw hh hr
      (.inl ⟨rfl, hw1.1, hw1.2⟩)
    have hoa := alloc_dims m0.1 h.1
    have hta := alloc_dims m1.1 h.1
    obtain ⟨t2, e2, m2⟩ := C64_dilate_partial E false (maxSide im.dims) 0 r (raw 2) o tmp
      ⟨hoa, hta, .inl (m1.1.trans m0.1.symm)⟩ (by rw [m0.1]; exact hd) (by rw [m0.1]; exact hw) (by rw [m0.1]; exact hh) hr
      (by rw [m0.1]; exact .inl ⟨rfl, hw1.1, hw1.2⟩)
    have hd2 := m2.1.trans m0.1
    obtain ⟨res, e3, m3⟩ := C64_dilate_partial E false 0 (-(maxSide im.dims : Int)) r (raw 3) t2 o
      ⟨alloc_dims hd2 h.1, hoa, .inl m2.1.symm⟩ (by rw [hd2]; exact hd) (by rw [hd2]; exact hw) (by rw [hd2]; exact hh) hr
      (by rw [hd2]; exact .inr (.inl ⟨by omega, rfl, hh1.1, hh1.2⟩))
    refine ⟨res, ?_, isOpenBy_one m0 ((m2.comp m3).congr fun q p hq hp => square_comp _ hM r q p hq hp)⟩
    rw [squareErode_eq, e0]
    change andThen (lineErode E (maxSide im.dims) 0 r (raw 0) im (newLike E im)) _ = _
    rw [e1]
    change andThen (lineDilate E false (maxSide im.dims) 0 r (raw 2) o tmp) _ = _
    rw [e2]; exact e3
  obtain ⟨res, e, m⟩ := key E raw im out h hd hw hh hw1 hh1
  refine ⟨res, e, m, open_antiext m, fun h' => ?_⟩
  have hdm := open_dims m
  obtain ⟨res', e', m'⟩ := key E' raw' res out' h' (by rw [hdm]; exact hd) (by rw [hdm]; exact hw) (by rw [hdm]; exact hh)
    (by rw [hdm]; exact hw1) (by rw [hdm]; exact hh1)
  exact ⟨res', e', open_idem m m'⟩

/-- `squareClose` is the closing by the square of half-side `r`: above the input, and idempotent. -/
theorem C64_square_close_partial (hs : t.signed = false ∨ t.bits ≤ 16) (E E' : Env (Px t)) (r : Nat)
    (raw raw' : Nat → Nat → VH (Px t)) (im out out' : Img (Px t)) (h : Accepts E im out)
    (hd : im.dims.d = 1) (hw : im.dims.w < 2 ^ 31) (hh : im.dims.h < 2 ^ 31) (hr : r < 2 ^ 30)
    (hw1 : im.dims.w ≠ 1 ∧ im.dims.w ≠ 2 * r + 1) (hh1 : im.dims.h ≠ 1 ∧ im.dims.h ≠ 2 * r + 1) :
    ∃ res, squareClose E r raw im out = some (.ok res) ∧ IsCloseBy (squareRel r) 1 im res ∧ Img.Le im res ∧
      (Accepts E' res out' → ∃ res', squareClose E' r raw' res out' = some (.ok res') ∧ Img.Same res' res) := by
  have key : ∀ (E : Env (Px t)) (raw : Nat → Nat → VH (Px t)) (im out : Img (Px t)), Accepts E im out →
      im.dims.d = 1 → im.dims.w < 2 ^ 31 → im.dims.h < 2 ^ 31 →
      (im.dims.w ≠ 1 ∧ im.dims.w ≠ 2 * r + 1) → (im.dims.h ≠ 1 ∧ im.dims.h ≠ 2 * r + 1) →
      ∃ res, squareClose E r raw im out = some (.ok res) ∧ IsCloseBy (squareRel r) 1 im res ∧ res.dims = im.dims := by
    intro E raw im out h hd hw hh hw1 hh1
    have hM := maxSide_ne h.1
    obtain ⟨tmp, e1, m1⟩ := C64_dilate_partial E false (maxSide im.dims) 0 r (raw 0) im (newLike E im) (accepts_new E h.1) hd hw hh hr
      (.inl ⟨rfl, hw1.1, hw1.2⟩)
    obtain ⟨o, e2, m2⟩ := C64_dilate_partial E false 0 (-(maxSide im.dims : Int)) r (raw 1) tmp out (accepts_dims h m1.1)
      (by rw [m1.1]; exact hd) (by rw [m1.1]; exact hw) (by rw [m1.1]; exact hh) hr
      (by rw [m1.1]; exact .inr (.inl ⟨by omega, rfl, hh1.1, hh1.2⟩))
    have hdo := m2.1.trans m1.1
    have hoa := alloc_dims hdo h.1
    have hta := alloc_dims m1.1 h.1
    obtain ⟨t2, e3, m3⟩ := C64_erode_partial hs E (maxSide im.dims) 0 r (raw 2) o tmp
      ⟨hoa, hta, .inl m2.1.symm⟩ (by rw [hdo]; exact hd) (by rw [hdo]; exact hw) (by rw [hdo]; exact hh) hr
      (by rw [hdo]; exact .inl ⟨rfl, hw1.1, hw1.2⟩)
    have hd2 := m3.1.trans hdo
    obtain ⟨res, e4, m4⟩ := C64_erode_partial hs E 0 (-(maxSide im.dims : Int)) r (raw 3) t2 o
      ⟨alloc_dims hd2 h.1, hoa, .inl m3.1.symm⟩ (by rw [hd2]; exact hd) (by rw [hd2]; exact hw) (by rw [hd2]; exact hh) hr
      (by rw [hd2]; exact .inr (.inl ⟨by omega, rfl, hh1.1, hh1.2⟩))
    refine ⟨res, ?_, isCloseBy_one ((m1.comp m2).congr fun q p hq hp => square_comp _ hM r q p hq hp)
      (ero_comp m3 m4 fun q p hq hp => ?_), m4.1.trans hd2⟩
    · unfold squareClose
      rw [e1]
      change andThen (lineDilate E false 0 (-(maxSide im.dims : Int)) r (raw 1) tmp out) _ = _
      rw [e2]
      change andThen (lineErode E (maxSide im.dims) 0 r (raw 2) o tmp) _ = _
      rw [e3]; exact e4
    · rw [squareRel_symm, ← square_comp (D := o.dims) _ hM r q p hq hp]
      constructor
      · rintro ⟨m, h1, h2, h3⟩
        exact ⟨m, h1, segRel_symm.1 h2, segRel_symm.1 h3⟩
      · rintro ⟨m, h1, h2, h3⟩
        exact ⟨m, h1, segRel_symm.1 h2, segRel_symm.1 h3⟩
  obtain ⟨res, e, m, hdm⟩ := key E raw im out h hd hw hh hw1 hh1
  refine ⟨res, e, m, close_ext m, fun h' => ?_⟩
  obtain ⟨res', e', m', -⟩ := key E' raw' res out' h' (by rw [hdm]; exact hd) (by rw [hdm]; exact hw) (by rw [hdm]; exact hh)
    (by rw [hdm]; exact hw1) (by rw [hdm]; exact hh1)
  exact ⟨res', e', close_idem m m'⟩

end Smil
