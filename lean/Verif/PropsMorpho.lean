import Verif.ImgOps

/-!
# Properties of dilation and erosion (C25, C26, C27)
-/

namespace Smil
open StrElt
variable {α : Type}

/-! ## C25 -/

/-- The list whose least upper bound is `v`: `v` is one of its elements, or it is empty. -/
theorem isLUB_list [LinearOrder α] [OrderBot α] (l : List α) (v : α) (h : IsLUB { u | u ∈ l } v) :
    v ∈ l ∨ (l = [] ∧ v = ⊥) := by
  have key : ∀ l : List α, l ≠ [] → ∃ m ∈ l, ∀ u ∈ l, u ≤ m := by
    intro l
    induction l with
    | nil => simp
    | cons a l ih =>
      intro _
      by_cases hl : l = []
      · subst hl; exact ⟨a, by simp, by simp⟩
      · obtain ⟨m, hm, hle⟩ := ih hl
        rcases le_total a m with h | h
        · exact ⟨m, by simp [hm], by simp only [List.mem_cons, forall_eq_or_imp]; exact ⟨h, hle⟩⟩
        · exact ⟨a, by simp, by
            simp only [List.mem_cons, forall_eq_or_imp]
            exact ⟨le_refl _, fun u hu => (hle u hu).trans h⟩⟩
  by_cases hl : l = []
  · right
    refine ⟨hl, le_antisymm (h.2 ?_) bot_le⟩
    rintro u hu
    rw [hl] at hu; simp at hu
  · left
    obtain ⟨m, hm, hle⟩ := key l hl
    have : v = m := le_antisymm (h.2 hle) (h.1 hm)
    rw [this]; exact hm

section
variable [LinearOrder α] [BoundedOrder α]

/-- **C25** (partial: see `SEOk`): `dilate` succeeds on every accepted pair of images, in place or
not, whatever the number of threads and the contents of uninitialised memory, and its result is
obtained by `size` dilations by the set of points of the element, where one dilation puts at each
pixel the least upper bound of the pixels seen through the element placed geometrically (`phys`
carries the row parity of the hexagonal grid). What is missing: elements wider than the image,
elements whose points were edited while their type has a kernel, images of one line, hexagonal
elements on several slices, the polyhedron (the theorems below show that the claim is false or the
behaviour undefined there). -/
theorem C25_dilate_partial (E : Env α) (inPl : Bool) (se : StrElt) (im out : Img α)
    (h : Accepts E im out) (hse : SEOk im.dims se) :
    ∃ r, dilate E inPl se im out = some (.ok r) ∧ IterRel (IsDil se) se.size im r := by
  obtain ⟨r, h1, h2⟩ := dilate_spec E inPl se im out h hse
  exact ⟨r, h1, h2.mono fun a b hab => (isDil_iff se a b).mpr hab⟩

/-- **C25** for erosions. -/
theorem C25_erode_partial (E : Env α) (inPl : Bool) (se : StrElt) (im out : Img α)
    (h : Accepts E im out) (hse : SEOk im.dims se) :
    ∃ r, erode E inPl se im out = some (.ok r) ∧ IterRel (IsEro se) se.size im r := by
  obtain ⟨r, h1, h2⟩ := erode_spec E inPl se im out h hse
  exact ⟨r, h1, h2.mono fun a b hab => (isEro_iff se a b).mpr hab⟩

/-- **C25** in plain coordinates, square grid, size 1: the value at `p` is the largest of the
pixels `p - b`, `b` in the element, that lie in the image, and the smallest value of the type when
there is none. -/
theorem C25_dilate_max (E : Env α) (inPl : Bool) (se : StrElt) (im out : Img α)
    (h : Accepts E im out) (hse : SEOk im.dims se) (ho : se.odd = false) (hs : se.size = 1) :
    ∃ r, dilate E inPl se im out = some (.ok r) ∧ r.dims = im.dims ∧
      ∀ p, Img.In im.dims p → ∃ v, r.at? p = some v ∧
        (∀ b ∈ se.points, ∀ u, im.at? ⟨p.x - b.x, p.y - b.y, p.z - b.z⟩ = some u → u ≤ v) ∧
        ((∃ b ∈ se.points, im.at? ⟨p.x - b.x, p.y - b.y, p.z - b.z⟩ = some v) ∨
         (v = ⊥ ∧ ∀ b ∈ se.points, im.at? ⟨p.x - b.x, p.y - b.y, p.z - b.z⟩ = none)) := by
  obtain ⟨r, h1, h2⟩ := dilate_spec E inPl se im out h hse
  rw [hs] at h2
  obtain ⟨r', h3, h4⟩ := h2
  have h3 := h3.of_same (Img.Same.refl _) h4
  refine ⟨r, h1, h3.1, fun p hp => ?_⟩
  obtain ⟨v, hv, hl⟩ := h3.2 p hp
  have hset : { u | ∃ q, seRel se q p ∧ im.at? q = some u } =
      { u | u ∈ se.points.filterMap fun b => im.at? ⟨p.x - b.x, p.y - b.y, p.z - b.z⟩ } := by
    ext u
    simp only [Set.mem_ofPred_eq, List.mem_filterMap]
    constructor
    · rintro ⟨q, hq, hu⟩
      rw [seRel_even se ho] at hq
      refine ⟨_, hq, ?_⟩
      simp only [sub_sub_cancel]
      exact hu
    · rintro ⟨b, hb, hu⟩
      refine ⟨_, (seRel_even se ho _ _).mpr ?_, hu⟩
      simp only [sub_sub_cancel]
      exact hb
  rw [hset] at hl
  refine ⟨v, hv, fun b hb u hu => hl.1 (List.mem_filterMap.mpr ⟨b, hb, hu⟩), ?_⟩
  rcases isLUB_list _ _ hl with hm | ⟨he, hb⟩
  · exact Or.inl (List.mem_filterMap.mp hm)
  · refine Or.inr ⟨hb, fun b hbm => ?_⟩
    exact List.filterMap_eq_nil_iff.mp he b hbm

/-- **C25** in plain coordinates for erosions: the smallest of the pixels `p + b`. -/
theorem C25_erode_min (E : Env α) (inPl : Bool) (se : StrElt) (im out : Img α)
    (h : Accepts E im out) (hse : SEOk im.dims se) (ho : se.odd = false) (hs : se.size = 1) :
    ∃ r, erode E inPl se im out = some (.ok r) ∧ r.dims = im.dims ∧
      ∀ p, Img.In im.dims p → ∃ v, r.at? p = some v ∧
        (∀ b ∈ se.points, ∀ u, im.at? ⟨p.x + b.x, p.y + b.y, p.z + b.z⟩ = some u → v ≤ u) ∧
        ((∃ b ∈ se.points, im.at? ⟨p.x + b.x, p.y + b.y, p.z + b.z⟩ = some v) ∨
         (v = ⊤ ∧ ∀ b ∈ se.points, im.at? ⟨p.x + b.x, p.y + b.y, p.z + b.z⟩ = none)) := by
  obtain ⟨r, h1, h2⟩ := erode_spec E inPl se im out h hse
  rw [hs] at h2
  obtain ⟨r', h3, h4⟩ := h2
  have h3 := isEroBy_respects _ _ _ _ (Img.Same.refl _) h4 h3
  refine ⟨r, h1, h3.1, fun p hp => ?_⟩
  obtain ⟨v, hv, hl⟩ := h3.2 p hp
  have hset : { u | ∃ q, seRel se p q ∧ im.at? q = some u } =
      { u | u ∈ se.points.filterMap fun b => im.at? ⟨p.x + b.x, p.y + b.y, p.z + b.z⟩ } := by
    ext u
    simp only [Set.mem_ofPred_eq, List.mem_filterMap]
    constructor
    · rintro ⟨q, hq, hu⟩
      rw [seRel_even se ho] at hq
      refine ⟨_, hq, ?_⟩
      simp only [add_sub_cancel]
      exact hu
    · rintro ⟨b, hb, hu⟩
      refine ⟨_, (seRel_even se ho _ _).mpr ?_, hu⟩
      simp only [add_sub_cancel_left]
      exact hb
  rw [hset] at hl
  refine ⟨v, hv, fun b hb u hu => hl.1 (List.mem_filterMap.mpr ⟨b, hb, hu⟩), ?_⟩
  rcases isLUB_list (α := αᵒᵈ) _ _ hl with hm | ⟨he, hb⟩
  · exact Or.inl (List.mem_filterMap.mp hm)
  · refine Or.inr ⟨hb, fun b hbm => ?_⟩
    exact List.filterMap_eq_nil_iff.mp he b hbm

/-- **C25** on the hexagonal grid: the value at a pixel of an even line is the maximum over its
left and right neighbours and, on the lines above and below, over the pixels of the same and of
the preceding abscissa; on an odd line of the same and of the following abscissa. -/
theorem C25_hexagon (E : Env α) (inPl : Bool) (im out : Img α) (h : Accepts E im out)
    (hd : im.dims.d = 1) (hh : 2 ≤ im.dims.h) :
    ∃ r, dilate E inPl (HexSE 1) im out = some (.ok r) ∧ r.dims = im.dims ∧
      ∀ x y : Int, Img.In im.dims ⟨x, y, 0⟩ → ∃ v, r.at? ⟨x, y, 0⟩ = some v ∧
        IsLUB { u | ∃ q ∈ (if y % 2 = 0 then
            [(x, y), (x - 1, y), (x + 1, y), (x, y - 1), (x - 1, y - 1), (x, y + 1), (x - 1, y + 1)]
          else
            [(x, y), (x - 1, y), (x + 1, y), (x, y - 1), (x + 1, y - 1), (x, y + 1), (x + 1, y + 1)] :
            List (Int × Int)), im.at? ⟨q.1, q.2, 0⟩ = some u } v := by
  have hok : SEOk im.dims (HexSE 1) := by
    refine ⟨by decide, by decide, fun _ => by omega, fun _ => ⟨?_, by decide, fun _ => hh⟩, ?_⟩
    · intro p; rfl
    · intro hc; exact absurd hc (by decide)
  obtain ⟨r, h1, h2⟩ := dilate_spec E inPl (HexSE 1) im out h hok
  obtain ⟨r', h3, h4⟩ := h2
  have h3 := h3.of_same (Img.Same.refl _) h4
  refine ⟨r, h1, h3.1, fun x y hp => ?_⟩
  obtain ⟨v, hv, hl⟩ := h3.2 _ hp
  refine ⟨v, hv, ?_⟩
  convert hl using 1
  ext u
  simp only [Set.mem_ofPred_eq]
  have hrel : ∀ q, seRel (HexSE 1) q ⟨x, y, 0⟩ ↔ nHex q ⟨x, y, 0⟩ := fun q =>
    (kernelRel_iff (HexSE 1) rfl (fun p => Iff.rfl) (by decide) q _).symm
  simp only [hrel, nHex]
  constructor
  · rintro ⟨⟨a, b⟩, hq, hu⟩
    refine ⟨⟨a, b, 0⟩, ?_, hu⟩
    split at hq <;> simp only [List.mem_cons, List.not_mem_nil, or_false, Prod.mk.injEq] at hq <;>
      simp only [true_and] <;> omega
  · rintro ⟨⟨a, b, c⟩, ⟨hz, hq⟩, hu⟩
    simp only at hz hq
    subst hz
    refine ⟨(a, b), ?_, hu⟩
    split <;> simp only [List.mem_cons, List.not_mem_nil, or_false, Prod.mk.injEq] <;> omega

/-- **C25**, error branch: images that are not allocated, or of different sizes when automatic
resizing is off, are refused with the documented code and nothing is computed. -/
theorem C25_errors (E : Env α) (inPl : Bool) (se : StrElt) (im out : Img α) :
    (im.alloc = false ∨ out.alloc = false →
      dilate E inPl se im out = some (.error errBadAllocation) ∧
      erode E inPl se im out = some (.error errBadAllocation)) ∧
    (im.alloc = true → out.alloc = true → out.dims ≠ im.dims → E.auto = false →
      dilate E inPl se im out = some (.error errBadSize) ∧
      erode E inPl se im out = some (.error errBadSize)) := by
  constructor
  · intro h
    have : checkSize E im out = .error errBadAllocation := by unfold checkSize; rw [if_pos h]
    unfold dilate erode guarded
    rw [this]; exact ⟨rfl, rfl⟩
  · intro h1 h2 h3 h4
    have : checkSize E im out = .error errBadSize := by
      unfold checkSize; rw [if_neg (by rw [h1, h2]; simp), if_neg h3, if_neg (by rw [h4]; simp)]
    unfold dilate erode guarded
    rw [this]; exact ⟨rfl, rfl⟩

/-- Images of a single line: the vertical, square, cross, cube and hexagon kernels index a line
that does not exist (undefined behaviour), for every image, so the claim of C25 cannot hold. -/
theorem C25_one_line_ub (E : Env α) (inPl : Bool) (se : StrElt) (im out : Img α)
    (h : Accepts E im out) (hh : im.dims.h = 1) (hs : needsTwoLines se.seT = true)
    (h0 : se.size ≠ 0) : dilate E inPl se im out = none := by
  obtain ⟨o, ho, hd⟩ := checkSize_ok E im out h
  unfold dilate guarded
  rw [ho]
  simp only
  have hsafe : isInplaceSafe se = true ∧ se.seT ≠ .rhombicuboctahedron := by
    unfold needsTwoLines at hs
    unfold isInplaceSafe
    cases hT : se.seT <;> simp_all
  have : execMorph E max ⊥ inPl se im o = none := by
    unfold execMorph
    rw [if_neg h0, if_neg hsafe.2, if_pos hsafe.1]
    have : execSingle E max ⊥ inPl se im o = none := by
      unfold execSingle
      simp only
      generalize (if inPl = true then 0 else 1) = kd
      have hk := kernelOf_isSome se E.nt 0 kd im.dims
      cases hk' : kernelOf se.seT E.nt 0 kd im.dims with
      | none => rw [hk', hsafe.1] at hk; cases hk
      | some phs => simp only; rw [if_pos ⟨hs, by omega⟩]
    rw [this]; rfl
  rw [this]; rfl

/-- An element wider than the image: the line shift has a negative length, undefined behaviour. -/
theorem C25_wide_ub (E : Env α) (im out : Img α) (h : Accepts E im out) (b : Nat)
    (hb : im.dims.w < b) :
    dilate E false ⟨false, .generic, 1, [⟨b, 0, 0⟩]⟩ im out = none := by
  obtain ⟨o, ho, hd⟩ := checkSize_ok E im out h
  obtain ⟨hw, hh, hdd⟩ := Img.alloc_pos h.1
  unfold dilate guarded
  rw [ho]
  simp only
  have : execMorph E max ⊥ false ⟨false, .generic, 1, [⟨b, 0, 0⟩]⟩ im o = none := by
    unfold execMorph
    rw [if_neg (by simp), if_neg (by simp), if_neg (by simp [isInplaceSafe]), if_pos (by simp)]
    unfold execSingle
    simp only [kernelOf]
    unfold execGeneric
    simp only
    unfold buildLines
    rw [if_neg]
    intro hall
    have := hall 0 (by omega) 0 (by omega)
    rw [Option.isSome_iff_ne_none] at this
    apply this
    unfold genericLine genericTerm extractLine
    simp only [Nat.cast_zero, sub_zero]
    rw [if_neg (by omega)]
    have hn : shiftLine (fun i => im.px i (0 : Int).toNat (0 : Int).toNat)
        ((b : Int) + (if oddLine false 0 0 && cOdd 0 then 1 else 0)) im.dims.w (fun _ => ⊥) ⊥ =
          none := by
      rw [shiftLine_none]; right
      simp [oddLine]; exact hb
    rw [hn]; rfl
  rw [this]; rfl

end

/-! ### Concrete cases -/

/-- A 3x2 image of `Fin 4`. -/
def exIm : Img (Fin 4) := Img.ofRows 0 ⟨3, 2, 1⟩ [[[0, 3, 0], [0, 0, 1]]]

/-- An environment for examples. -/
def exEnv : Env (Fin 4) := ⟨2, false, fun _ => 2, fun _ => 1⟩

example : Accepts exEnv exIm exIm ∧ SEOk exIm.dims (SquSE 2) ∧ SEOk exIm.dims (HexSE 3) ∧
    SEOk exIm.dims ⟨false, .generic, 1, [⟨2, 0, 0⟩, ⟨0, 1, 0⟩]⟩ :=
  ⟨⟨by decide, by decide, Or.inl rfl⟩, seOk_iff _ _ (by decide), seOk_iff _ _ (by decide),
    seOk_iff _ _ (by decide)⟩

/-- The dilation of `exIm` by the generic algorithm, computed. -/
example : ((dilate exEnv false ⟨false, .generic, 1, [⟨1, 0, 0⟩, ⟨0, 1, 0⟩]⟩ exIm exIm).map
    fun e => match e with | .ok r => r.toRows | .error _ => []) =
    some [[[0, 0, 3], [0, 3, 0]]] := by decide

/-- `SquSE().noCenter()` keeps the type of the square: the centre is still used, so the result is
not the dilation by the points of the element. -/
theorem C25_noCenter_bug : ∃ (se : StrElt) (im : Img (Fin 2)) (E : Env (Fin 2)) (r : Img (Fin 2)),
    se = (SquSE 1).noCenter ∧ Accepts E im im ∧ dilate E false se im im = some (.ok r) ∧
    ¬ IsDil se im r := by
  let im : Img (Fin 2) := Img.ofRows 0 ⟨3, 3, 1⟩ [[[0, 0, 0], [0, 1, 0], [0, 0, 0]]]
  let E : Env (Fin 2) := ⟨1, false, fun _ => 0, fun _ => 0⟩
  have hacc : Accepts E im im := ⟨by decide, by decide, Or.inl rfl⟩
  obtain ⟨r, h1, h2⟩ := dilate_spec E false (SquSE 1) im im hacc (seOk_iff _ _ (by decide))
  refine ⟨(SquSE 1).noCenter, im, E, r, rfl, hacc, ?_, ?_⟩
  · rw [← h1]; rfl
  · intro hd
    obtain ⟨r', h3, h4⟩ := h2
    have h3 := h3.of_same (Img.Same.refl _) h4
    have hp : Img.In im.dims ⟨1, 1, 0⟩ := by decide
    obtain ⟨v, hv, hl⟩ := h3.2 _ hp
    obtain ⟨v', hv', hl'⟩ := hd.2 _ hp
    rw [hv] at hv'; cases hv'
    have h1v : (1 : Fin 2) ≤ v := hl.1 ⟨⟨1, 1, 0⟩, ⟨⟨0, 0, 0⟩, by decide, by decide⟩, by decide⟩
    have hv0 : v ≤ (0 : Fin 2) := by
      refine hl'.2 ?_
      rintro u ⟨q, b, hb, he, hu⟩
      rw [show (SquSE 1).noCenter.points = (squPlane 0).tail by decide] at hb
      have hq : q = ⟨1 - b.x, 1 - b.y, 0 - b.z⟩ := by
        have := (srcPt_phys false ⟨1, 1, 0⟩ b q (by simp)).mpr he
        rw [this]; simp [srcPt]
      subst hq
      simp only [squPlane, List.tail_cons, List.mem_cons, List.not_mem_nil, or_false] at hb
      have hu' : ∀ b' ∈ (squPlane 0).tail, im.at? ⟨1 - b'.x, 1 - b'.y, 0 - b'.z⟩ = some 0 := by decide
      rw [hu' b (by simpa [squPlane] using hb)] at hu
      cases hu; exact le_refl _
    exact absurd (h1v.trans hv0) (by decide)

/-! ## C26 -/

theorem builtin_generic {D : Dims} {se : StrElt} (h : SEOk D se) (hs : isInplaceSafe se = true)
    (hw : 1 ≤ D.w) : SEOk D { se with seT := .generic } := by
  obtain ⟨a, b, c⟩ := h.special hs
  have hbd : ∀ t, ∀ p ∈ builtinPts t, -1 ≤ p.x ∧
      p.x + (if decide (t = .hex) && cOdd p.y then 1 else 0) ≤ 1 := by
    intro t; cases t <;> decide
  have hodd : se.odd = decide (se.seT = .hex) := by
    cases ho : se.odd
    · symm; rw [decide_eq_false_iff_not]; intro e; rw [b.mpr e] at ho; cases ho
    · symm; rw [decide_eq_true_eq]; exact b.mp ho
  refine ⟨h.ne, by simp, h.slice, fun hc => by simp [isInplaceSafe] at hc, fun _ => ⟨?_, ?_⟩⟩
  · intro q hq
    have := hbd se.seT q ((a q).mp hq)
    simp only [hodd]; omega
  · intro q hq
    have hq' : q ∈ se.transpose.points := by rw [transpose_mem] at hq ⊢; exact hq
    have := hbd se.seT q (by
      have ht := (h.transpose.special (by
        rw [← hs]; unfold isInplaceSafe; rw [(C22_transpose se).2.2.2.1])).1 q
      rw [(C22_transpose se).2.2.2.1] at ht
      exact ht.mp hq')
    rw [(C22_transpose { se with seT := .generic }).2.2.1]
    simp only [hodd]; omega

section
variable [LinearOrder α] [BoundedOrder α]

/-- **C26**: for the horizontal, vertical, square, cross, hexagonal and cube elements, at every
size, in place or not, whatever the threads and the uninitialised memory, the dedicated kernels
give the same image as the generic algorithm run with the same points (which itself computes the
definition, C25). (partial: hexagonal elements on one slice, images with at least two lines.) -/
theorem C26_dilate_partial (E E' : Env α) (inPl inPl' : Bool) (se : StrElt) (im out out' : Img α)
    (h : Accepts E im out) (h' : Accepts E' im out') (hse : SEOk im.dims se)
    (hs : isInplaceSafe se = true) :
    ∃ r r', dilate E inPl se im out = some (.ok r) ∧
      dilate E' inPl' { se with seT := .generic } im out' = some (.ok r') ∧ Img.Same r r' := by
  obtain ⟨hw, _, _⟩ := Img.alloc_pos h.1
  obtain ⟨r, h1, h2⟩ := dilate_spec E inPl se im out h hse
  obtain ⟨r', h3, h4⟩ := dilate_spec E' inPl' { se with seT := .generic } im out' h'
    (builtin_generic hse hs hw)
  exact ⟨r, r', h1, h3, IterRel.unique (fun _ _ _ _ hs a b => IsDilBy.unique hs a b)
    (Img.Same.refl im) h2 h4⟩

/-- **C26** for erosions. -/
theorem C26_erode_partial (E E' : Env α) (inPl inPl' : Bool) (se : StrElt) (im out out' : Img α)
    (h : Accepts E im out) (h' : Accepts E' im out') (hse : SEOk im.dims se)
    (hs : isInplaceSafe se = true) :
    ∃ r r', erode E inPl se im out = some (.ok r) ∧
      erode E' inPl' { se with seT := .generic } im out' = some (.ok r') ∧ Img.Same r r' := by
  obtain ⟨hw, _, _⟩ := Img.alloc_pos h.1
  obtain ⟨r, h1, h2⟩ := erode_spec E inPl se im out h hse
  obtain ⟨r', h3, h4⟩ := erode_spec E' inPl' { se with seT := .generic } im out' h'
    (builtin_generic hse hs hw)
  exact ⟨r, r', h1, h3, IterRel.unique (fun _ _ _ _ hs a b => isEroBy_unique hs a b)
    (Img.Same.refl im) h2 h4⟩

/-- **C26**: the depth segment (a step of the cube) is the dilation by the three points
`(0,0,-1), (0,0,0), (0,0,1)`: same image as the generic algorithm with these points. -/
theorem C26_depth (E : Env α) (own : Nat → Nat) (kd : Nat) (im out out' : Img α) (g m' : KMem α)
    (ha : im.alloc = true)
    (hrun : KRun max ⊥ im.dims.w (depthKernel 0 kd im.dims own) (kLoad ⊥ 0 kd im out g) m') :
    ∃ r, execGeneric max ⊥ ⟨false, .generic, 1, [⟨0, 0, 0⟩, ⟨0, 0, -1⟩, ⟨0, 0, 1⟩]⟩ im out' =
      some r ∧ Img.Same (kStore im.dims kd m') r := by
  obtain ⟨hw, hh, hd⟩ := Img.alloc_pos ha
  obtain ⟨r, h1, h2⟩ := execGeneric_dil ⟨false, .generic, 1, [⟨0, 0, 0⟩, ⟨0, 0, -1⟩, ⟨0, 0, 1⟩]⟩ im
    out' (by simp) (by
      intro b hb
      simp only [List.mem_cons, List.not_mem_nil, or_false] at hb
      rcases hb with rfl | rfl | rfl <;> simp) (by simp)
  refine ⟨r, h1, ?_⟩
  have h3 := (depthKernel_dil im.dims 0 kd _ m' own hd hrun (fun x _ => rfl)).1
  refine IsDilBy.unique (kLoad_store _ _ _ _ _) h3 (h2.congr' ?_)
  intro q p _ _
  rw [seRel_even _ rfl]
  simp only [List.mem_cons, List.not_mem_nil, or_false, IntPoint.mk.injEq, nDepth]
  omega

end

example : SEOk ⟨3, 4, 1⟩ (HexSE 3) ∧ isInplaceSafe (HexSE 3) = true ∧ SEOk ⟨3, 4, 2⟩ (CubeSE 2) ∧
    SEOk ⟨1, 1, 1⟩ (HorizSE 2) :=
  ⟨seOk_iff _ _ (by decide), rfl, seOk_iff _ _ (by decide), seOk_iff _ _ (by decide)⟩

/-! ## C27 -/

section
variable [LinearOrder α] [OrderBot α]

/-- **C27**, dilation: two executions of the vertical kernel, with any numbers of threads, any
interleavings of the pixel accesses between the barriers, any contents of the buffers and of the
old output, in place (`kd = 0`) or not, give the same image. -/
theorem C27_vertical (nt nt' kd kd' : Nat) (im out out' : Img α) (g g' m m' : KMem α)
    (hh : 2 ≤ im.dims.h)
    (h : KRun max ⊥ im.dims.w (vertKernel 0 kd im.dims (kThreads nt im.dims.h)) (kLoad ⊥ 0 kd im out g) m)
    (h' : KRun max ⊥ im.dims.w (vertKernel 0 kd' im.dims (kThreads nt' im.dims.h))
      (kLoad ⊥ 0 kd' im out' g') m') :
    Img.Same (kStore im.dims kd m) (kStore im.dims kd' m') :=
  IsDilBy.unique ((kLoad_store _ _ _ _ _).trans (kLoad_store _ _ _ _ _).symm)
    (vertKernel_dil im.dims 0 kd _ m nt hh h fun _ _ => rfl).1
    (vertKernel_dil im.dims 0 kd' _ m' nt' hh h' fun _ _ => rfl).1

/-- **C27** for the cross kernel. -/
theorem C27_cross (nt nt' kd kd' : Nat) (im out out' : Img α) (g g' m m' : KMem α)
    (hw : 1 ≤ im.dims.w) (hh : 2 ≤ im.dims.h)
    (h : KRun max ⊥ im.dims.w (crossKernel 0 kd im.dims (kThreads nt im.dims.h))
      (kLoad ⊥ 0 kd im out g) m)
    (h' : KRun max ⊥ im.dims.w (crossKernel 0 kd' im.dims (kThreads nt' im.dims.h))
      (kLoad ⊥ 0 kd' im out' g') m') :
    Img.Same (kStore im.dims kd m) (kStore im.dims kd' m') :=
  IsDilBy.unique ((kLoad_store _ _ _ _ _).trans (kLoad_store _ _ _ _ _).symm)
    (crossKernel_dil im.dims 0 kd _ m nt hw hh h fun _ _ => rfl).1
    (crossKernel_dil im.dims 0 kd' _ m' nt' hw hh h' fun _ _ => rfl).1

/-- **C27** for the kernels made of parallel loops: the distribution of the lines among the
threads (`own`) does not matter either. -/
theorem C27_square_cube (nt nt' kd kd' : Nat) (o1 o2 o1' o2' : Nat → Nat) (im out out' : Img α)
    (g g' m m' : KMem α) (ha : im.alloc = true) (hh : 2 ≤ im.dims.h)
    (h : KRun max ⊥ im.dims.w (cubeKernel 0 kd im.dims (kThreads nt im.dims.h) o1 o2)
      (kLoad ⊥ 0 kd im out g) m)
    (h' : KRun max ⊥ im.dims.w (cubeKernel 0 kd' im.dims (kThreads nt' im.dims.h) o1' o2')
      (kLoad ⊥ 0 kd' im out' g') m') :
    Img.Same (kStore im.dims kd m) (kStore im.dims kd' m') := by
  obtain ⟨hw, _, hd⟩ := Img.alloc_pos ha
  exact IsDilBy.unique ((kLoad_store _ _ _ _ _).trans (kLoad_store _ _ _ _ _).symm)
    (cubeKernel_dil im.dims 0 kd _ m nt _ _ hw hh hd h fun _ _ => rfl).1
    (cubeKernel_dil im.dims 0 kd' _ m' nt' _ _ hw hh hd h' fun _ _ => rfl).1
end

/-- **C27**, erosion: same statement for the minimum. -/
theorem C27_vertical_erosion [LinearOrder α] [OrderTop α] (nt nt' kd kd' : Nat) (im out out' : Img α)
    (g g' m m' : KMem α) (hh : 2 ≤ im.dims.h)
    (h : KRun min ⊤ im.dims.w (vertKernel 0 kd im.dims (kThreads nt im.dims.h)) (kLoad ⊤ 0 kd im out g) m)
    (h' : KRun min ⊤ im.dims.w (vertKernel 0 kd' im.dims (kThreads nt' im.dims.h))
      (kLoad ⊤ 0 kd' im out' g') m') :
    Img.Same (kStore im.dims kd m) (kStore im.dims kd' m') :=
  C27_vertical (α := αᵒᵈ) nt nt' kd kd' im out out' g g' m m' hh h h'

/-- **C27**, erosion, cross kernel. -/
theorem C27_cross_erosion [LinearOrder α] [OrderTop α] (nt nt' kd kd' : Nat) (im out out' : Img α)
    (g g' m m' : KMem α) (hw : 1 ≤ im.dims.w) (hh : 2 ≤ im.dims.h)
    (h : KRun min ⊤ im.dims.w (crossKernel 0 kd im.dims (kThreads nt im.dims.h))
      (kLoad ⊤ 0 kd im out g) m)
    (h' : KRun min ⊤ im.dims.w (crossKernel 0 kd' im.dims (kThreads nt' im.dims.h))
      (kLoad ⊤ 0 kd' im out' g') m') :
    Img.Same (kStore im.dims kd m) (kStore im.dims kd' m') :=
  C27_cross (α := αᵒᵈ) nt nt' kd kd' im out out' g g' m m' hw hh h h'

/-- **C27**: no data race. Between two barriers no thread of the vertical kernel writes a line
that another thread reads or writes. -/
theorem C27_vertical_race_free (nt ks kd : Nat) (D : Dims) (hh : 2 ≤ D.h) :
    ∀ ph ∈ vertKernel ks kd D (kThreads nt D.h), ∀ t u, t ≠ u → ∀ op ∈ ph t, ∀ op' ∈ ph u,
      op.out ≠ op'.out ∧ op.out ∉ op'.ins := by
  intro ph hph
  have B := blocks nt D.h hh
  simp only [vertKernel, List.mem_flatMap] at hph
  obtain ⟨z, _, hph⟩ := hph
  rw [vertSlice_eq] at hph
  exact (blockPhases_free D.w ks kd z D.h _ 2 B _ _ (fun t _ => vertPh1_lines _ _ _ _ _)
    (fun t ht op hop => by
      obtain ⟨h1, h2, h3⟩ := vertPh2_lines _ _ _ _ _ _ _ (B.size t ht) op hop
      refine ⟨?_, fun r hr => ?_, h3 _⟩
      · rcases h1 with e | e | e
        · exact Or.inl ⟨0, by decide, e⟩
        · exact Or.inl ⟨1, by decide, e⟩
        · exact Or.inr e
      · rcases h2 r hr with e | e | e | e
        · exact Or.inl e
        · exact Or.inr (Or.inl ⟨0, e⟩)
        · exact Or.inr (Or.inl ⟨1, e⟩)
        · exact Or.inr (Or.inr e)) ph hph).1

/-- **C27**: no data race in the cross kernel. -/
theorem C27_cross_race_free (nt ks kd : Nat) (D : Dims) (hw : 1 ≤ D.w) (hh : 2 ≤ D.h) :
    ∀ ph ∈ crossKernel ks kd D (kThreads nt D.h), ∀ t u, t ≠ u → ∀ op ∈ ph t, ∀ op' ∈ ph u,
      op.out ≠ op'.out ∧ op.out ∉ op'.ins := by
  intro ph hph
  have B := blocks nt D.h hh
  simp only [crossKernel, List.mem_flatMap] at hph
  obtain ⟨z, _, hph⟩ := hph
  rw [crossSlice_eq] at hph
  exact (blockPhases_free D.w ks kd z D.h _ 5 B _ _ (fun t _ => crossPh1_lines _ hw _ _ _ _)
    (fun t ht => crossPh2_lines _ hw _ _ _ _ _ _ _ (B.size t ht)) ph hph).1

/-- **C27**: executions exist, and the one with the threads one after the other is one of them. -/
theorem C27_run_exists (f : α → α → α) (border : α) (nt ks kd : Nat) (D : Dims) (m : KMem α) :
    KRun f border D.w (vertKernel ks kd D (kThreads nt D.h)) m
      (kExec f border D.w (max nt 1) (vertKernel ks kd D (kThreads nt D.h)) m) ∧
    KRun f border D.w (crossKernel ks kd D (kThreads nt D.h)) m
      (kExec f border D.w (max nt 1) (crossKernel ks kd D (kThreads nt D.h)) m) :=
  ⟨kExec_run _ _ _ _ _ _ (vertKernel_bound ks kd D nt), kExec_run _ _ _ _ _ _ (crossKernel_bound ks kd D nt)⟩

/-- With 9 lines and 4 threads two threads really share the work. -/
example : kThreads 4 9 = 2 ∧ blockFirst 2 9 1 = 4 ∧ blockSize 2 9 0 = 4 ∧ blockSize 2 9 1 = 5 := by
  decide

end Smil
