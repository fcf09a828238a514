import Verif.FastExtremaLemmas
import Verif.PropsBuild

/-! # C72: the regional extrema computed from arrow images -/

namespace Smil
open StrElt
variable {n : Nat}

/-! ### The propagation -/

/-- The arrow value `a` at `p` sends to `q`: `q` is the pixel of the image in the direction of a point of the
element whose bit is set. -/
def ArrowSends (D : Dims) (se : StrElt) (arrows : Img (BitVec n)) (p q : IntPoint) : Prop :=
  Img.In D q ∧ ∃ k b a, se.points[k]? = some b ∧ b ≠ ⟨0, 0, 0⟩ ∧ arrows.at? p = some a ∧ a.getLsbD k = true ∧
    phys se.odd p + phys se.odd b = phys se.odd q

theorem arrowTo_iff {se : StrElt} {arrows : Img (BitVec n)} {i j : Nat} :
    ArrowTo arrows.dims se arrows.buf i j ↔ i < arrows.dims.count ∧ j < arrows.dims.count ∧
      ArrowSends arrows.dims se arrows (coordPt arrows.dims i) (coordPt arrows.dims j) := by
  unfold ArrowTo ArrowSends
  constructor
  · rintro ⟨hi, hj⟩
    obtain ⟨c1, c2⟩ := coordPt_in hi
    have hjl := arrowNb_lt hi j hj
    rw [← c2, mem_arrowNb c1] at hj
    obtain ⟨k, b, q, h1, h2, h3, h4, rfl, h6⟩ := hj
    refine ⟨hi, hjl, ?_⟩
    rw [coordPt_offOf h4]
    refine ⟨h4, k, b, _, h1, h3, Img.buf_offOf arrows _ c1, h2, h6⟩
  · rintro ⟨hi, hj, hin, k, b, a, h1, h2, h3, h4, h5⟩
    obtain ⟨c1, c2⟩ := coordPt_in hi
    obtain ⟨d1, d2⟩ := coordPt_in hj
    refine ⟨hi, ?_⟩
    rw [Img.buf_offOf arrows _ c1] at h3
    cases h3
    have : j ∈ arrowNb arrows.dims se (arrows.buf (offOf arrows.dims (coordPt arrows.dims i)))
        (offOf arrows.dims (coordPt arrows.dims i)) :=
      (mem_arrowNb c1 j).mpr ⟨k, b, _, h1, h4, h2, d1, d2, h5⟩
    rwa [c2] at this

/-- **C72**, `arrowPropagate`: from a pixel of the image, over an image where no pixel has the value, it ends and
gives the value exactly to the pixels that a non-empty path of arrows reaches; the other pixels are left
unchanged. -/
theorem C72_propagate {β : Type} [DecidableEq β] (se : StrElt) (arrows : Img (BitVec n)) (v : β) (out : Img β)
    (hd : out.dims = arrows.dims) (hv : ∀ i, out.buf i ≠ v) (p : IntPoint) (hp : Img.In arrows.dims p) :
    ∃ g, arrowPropagate arrows.dims se arrows.buf v (offOf arrows.dims p) out.buf = some g ∧
      ∀ q, Img.In arrows.dims q →
        (Relation.TransGen (ArrowSends arrows.dims se arrows) p q → (⟨out.dims, g⟩ : Img β).at? q = some v) ∧
        (¬ Relation.TransGen (ArrowSends arrows.dims se arrows) p q →
          (⟨out.dims, g⟩ : Img β).at? q = out.at? q) := by
  obtain ⟨g, hg, h1, h2, h3, h4⟩ := arrowPropagate_spec (se := se) (arrows := arrows.buf) v (offOf_lt hp) out.buf
  have hat : ∀ q, Img.In arrows.dims q →
      (⟨out.dims, g⟩ : Img β).at? q = some (g (offOf arrows.dims q)) := by
    intro q hq
    rw [hd]
    exact Img.buf_offOf (⟨arrows.dims, g⟩ : Img β) q hq
  refine ⟨g, hg, fun q hq => ⟨fun hr => ?_, fun hr => ?_⟩⟩
  · rw [hat q hq]
    have key : ∀ t, Relation.TransGen (ArrowSends arrows.dims se arrows) p t → Img.In arrows.dims t →
        g (offOf arrows.dims t) = v := by
      intro t ht
      induction ht with
      | @single b hb =>
        intro hin
        apply h3
        rw [arrowTo_iff, coordPt_offOf hp, coordPt_offOf hin]
        exact ⟨offOf_lt hp, offOf_lt hin, hb⟩
      | @tail b c hpb hbc ih =>
        intro hin
        have hb : Img.In arrows.dims b := by
          obtain ⟨_, k, e, a, _, _, h, _⟩ := hbc
          exact Img.at?_eq_some_in _ _ _ h
        refine h4 _ (ih hb) (hv _) _ ?_
        rw [arrowTo_iff, coordPt_offOf hb, coordPt_offOf hin]
        exact ⟨offOf_lt hb, offOf_lt hin, hbc⟩
    rw [key q hr hq]
  · rw [hat q hq, Img.buf_offOf out q (by rw [hd]; exact hq), hd]
    rcases h1 (offOf arrows.dims q) with e | ⟨_, ht⟩
    · rw [e]
    · exfalso
      apply hr
      have key : ∀ i, Relation.TransGen (ArrowTo arrows.dims se arrows.buf) (offOf arrows.dims p) i →
          Relation.TransGen (ArrowSends arrows.dims se arrows) p (coordPt arrows.dims i) := by
        intro i hi
        induction hi with
        | @single b hb =>
          rw [arrowTo_iff, coordPt_offOf hp] at hb
          exact .single hb.2.2
        | @tail b c _ hbc ih =>
          rw [arrowTo_iff] at hbc
          exact ih.tail hbc.2.2
      have := key _ ht
      rwa [coordPt_offOf hq] at this

/-! ### Beaten pixels and regional extrema -/

theorem flat_of_plateau {N : IntPoint → IntPoint → Prop} {f : Img Int} {c : Int} {p q : IntPoint}
    (h : Plateau N f c p q) : f.at? q = some c ∧ Relation.ReflTransGen (FlatStep N f) q p := by
  induction h with
  | refl h => exact ⟨h, .refl⟩
  | cons h1 h2 _ ih => exact ⟨h2, .head ⟨h1, c, h2, ih.1⟩ ih.2⟩

theorem plateau_of_flat {N : IntPoint → IntPoint → Prop} {f : Img Int} {c : Int} {p q : IntPoint}
    (hc : f.at? p = some c) (h : Relation.ReflTransGen (FlatStep N f) q p) :
    Plateau N f c p q := by
  induction h using Relation.ReflTransGen.head_induction_on with
  | refl => exact .refl hc
  | @head a b hab _ ih =>
    obtain ⟨h1, d, h2, h3⟩ := hab
    rw [(flat_of_plateau ih).1] at h3
    cases h3
    exact .cons h1 h2 ih

theorem flat_noCenter {se : StrElt} {f : Img Int} {p q : IntPoint} :
    Relation.ReflTransGen (FlatStep (seRel se.noCenter) f) q p ↔
      Relation.ReflTransGen (FlatStep (seRel se) f) q p := by
  constructor <;> intro h
  · induction h with
    | refl => exact .refl
    | @tail b c _ hbc ih =>
      by_cases e : b = c
      · exact e ▸ ih
      · exact ih.tail ⟨(seRel_noCenter e).mp hbc.1, hbc.2⟩
  · induction h with
    | refl => exact .refl
    | @tail b c _ hbc ih =>
      by_cases e : b = c
      · exact e ▸ ih
      · exact ih.tail ⟨(seRel_noCenter e).mpr hbc.1, hbc.2⟩

theorem beaten_min {se : StrElt} (hN : ∀ p q, seRel se p q → seRel se q p) {f : Img Int} {p : IntPoint} {c : Int}
    (hp : f.at? p = some c) :
    Beaten (seRel se.noCenter) (fun a b => decide (a > b)) f p ↔ ¬ IsRegMin (seRel se) f p := by
  constructor
  · rintro ⟨q, s, a, b, hr, h1, h2, h3, h4⟩ ⟨d, hd, hmin⟩
    rw [hp] at hd; cases hd
    have hpl := plateau_of_flat hp (flat_noCenter.mp hr)
    have e := (flat_of_plateau hpl).1
    rw [h2] at e; cases e
    have hlt : b < c := by simpa using h4
    have hne : q ≠ s := by rintro rfl; rw [h2] at h3; cases h3; omega
    have := hmin q hpl s b (hN _ _ ((seRel_noCenter hne).mp h1)) h3
    omega
  · intro h
    by_contra hn
    apply h
    refine ⟨c, hp, fun q hq s a hs ha => ?_⟩
    obtain ⟨h1, h2⟩ := flat_of_plateau hq
    by_contra hlt
    have hne : q ≠ s := by rintro rfl; rw [h1] at ha; cases ha; omega
    exact hn ⟨q, s, c, a, flat_noCenter.mpr h2, (seRel_noCenter hne).mpr (hN _ _ hs), h1, ha, by
      simp only [decide_eq_true_eq]; omega⟩

theorem beaten_max {se : StrElt} (hN : ∀ p q, seRel se p q → seRel se q p) {f : Img Int} {p : IntPoint} {c : Int}
    (hp : f.at? p = some c) :
    Beaten (seRel se.noCenter) (fun a b => decide (a < b)) f p ↔ ¬ IsRegMax (seRel se) f p := by
  constructor
  · rintro ⟨q, s, a, b, hr, h1, h2, h3, h4⟩ ⟨d, hd, hmin⟩
    rw [hp] at hd; cases hd
    have hpl := plateau_of_flat hp (flat_noCenter.mp hr)
    have e := (flat_of_plateau hpl).1
    rw [h2] at e; cases e
    have hlt : c < b := by simpa using h4
    have hne : q ≠ s := by rintro rfl; rw [h2] at h3; cases h3; omega
    have := hmin q hpl s b (hN _ _ ((seRel_noCenter hne).mp h1)) h3
    omega
  · intro h
    by_contra hn
    apply h
    refine ⟨c, hp, fun q hq s a hs ha => ?_⟩
    obtain ⟨h1, h2⟩ := flat_of_plateau hq
    by_contra hlt
    have hne : q ≠ s := by rintro rfl; rw [h1] at ha; cases ha; omega
    exact hn ⟨q, s, c, a, flat_noCenter.mpr h2, (seRel_noCenter hne).mpr (hN _ _ hs), h1, ha, by
      simp only [decide_eq_true_eq]; omega⟩

/-! ### The properties -/

/-- What the arrows need: an element of size 1 whose neighbours have a bit each (the sign bit excepted) and do
not reach further than a line. -/
structure FastOK (sg : Bool) (n w : Nat) (se : StrElt) : Prop where
  size : se.size = 1
  type : se.seT ≠ .rhombicuboctahedron
  some : se.noCenter.points ≠ []
  long : se.noCenter.points.length ≤ 64
  fits : FitsArrows sg n se.noCenter.points.length
  bits : 3 ≤ n
  width : ArrowOK w se.noCenter
  symm : ∀ p q, seRel se p q → seRel se q p

/-- **C72**, `fastMinima`: the output is the maximum of the type exactly on the regional minima of the input and 0
elsewhere. Missing from the full claim: elements with more neighbours than the type has (positive) bits, elements
of a size other than 1, an output which is the input. -/
theorem C72_minima_partial (sg : Bool) (raw : Nat → BitVec n) (se : StrElt) (im out : Img (BitVec n))
    (hd : out.dims = im.dims) (hok : FastOK sg n im.dims.w se) :
    ∃ r, fastMinima sg raw se false im out = some r ∧ r.dims = im.dims ∧ ∀ p, Img.In im.dims p →
      (IsRegMin (seRel se) (valImg sg im) p → r.at? p = some (bvMax sg)) ∧
      (¬ IsRegMin (seRel se) (valImg sg im) p → r.at? p = some 0) := by
  obtain ⟨r, hr, hrd, hv⟩ := fastExtrema_spec sg raw (fun a b => decide (a > b)) (bvMax sg)
    (fun v => by have := bvVal_le_max sg v; simp only [decide_eq_false_iff_not]; omega)
    se hok.size hok.type hok.some im out hd hok.long hok.fits hok.bits hok.width
  refine ⟨r, hr, hrd, fun p hp => ?_⟩
  have hc := Img.buf_offOf (valImg sg im) p hp
  obtain ⟨k1, k2⟩ := hv p hp
  rw [beaten_min hok.symm hc] at k1 k2
  exact ⟨fun h => k2 (by simpa using h), k1⟩

/-- **C72**, `fastMaxima`: dually for the regional maxima. -/
theorem C72_maxima_partial (sg : Bool) (raw : Nat → BitVec n) (se : StrElt) (im out : Img (BitVec n))
    (hd : out.dims = im.dims) (hok : FastOK sg n im.dims.w se) :
    ∃ r, fastMaxima sg raw se false im out = some r ∧ r.dims = im.dims ∧ ∀ p, Img.In im.dims p →
      (IsRegMax (seRel se) (valImg sg im) p → r.at? p = some (bvMax sg)) ∧
      (¬ IsRegMax (seRel se) (valImg sg im) p → r.at? p = some 0) := by
  obtain ⟨r, hr, hrd, hv⟩ := fastExtrema_spec sg raw (fun a b => decide (a < b)) (bvMin sg)
    (fun v => by have := bvVal_min_le sg v; simp only [decide_eq_false_iff_not]; omega)
    se hok.size hok.type hok.some im out hd hok.long hok.fits hok.bits hok.width
  refine ⟨r, hr, hrd, fun p hp => ?_⟩
  have hc := Img.buf_offOf (valImg sg im) p hp
  obtain ⟨k1, k2⟩ := hv p hp
  rw [beaten_max hok.symm hc] at k1 k2
  exact ⟨fun h => k2 (by simpa using h), k1⟩

/-! ### Examples and witnesses -/

/-- An image given by its values. -/
def bvIm (n : Nat) (D : Dims) (l : List Int) : Img (BitVec n) := ⟨D, fun i => BitVec.ofInt n (l.getD i 0)⟩
/-- The values of a result. -/
def bvVals (sg : Bool) (r : Option (Img (BitVec n))) : Option (List Int) :=
  r.map fun im => (List.range im.dims.count).map fun i => bvVal sg (im.buf i)

/-- The hypotheses are met by the square (8 neighbours) on 8 bit unsigned images and by the hexagon (6 neighbours)
on signed and unsigned ones, of any width. -/
theorem fastOK_squ (w : Nat) (hw : 1 ≤ w) : FastOK false 8 w (SquSE 1) :=
  ⟨by decide, by decide, by decide, by decide, by decide, by decide, by
    have h : ∀ b ∈ (SquSE 1).noCenter.points,
        -1 ≤ b.x ∧ b.x + (if (SquSE 1).noCenter.odd && cOdd b.y then 1 else 0) ≤ 1 := by decide
    intro b hb; have := h b hb; constructor <;> omega, seRel_symm (by decide)⟩

theorem fastOK_hex (sg : Bool) (w : Nat) (hw : 1 ≤ w) : FastOK sg 8 w (HexSE 1) :=
  ⟨by decide, by decide, by decide, by decide, by cases sg <;> decide, by decide, by
    have h : ∀ b ∈ (HexSE 1).noCenter.points,
        -1 ≤ b.x ∧ b.x + (if (HexSE 1).noCenter.odd && cOdd b.y then 1 else 0) ≤ 1 := by decide
    intro b hb; have := h b hb; constructor <;> omega, seRel_symm (by decide)⟩

/-- A plateau of value 3 beside a 2 is no minimum, the one of value 1 is; a minimum at the maximum of the type is
found as well (compare C38_constant_bug). -/
example : bvVals false (fastMinima false (fun _ => 7) (SquSE 1) false (bvIm 8 ⟨7, 1, 1⟩ [3, 3, 2, 9, 1, 1, 5])
      (bvIm 8 ⟨7, 1, 1⟩ [])) = some [0, 0, 255, 0, 255, 255, 0] ∧
    bvVals true (fastMinima true (fun _ => 7) (HexSE 1) false (bvIm 8 ⟨3, 1, 1⟩ [-4, 6, -4])
      (bvIm 8 ⟨3, 1, 1⟩ [])) = some [127, 0, 127] ∧
    bvVals false (fastMinima false (fun _ => 7) (SquSE 1) false (bvIm 8 ⟨2, 1, 1⟩ [255, 255])
      (bvIm 8 ⟨2, 1, 1⟩ [])) = some [255, 255] := by decide +kernel

/-- `arrowPropagate` along the arrows 0 → 1 → 2 of a line leaves the first pixel and the last one. -/
example : ((arrowPropagate ⟨4, 1, 1⟩ (HorizSE 1).noCenter (fun i => ([1, 1, 0, 1] : List (BitVec 8)).getD i 0)
    (1 : Nat) 0 (fun _ => 0)).map fun g => (List.range 4).map g) = some [0, 1, 1, 0] := by decide +kernel

/-- **C72 fails** for elements with more neighbours than bits: with 8 bit pixels and the cube (26 neighbours) the
lower neighbour in the next slice is not seen, and the first pixel, which is no minimum, is marked. -/
theorem C72_bits_bug :
    bvVals false (fastMinima false (fun _ => 7) (CubeSE 1) false (bvIm 8 ⟨1, 1, 2⟩ [5, 3]) (bvIm 8 ⟨1, 1, 2⟩ [])) =
      some [255, 255] ∧
    ¬ IsRegMin (seRel (CubeSE 1)) (valImg false (bvIm 8 ⟨1, 1, 2⟩ [5, 3])) ⟨0, 0, 0⟩ := by
  refine ⟨by decide +kernel, ?_⟩
  rintro ⟨c, hc, h⟩
  have e : (valImg false (bvIm 8 ⟨1, 1, 2⟩ [5, 3])).at? ⟨0, 0, 0⟩ = some 5 := by decide
  rw [e] at hc; cases hc
  have := h ⟨0, 0, 0⟩ (.refl e) ⟨0, 0, 1⟩ 3 ⟨⟨0, 0, -1⟩, by decide, by decide⟩ (by decide)
  omega

/-- **C72 fails** for signed types when a neighbour uses the sign bit: with `INT8` pixels and the square, the
arrow of the centre to its equal at the lower right makes a negative value, `arrowP[offset] > 0` does not hold and
the plateau of value 5, which has a lower neighbour, stays marked in part. -/
theorem C72_sign_bug :
    bvVals true (fastMinima true (fun _ => 7) (SquSE 1) false (bvIm 8 ⟨3, 3, 1⟩ [1, 9, 9, 9, 5, 9, 9, 9, 5])
      (bvIm 8 ⟨3, 3, 1⟩ [])) = some [127, 0, 0, 0, 0, 0, 0, 0, 127] ∧
    ¬ IsRegMin (seRel (SquSE 1)) (valImg true (bvIm 8 ⟨3, 3, 1⟩ [1, 9, 9, 9, 5, 9, 9, 9, 5])) ⟨2, 2, 0⟩ := by
  refine ⟨by decide +kernel, ?_⟩
  rintro ⟨c, hc, h⟩
  have e : (valImg true (bvIm 8 ⟨3, 3, 1⟩ [1, 9, 9, 9, 5, 9, 9, 9, 5])).at? ⟨2, 2, 0⟩ = some 5 := by decide
  rw [e] at hc; cases hc
  have := h ⟨1, 1, 0⟩ (.cons (s := ⟨2, 2, 0⟩) ⟨⟨1, 1, 0⟩, by decide, by decide⟩ (by decide) (.refl e))
    ⟨0, 0, 0⟩ 1 ⟨⟨1, 1, 0⟩, by decide, by decide⟩ (by decide)
  omega

/-- **C72 fails** for elements of another size than 1: with size 2 the arrow images are computed twice, the
second time on the first arrow image, and a ramp, whose only minimum is its first pixel, is marked everywhere. -/
theorem C72_size_bug :
    bvVals false (fastMinima false (fun _ => 7) (SquSE 2) false (bvIm 8 ⟨5, 1, 1⟩ [1, 2, 3, 4, 5])
      (bvIm 8 ⟨5, 1, 1⟩ [])) = some [255, 255, 255, 255, 255] ∧
    bvVals false (fastMinima false (fun _ => 7) (SquSE 1) false (bvIm 8 ⟨5, 1, 1⟩ [1, 2, 3, 4, 5])
      (bvIm 8 ⟨5, 1, 1⟩ [])) = some [255, 0, 0, 0, 0] := by decide +kernel

/-- **C72 fails** in place: the output is filled with 0 before the input is read, so whatever the image every
pixel is marked. -/
theorem C72_inplace_bug (sg : Bool) (raw : Nat → BitVec n) (se : StrElt) (im : Img (BitVec n))
    (hok : FastOK sg n im.dims.w se) :
    ∃ r, fastMinima sg raw se true im im = some r ∧ r.dims = im.dims ∧
      ∀ p, Img.In im.dims p → r.at? p = some (bvMax sg) := by
  have hs : se.noCenter.size = 1 := by
    have : ∀ (l : List IntPoint) (e : StrElt), (addPoints e l).size = e.size := by
      intro l
      induction l with
      | nil => intro e; rfl
      | cons b l ih => intro e; unfold addPoints at ih ⊢; rw [List.foldl_cons, ih]; unfold addPoint; split <;> rfl
    unfold noCenter
    rw [this, hok.size]
  obtain ⟨steep, hst, hst1, hst2⟩ := arrowSingle_spec (n := n)
    (fun a b => decide (bvVal sg a > bvVal sg b)) (bvMax sg) raw
    se.noCenter ⟨im.dims, fun _ => 0⟩ ⟨im.dims, raw⟩ hok.some hok.long hok.width
  have hz : ∀ i, i < im.dims.count → steep.buf i = 0 := by
    intro i hi
    obtain ⟨c1, c2⟩ := coordPt_in hi
    have e0 : (⟨im.dims, fun _ => 0⟩ : Img (BitVec n)).at? (coordPt im.dims i) = some 0 := Img.buf_offOf _ _ c1
    obtain ⟨v, hv, hv'⟩ := hst2 (coordPt im.dims i) _ e0
    rw [Img.buf_offOf steep _ (by rw [hst1]; exact c1), hst1] at hv
    simp only [c2] at hv
    cases hv
    apply BitVec.eq_of_getLsbD_eq
    intro k _
    by_contra hc
    have hk : (steep.buf i).getLsbD k = true := by simpa using hc
    obtain ⟨_, b, q, _, _, hcmp⟩ := (hv' k).mp hk
    by_cases hq : Img.In im.dims q
    · have : (⟨im.dims, fun _ => 0⟩ : Img (BitVec n)).at? q = some 0 := Img.buf_offOf _ _ hq
      rw [this] at hcmp
      simp at hcmp
    · have e1 : (⟨im.dims, fun _ => 0⟩ : Img (BitVec n)).at? q = none := Img.at?_none _ q hq
      rw [e1] at hcmp
      have := bvVal_le_max sg (0 : BitVec n)
      simp only [Option.getD_none, decide_eq_true_eq] at hcmp
      omega
  obtain ⟨equ, heq, -, -⟩ := arrowSingle_spec (n := n) (fun a b => decide (bvVal sg a = bvVal sg b)) (bvMin sg) raw
    se.noCenter ⟨im.dims, fun i => if steep.buf i = 0 then bvMax sg else 0⟩ steep hok.some hok.long hok.width
  have hscan : ∀ l : List Nat, (∀ i ∈ l, i < im.dims.count) →
      l.foldlM (fastScanStep sg im.dims se.noCenter equ.buf) (fun i => if steep.buf i = 0 then bvMax sg else 0) =
        some (fun i => if steep.buf i = 0 then bvMax sg else 0) := by
    intro l
    induction l with
    | nil => intro _; rfl
    | cons o l ih =>
      intro hl
      rw [List.foldlM_cons]
      have : fastScanStep sg im.dims se.noCenter equ.buf (fun i => if steep.buf i = 0 then bvMax sg else 0) o =
          some (fun i => if steep.buf i = 0 then bvMax sg else 0) := by
        unfold fastScanStep
        rw [if_neg]
        rintro ⟨h, _⟩
        have e1 : (if steep.buf o = 0 then (bvMax sg : BitVec n) else 0) = bvMax sg := if_pos (hz o (hl o (by simp)))
        exact (bvMax_ne sg hok.bits).1 (e1.symm.trans h)
      rw [this]
      exact ih (fun i hi => hl i (by simp [hi]))
  refine ⟨⟨im.dims, fun i => if bvShr sg (if steep.buf i = 0 then (bvMax sg : BitVec n) else 0) ≠ 0 then bvMax sg
    else bvShr sg (if steep.buf i = 0 then bvMax sg else 0)⟩, ?_, rfl, fun p hp => ?_⟩
  · unfold fastMinima fastExtrema
    simp only
    rw [if_neg hok.some, if_neg (by rintro (h | h); exact h rfl; exact hok.type h)]
    unfold arrowExecSame
    rw [hs]
    simp only [Nat.one_ne_zero, if_false, Bool.false_and, Nat.sub_self, arrowIter, if_true]
    rw [hst]
    simp only [Option.bind_some]
    rw [heq]
    simp only [Option.bind_some]
    rw [hscan _ (fun i hi => List.mem_range.mp hi)]
    rfl
  · have hat : ∀ g : Nat → BitVec n, (⟨im.dims, g⟩ : Img (BitVec n)).at? p = some (g (offOf im.dims p)) :=
      fun g => Img.buf_offOf (⟨im.dims, g⟩ : Img (BitVec n)) p hp
    rw [hat]
    rw [hz _ (offOf_lt hp), if_pos rfl, if_pos (bvShr_max sg hok.bits)]

/-- **C72 fails** for an element without neighbours: the output is 0 everywhere although each pixel is a regional
minimum and maximum on its own. -/
theorem C72_alone_bug (sg : Bool) (raw : Nat → BitVec n) (inPl : Bool) (im out : Img (BitVec n)) :
    let se : StrElt := ⟨false, .generic, 1, [⟨0, 0, 0⟩]⟩
    fastMinima sg raw se inPl im out = some ⟨out.dims, fun _ => 0⟩ ∧
    ∀ p, Img.In im.dims p → IsRegMin (seRel se) (valImg sg im) p := by
  intro se
  refine ⟨by unfold fastMinima fastExtrema; rw [if_pos (by decide)], fun p hp => ?_⟩
  have hc := Img.buf_offOf (valImg sg im) p hp
  have hN : ∀ p q, seRel se p q → p = q := by
    rintro p q ⟨b, hb, h⟩
    simp only [se, List.mem_singleton] at hb
    subst hb
    apply phys_inj se.odd
    rw [← h]
    simp [phys]
  refine ⟨_, hc, fun q hq s a hs ha => ?_⟩
  have := (flat_of_plateau hq).1
  rw [hN _ _ hs, this] at ha
  cases ha
  exact le_rfl

end Smil
