import Verif.DrawRects
import Verif.PropsDraw
import Verif.PropsBlobVals

/-! # C101: drawing the rectangles of a map -/

namespace Smil

variable {α κ : Type}

/-- The point is drawn by the rectangle of corners `(x0, y0)` and `(x1, y1)`, both included. -/
def DrawnBy (fill : Bool) (c : List Nat) (q : IntPoint) : Prop :=
  ∃ x0 y0 x1 y1 : Nat, c = [x0, y0, x1, y1] ∧ (x0 ≤ q.x ∧ q.x ≤ x1 ∧ y0 ≤ q.y ∧ q.y ≤ y1 ∧ q.z = 0) ∧
    (fill = true ∨ q.x = x0 ∨ q.x = x1 ∨ q.y = y0 ∨ q.y = y1)

/-- The rectangle lies in the image. -/
def RectIn (D : Dims) (c : List Nat) : Prop :=
  ∃ x0 y0 x1 y1 : Nat, c = [x0, y0, x1, y1] ∧ x0 ≤ x1 ∧ x1 < D.w ∧ y0 ≤ y1 ∧ y1 < D.h

theorem rectEntry (val : α) (c : List Nat) (fill : Bool) (im : Img α) (ha : im.alloc = true) (hd : 0 < im.dims.d)
    (hc : RectIn im.dims c) (h64 : im.dims.w < 2 ^ 64 ∧ im.dims.h < 2 ^ 64) :
    ∃ r, drawRectEntry val c fill im = some (.ok r) ∧ IsPainted im val (DrawnBy fill c) r := by
  obtain ⟨x0, y0, x1, y1, rfl, h1, h2, h3, h4⟩ := hc
  obtain ⟨r, hr, hp⟩ := drawRectangle_painted im x0 y0 (x1 - x0 + 1) (y1 - y0 + 1) val fill 0 ha hd (by omega) (by omega)
    (by omega) (by omega) h64
  refine ⟨r, ?_, hp.congr fun q _ => ?_⟩
  · have e1 : sizeT ((x1 : Int) - x0 + 1) = x1 - x0 + 1 := by
      rw [show (x1 : Int) - x0 + 1 = ((x1 - x0 + 1 : Nat) : Int) by omega]
      exact sizeT_nat _ (by omega)
    have e2 : sizeT ((y1 : Int) - y0 + 1) = y1 - y0 + 1 := by
      rw [show (y1 : Int) - y0 + 1 = ((y1 - y0 + 1 : Nat) : Int) by omega]
      exact sizeT_nat _ (by omega)
    simp only [drawRectEntry, List.getElem?_cons_zero, List.getElem?_cons_succ, Option.bind_some, e1, e2, hr, orRes,
      Option.map_some]
  · unfold InBox OnSides DrawnBy
    constructor
    · rintro ⟨ha, hb⟩
      refine ⟨x0, y0, x1, y1, rfl, by omega, ?_⟩
      rcases hb with hb | hb
      · exact Or.inl hb
      · right; omega
    · rintro ⟨a, b, c, d, e, h5, h6⟩
      simp only [List.cons.injEq, and_true] at e
      obtain ⟨rfl, rfl, rfl, rfl⟩ := e
      refine ⟨by omega, ?_⟩
      rcases h6 with h6 | h6
      · exact Or.inl h6
      · right; omega

/-- What is drawn by a list: the last entry which draws a point gives it its value. -/
theorem rects_fold [LinearOrder κ] (cv : κ → α) (fill : Bool) (D : Dims) (hal : D.d ≠ 0) (h64 : D.w < 2 ^ 64 ∧ D.h < 2 ^ 64) :
    ∀ (m : List (κ × List Nat)) (im : Img α), im.alloc = true → im.dims = D →
      m.Pairwise (fun a b => a.1 < b.1) → (∀ e ∈ m, RectIn D e.2) →
      ∃ r, m.foldl (fun r e => seqRes r (drawRectEntry (cv e.1) e.2 fill)) (some (.ok im)) = some (.ok r) ∧
        r.dims = D ∧ ∀ q, Img.In D q →
          ((∃ e ∈ m, DrawnBy fill e.2 q ∧ (∀ e' ∈ m, DrawnBy fill e'.2 q → e'.1 ≤ e.1) ∧ r.at? q = some (cv e.1)) ∨
           ((∀ e ∈ m, ¬ DrawnBy fill e.2 q) ∧ r.at? q = im.at? q)) := by
  intro m
  induction m with
  | nil => intro im _ hd _ _; exact ⟨im, rfl, hd, fun q _ => Or.inr ⟨by simp, rfl⟩⟩
  | cons e m ih =>
    intro im ha hd hp hr
    obtain ⟨b, hb, pb⟩ := rectEntry (cv e.1) e.2 fill im ha (by rw [hd]; omega) (by rw [hd]; exact hr e (by simp))
      (by rw [hd]; exact h64)
    have hba : b.alloc = true := by
      rw [← ha]; unfold Img.alloc; rw [pb.1]
    obtain ⟨r, h1, h2, h3⟩ := ih b hba (pb.1.trans hd) (List.pairwise_cons.1 hp).2 fun e' he' => hr e' (by simp [he'])
    refine ⟨r, ?_, h2, fun q hq => ?_⟩
    · rw [List.foldl_cons]
      show List.foldl _ (drawRectEntry (cv e.1) e.2 fill im) m = _
      rw [hb]
      exact h1
    · rcases h3 q hq with ⟨e1, he1, g1, g2, g3⟩ | ⟨g1, g2⟩
      · left
        refine ⟨e1, by simp [he1], g1, fun e' he' hd' => ?_, g3⟩
        rcases List.mem_cons.1 he' with rfl | he'
        · exact le_of_lt ((List.pairwise_cons.1 hp).1 e1 he1)
        · exact g2 e' he' hd'
      · by_cases hdr : DrawnBy fill e.2 q
        · left
          refine ⟨e, by simp, hdr, fun e' he' hd' => ?_, ?_⟩
          · rcases List.mem_cons.1 he' with rfl | he'
            · exact le_refl _
            · exact absurd hd' (g1 e' he')
          · rw [g2]; exact pb.2.1 q (by rw [hd]; exact hq) hdr
        · right
          refine ⟨fun e' he' => ?_, ?_⟩
          · rcases List.mem_cons.1 he' with rfl | he'
            · exact hdr
            · exact g1 e' he'
          · rw [g2]; exact pb.2.2 q hdr

/-- **C101** (partial: the map is not empty and its rectangles lie in the image): at each point the rectangle of
the greatest key which draws it gives its value, and the other points are unchanged. -/
theorem C101_rectangles_partial [LinearOrder κ] (cv : κ → α) (im : Img α) (m : List (κ × List Nat)) (fill : Bool)
    (ha : im.alloc = true) (hd : 0 < im.dims.d) (h64 : im.dims.w < 2 ^ 64 ∧ im.dims.h < 2 ^ 64) (hm : m ≠ [])
    (hp : m.Pairwise fun a b => a.1 < b.1) (hr : ∀ e ∈ m, RectIn im.dims e.2) :
    ∃ r, drawRectangles cv im m fill = some (.ok r) ∧ r.dims = im.dims ∧ ∀ q, Img.In im.dims q →
      ((∃ e ∈ m, DrawnBy fill e.2 q ∧ (∀ e' ∈ m, DrawnBy fill e'.2 q → e'.1 ≤ e.1) ∧ r.at? q = some (cv e.1)) ∨
       ((∀ e ∈ m, ¬ DrawnBy fill e.2 q) ∧ r.at? q = im.at? q)) := by
  obtain ⟨r, h1, h2, h3⟩ := rects_fold cv fill im.dims (by omega) h64 m im ha rfl hp hr
  refine ⟨r, ?_, h2, h3⟩
  unfold drawRectangles
  rw [ha]
  simp only [Bool.true_eq_false, if_false]
  cases m with
  | nil => exact absurd rfl hm
  | cons e m =>
    obtain ⟨x0, y0, x1, y1, he, _⟩ := hr e (by simp)
    simp only [he, List.length_cons, List.length_nil, ne_eq, not_true_eq_false, if_false]
    exact h1

/-- The point is on the sides of the box of the pixels of label `k` (in the box if `fill`). -/
def OnLabelBox {β : Type} (fill : Bool) (lab : Img β) (k : β) (q : IntPoint) : Prop :=
  ∃ x0 y0 x1 y1 : Nat, IsExtent lab k IntPoint.x x0 x1 ∧ IsExtent lab k IntPoint.y y0 y1 ∧
    (x0 ≤ q.x ∧ q.x ≤ x1 ∧ y0 ≤ q.y ∧ q.y ≤ y1) ∧ (fill = true ∨ q.x = x0 ∨ q.x = x1 ∨ q.y = y0 ∨ q.y = y1)

/-- **C101**: drawing the boxes of the blobs of a label image of one slice with a label: at each point the
greatest label whose box is drawn there, and the previous value where there is none. -/
theorem C101_blobs {t : PT} (cv : Px t → α) (lab : Img (Px t)) (im : Img α) (fill : Bool) (hdim : im.dims = lab.dims)
    (h1 : lab.dims.d = 1) (h64 : lab.dims.w < 2 ^ 64 ∧ lab.dims.h < 2 ^ 64)
    (hne : ∃ p k, lab.at? p = some k ∧ k ≠ Px.zero) :
    ∃ m r, blobsBoundBoxLbl true lab = some m ∧ drawRectangles cv im m fill = some (.ok r) ∧ r.dims = im.dims ∧
      ∀ q, Img.In im.dims q →
        ((∃ k, k ≠ Px.zero ∧ (∃ p, lab.at? p = some k) ∧ OnLabelBox fill lab k q ∧
            (∀ k', k' ≠ Px.zero → (∃ p, lab.at? p = some k') → OnLabelBox fill lab k' q → k' ≤ k) ∧
            r.at? q = some (cv k)) ∨
         ((∀ k, k ≠ Px.zero → (∃ p, lab.at? p = some k) → ¬ OnLabelBox fill lab k q) ∧ r.at? q = im.at? q)) := by
  obtain ⟨m, f, hm, hper, hf⟩ := C92_box_labels true lab
  have hd1 : ¬ lab.dims.d > 1 := by omega
  have hbox : ∀ e ∈ m, e.1 ≠ Px.zero ∧ (∃ p, lab.at? p = some e.1) ∧ ∃ x0 y0 x1 y1 : Nat, e.2 = [x0, y0, x1, y1] ∧
      IsExtent lab e.1 IntPoint.x x0 x1 ∧ IsExtent lab e.1 IntPoint.y y0 y1 := by
    intro e he
    obtain ⟨⟨h2, p, h3⟩, h4⟩ := (hper.entries e.1 e.2).1 he
    obtain ⟨x0, y0, z0, x1, y1, z1, g1, g2, g3, _⟩ := hf e.1 p h3
    rw [if_neg hd1] at g1
    exact ⟨h2 rfl, ⟨p, h3⟩, x0, y0, x1, y1, h4.trans g1, g2, g3⟩
  have huniq : ∀ (k : Px t) (c : IntPoint → Int) (a b a' b' : Nat), IsExtent lab k c a b → IsExtent lab k c a' b' →
      a = a' ∧ b = b' := by
    intro k c a b a' b' h h'
    have := h.1.unique h'.1
    have := h.2.unique h'.2
    omega
  have hiff : ∀ e ∈ m, ∀ q, q.z = 0 → (DrawnBy fill e.2 q ↔ OnLabelBox fill lab e.1 q) := by
    intro e he q hq
    obtain ⟨_, _, x0, y0, x1, y1, e1, e2, e3⟩ := hbox e he
    unfold DrawnBy OnLabelBox
    constructor
    · rintro ⟨a, b, c, d, h5, h6, h7⟩
      rw [e1] at h5
      simp only [List.cons.injEq, and_true] at h5
      obtain ⟨rfl, rfl, rfl, rfl⟩ := h5
      exact ⟨_, _, _, _, e2, e3, ⟨h6.1, h6.2.1, h6.2.2.1, h6.2.2.2.1⟩, h7⟩
    · rintro ⟨a, b, c, d, h5, h6, h7, h8⟩
      obtain ⟨rfl, rfl⟩ := huniq _ _ _ _ _ _ e2 h5
      obtain ⟨rfl, rfl⟩ := huniq _ _ _ _ _ _ e3 h6
      exact ⟨_, _, _, _, e1, ⟨h7.1, h7.2.1, h7.2.2.1, h7.2.2.2, hq⟩, h8⟩
  have hmem : ∀ k, k ≠ Px.zero → (∃ p, lab.at? p = some k) → (k, f k) ∈ m :=
    fun k hk hp => (hper.entries k (f k)).2 ⟨⟨fun _ => hk, hp⟩, rfl⟩
  obtain ⟨p0, k0, hp0, hk0⟩ := hne
  have hin0 := lab.at?_eq_some_in p0 k0 hp0
  have hrect : ∀ e ∈ m, RectIn im.dims e.2 := by
    intro e he
    obtain ⟨_, ⟨p, hp⟩, x0, y0, x1, y1, e1, e2, e3⟩ := hbox e he
    obtain ⟨a, ha, ha'⟩ := e2.1.1
    obtain ⟨b, hb, hb'⟩ := e2.2.1
    obtain ⟨c, hc, hc'⟩ := e3.1.1
    obtain ⟨d, hd, hd'⟩ := e3.2.1
    have i1 := e2.2.2 ⟨a, ha, ha'⟩
    have i2 := e3.2.2 ⟨c, hc, hc'⟩
    have i3 := lab.at?_eq_some_in b _ hb
    have i4 := lab.at?_eq_some_in d _ hd
    unfold Img.In at i3 i4
    exact ⟨x0, y0, x1, y1, e1, by omega, by rw [hdim]; omega, by omega, by rw [hdim]; omega⟩
  have hal : im.alloc = true := by
    unfold Img.alloc Dims.count
    rw [hdim]
    unfold Img.In at hin0
    have : 0 < lab.dims.d * lab.dims.h * lab.dims.w := Nat.mul_pos (Nat.mul_pos (by omega) (by omega)) (by omega)
    simp only [ne_eq, decide_not, Bool.not_eq_true', decide_eq_false_iff_not]
    omega
  obtain ⟨r, g1, g2, g3⟩ := C101_rectangles_partial cv im m fill hal (by rw [hdim]; omega) (by rw [hdim]; exact h64)
    (List.ne_nil_of_mem (hmem k0 hk0 ⟨p0, hp0⟩)) hper.sorted hrect
  refine ⟨m, r, hm, g1, g2, fun q hq => ?_⟩
  have hz : q.z = 0 := by
    have := hq
    unfold Img.In at this
    rw [hdim, h1] at this
    omega
  rcases g3 q hq with ⟨e, he, a1, a2, a3⟩ | ⟨a1, a2⟩
  · left
    obtain ⟨b1, b2, _⟩ := hbox e he
    refine ⟨e.1, b1, b2, (hiff e he q hz).1 a1, fun k' hk' hp' ho => ?_, a3⟩
    exact a2 _ (hmem k' hk' hp') ((hiff _ (hmem k' hk' hp') q hz).2 ho)
  · right
    exact ⟨fun k hk hp ho => a1 _ (hmem k hk hp) ((hiff _ (hmem k hk hp) q hz).2 ho), a2⟩

/-- The rows of the image that was drawn, as numbers. -/
def rectRows (r : Option (Except Int (Img (Px UINT8)))) : Option (Option (List (List Int))) :=
  r.map fun e => e.toOption.map fun b => (List.range b.dims.h).map fun y =>
    (List.range b.dims.w).map fun x => (b.buf (y * b.dims.w + x)).val

/-- Two labels whose boxes cross. -/
example : (blobsBoundBoxLbl true (im8 ⟨4, 3, 1⟩ [1, 0, 0, 0, 0, 2, 1, 0, 0, 0, 0, 2])).bind (fun m =>
      rectRows (drawRectangles id (im8 ⟨4, 3, 1⟩ [9, 9, 9, 9, 9, 9, 9, 9, 9, 9, 9, 9]) m false)) =
    some (some [[1, 1, 1, 9], [1, 2, 2, 2], [9, 2, 2, 2]]) := by
  decide +kernel

/-! ### Exceptions -/

/-- The map of a label image without labels is empty: its first element is read although there is none. -/
theorem C101_empty_ub {t : PT} (cv : Px t → α) (lab : Img (Px t)) (im : Img α) (fill : Bool) (ha : im.alloc = true)
    (h0 : ∀ p k, lab.at? p = some k → k = Px.zero) :
    ∃ m, blobsBoundBoxLbl true lab = some m ∧ drawRectangles cv im m fill = none := by
  obtain ⟨m, f, hm, hper, _⟩ := C92_box_labels true lab
  refine ⟨m, hm, ?_⟩
  have : m = [] := by
    rcases List.eq_nil_or_concat m with h | ⟨l, e, rfl⟩
    · exact h
    · obtain ⟨⟨h2, p, h3⟩, _⟩ := (hper.entries e.1 e.2).1 (by simp)
      exact absurd (h0 p e.1 h3) (h2 rfl)
  subst this
  unfold drawRectangles
  rw [ha]
  simp

/-- The boxes of images of several slices have six coordinates: an error. -/
theorem C101_slices_error {t : PT} (cv : Px t → α) (lab : Img (Px t)) (im : Img α) (fill : Bool) (ha : im.alloc = true)
    (hd : 1 < lab.dims.d) (hne : ∃ p k, lab.at? p = some k ∧ k ≠ Px.zero) :
    ∃ m, blobsBoundBoxLbl true lab = some m ∧ drawRectangles cv im m fill = some (.error (-100)) := by
  obtain ⟨m, f, hm, hper, hf⟩ := C92_box_labels true lab
  refine ⟨m, hm, ?_⟩
  obtain ⟨p, k, hp, hk⟩ := hne
  have hmem := (hper.entries k (f k)).2 ⟨⟨fun _ => hk, p, hp⟩, rfl⟩
  cases m with
  | nil => simp at hmem
  | cons e m =>
    obtain ⟨⟨h2, p, h3⟩, h4⟩ := (hper.entries e.1 e.2).1 (by simp)
    obtain ⟨x0, y0, z0, x1, y1, z1, g1, _⟩ := hf e.1 p h3
    rw [if_pos hd] at g1
    unfold drawRectangles
    rw [ha]
    have h5 : e.2 = [x0, y0, z0, x1, y1, z1] := h4.trans g1
    simp [errRes, h5]

/-- Only the first vector is measured: a shorter one later is read beyond its end. -/
theorem C101_short_ub :
    rectRows (drawRectangles (κ := Nat) (fun _ => Px.zero) (im8 ⟨2, 1, 1⟩ [9, 9]) [(1, [0, 0, 0, 0]), (2, [0, 0])] false) =
      none := by
  decide +kernel

end Smil
