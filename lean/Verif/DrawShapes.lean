import Verif.DrawLemmas

/-!
# Lemmas on segments with a range, rectangles, circles and balls
-/

namespace Smil
variable {α : Type}

theorem pt_ext {p q : IntPoint} (hx : p.x = q.x) (hy : p.y = q.y) (hz : p.z = q.z) : p = q := by
  cases p; cases q; simp_all

theorem bresIn_zero (yMax : Int) (p : IntPoint) : bresIn 0 yMax p = true := by simp [bresIn]

theorem filter_zero (yMax : Int) (l : List IntPoint) : l.filter (bresIn 0 yMax) = l :=
  List.filter_eq_self.mpr fun p _ => bresIn_zero yMax p

theorem bresSorted_vertical (x y1 y2 xMax yMax : Int) (s : Bool) : bresSorted x y1 x y2 xMax yMax s =
    if xMax = 0 ∨ (0 ≤ x ∧ x < xMax) then
      (List.range (max y1 y2 - min y1 y2 + 1).toNat).map fun (i : Nat) => (⟨x, min y1 y2 + i, 0⟩ : IntPoint) else [] := by
  unfold bresSorted
  rw [if_pos (show x = x from rfl)]

theorem bresSorted_horizontal {x1 x2 : Int} (hx : x1 < x2) (y xMax yMax : Int) (s : Bool) : bresSorted x1 y x2 y xMax yMax s =
    if yMax = 0 ∨ (0 ≤ y ∧ y < yMax) then
      (List.range (x2 - x1 + 1).toNat).map fun (i : Nat) => (⟨x1 + i, y, 0⟩ : IntPoint) else [] := by
  unfold bresSorted
  rw [if_neg (show ¬ x1 = x2 by omega), if_pos (show y = y from rfl)]

theorem bresSorted_oblique {x1 x2 y1 y2 : Int} (hx : x1 < x2) (hy : y1 ≠ y2) (xMax yMax : Int) (s : Bool) :
    bresSorted x1 y1 x2 y2 xMax yMax s =
      if s then ((bresSlope x1 y1 x2 y2).filter (bresIn xMax yMax)).reverse else (bresSlope x1 y1 x2 y2).filter (bresIn xMax yMax) := by
  unfold bresSorted
  rw [if_neg (show ¬ x1 = x2 by omega), if_neg hy]

/-- Without range, `bresenhamPoints` gives the segment; from the second end to the first for the lines
that go straight up or straight left. -/
theorem bresenhamPoints_segment (x1 y1 x2 y2 : Int) :
    if (x1 = x2 ∧ y2 < y1) ∨ (y1 = y2 ∧ x2 < x1) then IsSegment ⟨x2, y2, 0⟩ ⟨x1, y1, 0⟩ (bresenhamPoints x1 y1 x2 y2 0 0)
    else IsSegment ⟨x1, y1, 0⟩ ⟨x2, y2, 0⟩ (bresenhamPoints x1 y1 x2 y2 0 0) := by
  unfold bresenhamPoints
  by_cases hs : x2 < x1
  · by_cases hy : y1 = y2
    · subst hy
      rw [if_pos (show (x1 = x2 ∧ y1 < y1) ∨ (y1 = y1 ∧ x2 < x1) from Or.inr ⟨rfl, hs⟩), if_pos hs, bresSorted_horizontal hs,
        if_pos (Or.inl rfl)]
      exact horizontal_segment y1 x2 x1 (by omega)
    · rw [if_neg (show ¬ ((x1 = x2 ∧ y2 < y1) ∨ (y1 = y2 ∧ x2 < x1)) by omega), if_pos hs, bresSorted_oblique hs (Ne.symm hy),
        filter_zero, if_pos rfl]
      exact (bresSlope_segment hs (Ne.symm hy)).reverse
  · by_cases hx : x1 = x2
    · subst hx
      rw [if_neg hs, bresSorted_vertical, if_pos (Or.inl rfl)]
      by_cases hy : y2 < y1
      · rw [if_pos (show (x1 = x1 ∧ y2 < y1) ∨ (y1 = y2 ∧ x1 < x1) from Or.inl ⟨rfl, hy⟩), min_eq_right (by omega),
          max_eq_left (by omega)]
        exact vertical_segment x1 y2 y1 (by omega)
      · rw [if_neg (show ¬ ((x1 = x1 ∧ y2 < y1) ∨ (y1 = y2 ∧ x1 < x1)) by omega), min_eq_left (by omega), max_eq_right (by omega)]
        exact vertical_segment x1 y1 y2 (by omega)
    · rw [if_neg (show ¬ ((x1 = x2 ∧ y2 < y1) ∨ (y1 = y2 ∧ x2 < x1)) by omega), if_neg hs]
      by_cases hy : y1 = y2
      · subst hy
        rw [bresSorted_horizontal (by omega), if_pos (Or.inl rfl)]
        exact horizontal_segment y1 x1 x2 (by omega)
      · rw [bresSorted_oblique (by omega) hy, filter_zero, if_neg (by simp)]
        exact bresSlope_segment (by omega) hy

/-- With a range, an oblique segment is filtered. -/
theorem bresenhamPoints_oblique {x1 y1 x2 y2 : Int} (hx : x1 ≠ x2) (hy : y1 ≠ y2) (xMax yMax : Int) :
    bresenhamPoints x1 y1 x2 y2 xMax yMax = (bresenhamPoints x1 y1 x2 y2 0 0).filter (bresIn xMax yMax) := by
  unfold bresenhamPoints
  by_cases hs : x2 < x1
  · rw [if_pos hs, if_pos hs, bresSorted_oblique hs hy.symm, bresSorted_oblique hs hy.symm, filter_zero, if_pos rfl, if_pos rfl,
      List.filter_reverse]
  · rw [if_neg hs, if_neg hs, bresSorted_oblique (by omega) hy, bresSorted_oblique (by omega) hy, filter_zero,
      if_neg (by simp), if_neg (by simp)]

theorem bresenhamPoints_vertical (x y1 y2 xMax yMax : Int) :
    bresenhamPoints x y1 x y2 xMax yMax =
      if xMax = 0 ∨ (0 ≤ x ∧ x < xMax) then bresenhamPoints x y1 x y2 0 0 else [] := by
  unfold bresenhamPoints
  rw [if_neg (lt_irrefl x), if_neg (lt_irrefl x), bresSorted_vertical, bresSorted_vertical, if_pos (Or.inl (Eq.refl (0 : Int)))]

theorem bresenhamPoints_horizontal {x1 x2 : Int} (hx : x1 ≠ x2) (y xMax yMax : Int) :
    bresenhamPoints x1 y x2 y xMax yMax =
      if yMax = 0 ∨ (0 ≤ y ∧ y < yMax) then bresenhamPoints x1 y x2 y 0 0 else [] := by
  unfold bresenhamPoints
  by_cases hs : x2 < x1
  · rw [if_pos hs, if_pos hs, bresSorted_horizontal hs, bresSorted_horizontal hs, if_pos (Or.inl (Eq.refl (0 : Int)))]
  · rw [if_neg hs, if_neg hs, bresSorted_horizontal (by omega), bresSorted_horizontal (by omega), if_pos (Or.inl (Eq.refl (0 : Int)))]

/-- All points are between the ends. -/
theorem bresenhamPoints_box (x1 y1 x2 y2 : Int) : ∀ a ∈ bresenhamPoints x1 y1 x2 y2 0 0,
    min x1 x2 ≤ a.x ∧ a.x ≤ max x1 x2 ∧ min y1 y2 ≤ a.y ∧ a.y ≤ max y1 y2 ∧ a.z = 0 := by
  intro a ha
  have := bresenhamPoints_segment x1 y1 x2 y2
  split_ifs at this
  · have h := this.box a ha
    have h' := this.plane a ha
    dsimp only at h; omega
  · have h := this.box a ha
    have h' := this.plane a ha
    dsimp only at h; omega

/-- Both ends are points of the segment. -/
theorem bresenhamPoints_ends (x1 y1 x2 y2 : Int) :
    (⟨x1, y1, 0⟩ : IntPoint) ∈ bresenhamPoints x1 y1 x2 y2 0 0 ∧ (⟨x2, y2, 0⟩ : IntPoint) ∈ bresenhamPoints x1 y1 x2 y2 0 0 := by
  have := bresenhamPoints_segment x1 y1 x2 y2
  split_ifs at this
  · exact ⟨List.mem_of_getElem? this.last, List.mem_of_getElem? this.first⟩
  · exact ⟨List.mem_of_getElem? this.first, List.mem_of_getElem? this.last⟩

/-! ### Runs and rectangles -/

/-- A run inside of a line paints it. -/
theorem fillRun_painted (v : α) (im : Img α) (z y x : Int) (n : Nat) (hz : 0 ≤ z ∧ z < im.dims.d) (hy : 0 ≤ y ∧ y < im.dims.h)
    (hx : 0 ≤ x ∧ x + n ≤ im.dims.w) :
    ∃ r, fillRun v z y x n im = some r ∧ IsPainted im v (InBox x y z n 1 1) r := by
  have hl : lineAt im.dims z y = some ((z * im.dims.h + y) * im.dims.w) := by
    by_cases hw : 0 < im.dims.w
    · exact lineAt_in (p := ⟨0, y, z⟩) ⟨le_refl _, by dsimp only; omega, hy.1, hy.2, hz.1, hz.2⟩
    · unfold lineAt
      refine if_pos ⟨by have := hz.1; have := hy.1; positivity, ?_⟩
      have : z * im.dims.h + y < (z + 1) * im.dims.h := by rw [add_mul]; omega
      refine lt_of_lt_of_le this ?_
      rw [Nat.cast_mul, mul_comm]
      exact mul_le_mul_of_nonneg_left (by omega) (by positivity)
  unfold fillRun
  rw [hl]
  simp only [Option.bind_some]
  obtain ⟨r, hr, hp⟩ := foldlM_painted v (fun (b : Img α) (i : Nat) => storeAt v b ((z * im.dims.h + y) * im.dims.w + x + i))
    (fun i q => q = ⟨x + i, y, z⟩) im.dims (List.range n) (by
      intro i hi b hb
      have hi := List.mem_range.mp hi
      have hin : Img.In b.dims ⟨x + i, y, z⟩ := by
        rw [hb]; exact ⟨by dsimp only; omega, by dsimp only; omega, hy.1, hy.2, hz.1, hz.2⟩
      obtain ⟨r, hr, hp⟩ := storePx_painted v b hin
      refine ⟨r, ?_, hp⟩
      rw [← hr]
      unfold storePx
      rw [lineAt_in hin]
      simp only [Option.bind_some, hb]
      congr 1; ring) im rfl
  refine ⟨r, hr, hp.congr fun q _ => ?_⟩
  unfold InBox
  constructor
  · rintro ⟨i, hi, rfl⟩
    have := List.mem_range.mp hi
    dsimp only; omega
  · intro h
    refine ⟨(q.x - x).toNat, List.mem_range.mpr (by omega), ?_⟩
    apply pt_ext <;> dsimp only <;> omega

theorem sizeT_nat (n : Nat) (h : n < 2 ^ 64) : sizeT n = n := by
  unfold sizeT
  rw [Int.emod_eq_of_lt (by positivity) (by exact_mod_cast h)]; simp

/-- A rectangle that lies in the image. -/
theorem drawRectangle_painted (im : Img α) (x0 y0 width height : Nat) (v : α) (fill : Bool) (z : Nat) (ha : im.alloc = true)
    (hz : z < im.dims.d) (hw : 0 < width) (hh : 0 < height) (hx : x0 + width ≤ im.dims.w) (hy : y0 + height ≤ im.dims.h)
    (h64 : im.dims.w < 2 ^ 64 ∧ im.dims.h < 2 ^ 64) :
    ∃ r, drawRectangle im x0 y0 width height v fill z = some (.ok r) ∧
      IsPainted im v (fun q => InBox x0 y0 z width height 1 q ∧ (fill = true ∨ OnSides x0 y0 width height q)) r := by
  have e1 : sizeT ((x0 : Int) + width - 1) = x0 + width - 1 := by
    have : ((x0 : Int) + width - 1) = ((x0 + width - 1 : Nat) : Int) := by omega
    rw [this, sizeT_nat _ (by omega)]
  have e2 : sizeT ((y0 : Int) + height - 1) = y0 + height - 1 := by
    have : ((y0 : Int) + height - 1) = ((y0 + height - 1 : Nat) : Int) := by omega
    rw [this, sizeT_nat _ (by omega)]
  unfold drawRectangle
  rw [if_neg (by rw [ha]; simp), if_neg (by omega)]
  simp only [e1, e2]
  rw [if_pos (show x0 + width - 1 < im.dims.w by omega), if_pos (show y0 + height - 1 < im.dims.h by omega),
    if_pos (show (0 : Int) ≤ x0 by positivity), if_pos (show (0 : Int) ≤ y0 by positivity), Int.toNat_natCast]
  cases fill with
  | true =>
    simp only [if_true]
    obtain ⟨r, hr, hp⟩ := foldlM_painted v (fun (b : Img α) (j : Nat) => fillRun v z j x0 width b)
      (fun j => InBox x0 j z width 1 1) im.dims (List.range' y0 (y0 + height - 1 + 1 - y0)) (by
        intro j hj b hb
        rw [List.mem_range'_1] at hj
        exact fillRun_painted v b z j x0 width (by rw [hb]; omega) (by rw [hb]; omega) (by rw [hb]; omega)) im rfl
    rw [hr]
    refine ⟨r, rfl, hp.congr fun q _ => ?_⟩
    unfold InBox
    constructor
    · rintro ⟨j, hj, h⟩
      rw [List.mem_range'_1] at hj
      exact ⟨by omega, Or.inl trivial⟩
    · rintro ⟨h, _⟩
      exact ⟨q.y.toNat, by rw [List.mem_range'_1]; omega, by omega⟩
  | false =>
    simp only [Bool.false_eq_true, if_false]
    obtain ⟨b1, hb1, hp1⟩ := fillRun_painted v im z y0 x0 width (by omega) (by omega) (by omega)
    rw [hb1]
    simp only [Option.bind_some]
    obtain ⟨b2, hb2, hp2⟩ := fillRun_painted v b1 z (y0 + height - 1 : Nat) x0 width (by rw [hp1.1]; omega) (by rw [hp1.1]; omega)
      (by rw [hp1.1]; omega)
    rw [hb2]
    simp only [Option.bind_some]
    obtain ⟨r, hr, hp⟩ := foldlM_painted v (fun (b : Img α) (j : Nat) =>
        (storePx v b ⟨x0, j, z⟩).bind fun b => storePx v b ⟨(x0 + width - 1 : Nat), j, z⟩)
      (fun j q => q = ⟨x0, j, z⟩ ∨ q = ⟨(x0 + width - 1 : Nat), j, z⟩) im.dims (List.range' (y0 + 1) (y0 + height - 1 - y0)) (by
        intro j hj b hb
        rw [List.mem_range'_1] at hj
        obtain ⟨c1, hc1, hq1⟩ := storePx_painted v b (p := ⟨x0, j, z⟩) (by rw [hb]; unfold Img.In; dsimp only; omega)
        obtain ⟨c2, hc2, hq2⟩ := storePx_painted v c1 (p := ⟨(x0 + width - 1 : Nat), j, z⟩)
          (by rw [hq1.1, hb]; unfold Img.In; dsimp only; omega)
        refine ⟨c2, ?_, hq1.trans hq2⟩
        rw [hc1]; exact hc2) b2 (hp2.1.trans hp1.1)
    rw [hr]
    refine ⟨r, rfl, ((hp1.trans hp2).trans hp).congr fun q _ => ?_⟩
    unfold InBox OnSides
    constructor
    · rintro ((h | h) | ⟨j, hj, h⟩)
      · exact ⟨by omega, Or.inr (by omega)⟩
      · exact ⟨by omega, Or.inr (by omega)⟩
      · rw [List.mem_range'_1] at hj
        rcases h with rfl | rfl
        · exact ⟨by dsimp only; omega, Or.inr (by left; rfl)⟩
        · exact ⟨by dsimp only; omega, Or.inr (by right; left; dsimp only; omega)⟩
    · rintro ⟨h, h'⟩
      have h' := h'.resolve_left (by simp)
      by_cases c1 : q.y = y0
      · left; left; omega
      · by_cases c2 : q.y = y0 + height - 1
        · left; right; omega
        · right
          refine ⟨q.y.toNat, by rw [List.mem_range'_1]; omega, ?_⟩
          rcases h' with c | c | c | c
          · left; apply pt_ext <;> dsimp only <;> omega
          · right; apply pt_ext <;> dsimp only <;> omega
          · omega
          · omega

/-! ### Balls -/

theorem mem_forRange (a b x : Int) : x ∈ forRange a b ↔ a ≤ x ∧ x ≤ b := by
  unfold forRange
  rw [List.mem_map]
  constructor
  · rintro ⟨i, hi, rfl⟩
    have := List.mem_range.mp hi
    omega
  · intro h
    exact ⟨(x - a).toNat, List.mem_range.mpr (by omega), by omega⟩

theorem sq_le_bound {a r : Int} (hr : 0 ≤ r) (h : a * a ≤ r * r) : -r ≤ a ∧ a ≤ r := by
  constructor <;> nlinarith

/-! ### Circles -/

/-- The octant of a circle: from a point with an exact error term `d`, up to a constant. -/
theorem octant_spec (r c : Int) (hc : -2 ≤ c) (hc' : c ≤ r - 1 ∨ r = 0) : ∀ (fuel : Nat) (d x y : Int), 0 ≤ x → x ≤ y → y ≤ r → y - x < fuel →
    d = 2 * ((x + 1) * (x + 1)) + y * y + (y - 1) * (y - 1) - 2 * (r * r) + c →
    -(3 * r) ≤ 2 * (x * x + y * y - r * r) → x * x + y * y - r * r ≤ r →
    ∃ l, octant fuel d x y = some l ∧ l[0]? = some (x, y) ∧
      (∀ i a b, l[i]? = some a → l[i + 1]? = some b → b.1 = a.1 + 1 ∧ (b.2 = a.2 ∨ b.2 = a.2 - 1)) ∧
      (∀ a ∈ l, 0 ≤ a.1 ∧ a.1 ≤ a.2 ∧ a.2 ≤ r) ∧
      (∀ a, l[l.length - 1]? = some a → a.2 ≤ a.1 + 1) ∧
      ∀ a ∈ l, -(3 * r) ≤ 2 * (a.1 * a.1 + a.2 * a.2 - r * r) ∧ a.1 * a.1 + a.2 * a.2 - r * r ≤ r
  | 0, d, x, y, hx, hxy, hyr, hf, hd, h1, h2 => by omega
  | fuel + 1, d, x, y, hx, hxy, hyr, hf, hd, h1, h2 => by
    unfold octant
    dsimp only
    by_cases hlt : x + 1 ≤ (if d < 0 then y else y - 1)
    · rw [if_pos hlt]
      obtain ⟨l, hl, k0, k1, k2, k3, k4⟩ : ∃ l, octant fuel (if d < 0 then d + 4 * x + 6 else d + 4 * (x - y) + 10) (x + 1)
          (if d < 0 then y else y - 1) = some l ∧ l[0]? = some (x + 1, if d < 0 then y else y - 1) ∧
          (∀ i a b, l[i]? = some a → l[i + 1]? = some b → b.1 = a.1 + 1 ∧ (b.2 = a.2 ∨ b.2 = a.2 - 1)) ∧
          (∀ a ∈ l, 0 ≤ a.1 ∧ a.1 ≤ a.2 ∧ a.2 ≤ r) ∧
          (∀ a, l[l.length - 1]? = some a → a.2 ≤ a.1 + 1) ∧
          ∀ a ∈ l, -(3 * r) ≤ 2 * (a.1 * a.1 + a.2 * a.2 - r * r) ∧ a.1 * a.1 + a.2 * a.2 - r * r ≤ r := by
        by_cases hd0 : d < 0
        · simp only [if_pos hd0] at hlt ⊢
          refine octant_spec r c hc hc' fuel _ (x + 1) y (by omega) hlt hyr (by omega) ?_ ?_ ?_
          · rw [hd]; ring
          · nlinarith
          · nlinarith
        · simp only [if_neg hd0] at hlt ⊢
          refine octant_spec r c hc hc' fuel _ (x + 1) (y - 1) (by omega) hlt (by omega) (by omega) ?_ ?_ ?_
          · rw [hd]; ring
          · rcases hc' with hc' | hc'
            · nlinarith
            · omega
          · nlinarith
      rw [hl]
      have hlen : 0 < l.length := by
        rcases l with _ | ⟨_, _⟩
        · simp at k0
        · simp
      refine ⟨_, rfl, rfl, ?_, ?_, ?_, ?_⟩
      · intro i a b ha hb
        cases i with
        | zero =>
          rw [List.getElem?_cons_zero] at ha
          rw [List.getElem?_cons_succ, k0] at hb
          cases ha; cases hb
          dsimp only
          refine ⟨rfl, ?_⟩
          split_ifs
          · exact Or.inl rfl
          · exact Or.inr rfl
        | succ i =>
          rw [List.getElem?_cons_succ] at ha hb
          exact k1 i a b ha hb
      · intro a ha
        rcases List.mem_cons.mp ha with rfl | ha
        · exact ⟨hx, hxy, hyr⟩
        · exact k2 a ha
      · intro a ha
        rw [List.length_cons, Nat.add_sub_cancel] at ha
        have e : l.length = l.length - 1 + 1 := by omega
        rw [e, List.getElem?_cons_succ] at ha
        exact k3 a ha
      · intro a ha
        rcases List.mem_cons.mp ha with rfl | ha
        · exact ⟨h1, h2⟩
        · exact k4 a ha
    · rw [if_neg hlt]
      refine ⟨_, rfl, rfl, ?_, ?_, ?_, ?_⟩
      · intro i a b ha hb
        simp at hb
      · intro a ha
        rw [List.mem_singleton] at ha
        subst ha
        exact ⟨hx, hxy, hyr⟩
      · intro a ha
        simp only [List.length_singleton, Nat.sub_self, List.getElem?_cons_zero, Option.some.injEq] at ha
        subst ha
        dsimp only
        split_ifs at hlt <;> omega
      · intro a ha
        rw [List.mem_singleton] at ha
        subst ha
        exact ⟨h1, h2⟩

end Smil
