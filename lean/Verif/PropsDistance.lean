import Mathlib.Algebra.Order.Ring.Abs
import Mathlib.Tactic.IntervalCases
import Verif.DistanceLemmas

/-!
# Properties of the distance functions (C48, C49)
-/

namespace Smil
variable {t1 t2 : PT}

/-- `q` is a pixel of the image and its value is zero. -/
def IsZero (im : Img (Px t1)) (q : IntPoint) : Prop := ∃ v, im.at? q = some v ∧ v.val = 0

/-- City-block distance. -/
def cityBlock (p q : IntPoint) : Int := |p.x - q.x| + |p.y - q.y| + |p.z - q.z|

/-- Chessboard distance in the plane. -/
def chessboard (p q : IntPoint) : Int := max (|p.x - q.x|) (|p.y - q.y|)

/-- Square of the Euclidean distance. -/
def sqDist (p q : IntPoint) : Int := (p.x - q.x) ^ 2 + (p.y - q.y) ^ 2 + (p.z - q.z) ^ 2

theorem isZero_pt {im : Img (Px t1)} {x y z : Nat} (hx : x < im.dims.w) (hy : y < im.dims.h)
    (hz : z < im.dims.d) (h : (im.px x y z).val = 0) : IsZero im ⟨x, y, z⟩ := by
  have hin := (Img.in_pt im.dims x y z).mpr ⟨hx, hy, hz⟩
  exact ⟨_, im.at?_some _ hin, by simpa [Img.pt] using h⟩

theorem IsZero.px {im : Img (Px t1)} {q : IntPoint} (h : IsZero im q) :
    ∃ x y z : Nat, x < im.dims.w ∧ y < im.dims.h ∧ z < im.dims.d ∧ q = ⟨x, y, z⟩ ∧ (im.px x y z).val = 0 := by
  obtain ⟨v, hv, h0⟩ := h
  have hin := im.at?_eq_some_in q v hv
  rw [im.at?_some q hin] at hv
  simp only [Option.some.injEq] at hv
  obtain ⟨a, b, c⟩ := q
  unfold Img.In at hin
  simp only at hin hv
  refine ⟨a.toNat, b.toNat, c.toNat, by omega, by omega, by omega, ?_, by rw [hv]; exact h0⟩
  rw [Int.toNat_of_nonneg hin.1, Int.toNat_of_nonneg hin.2.2.1, Int.toNat_of_nonneg hin.2.2.2.2.1]

theorem initVal_zero {v : Px t1} (h : v.val = 0) : initVal t2 v = 0 := by unfold initVal; rw [if_pos h]
theorem initVal_top {v : Px t1} (h : v.val ≠ 0) : initVal t2 v = t2.hi := by unfold initVal; rw [if_neg h]

theorem initVal_nonneg (v : Px t1) : 0 ≤ initVal t2 v := by
  unfold initVal; have := t2.hi_nonneg; split_ifs <;> omega

theorem initVal_le (v : Px t1) : initVal t2 v ≤ t2.hi := by
  unfold initVal; have := t2.hi_nonneg; split_ifs <;> omega

/-- Columns and rows. -/
theorem plane_least (inc : Px t2 → Px t2) (up : Px t2 → Px t2 → Px t2)
    (hinc : ∀ p : Px t2, NonN p → (inc p).val = min (p.val + 1) t2.hi)
    (hup : ∀ n c : Px t2, NonN n → NonN c → NonN (up n c) ∧ (up n c).val = mstep n.val c.val)
    (im : Img (Px t1)) {x y : Nat} (z : Nat) (hx : x < im.dims.w) (hy : y < im.dims.h) :
    NonN (((im.onCols fun l => scanBack up (down inc l)).onRows sideLine).px x y z) ∧
    IsLeast {n | ∃ i < im.dims.w, ∃ j < im.dims.h,
      n = initVal t2 (im.px i j z) + |(y : Int) - j| + |(x : Int) - i|}
      (((im.onCols fun l => scanBack up (down inc l)).onRows sideLine).px x y z).val := by
  set c := im.onCols fun l => scanBack up (down inc l) with hc
  have hcd : c.dims = im.dims := rfl
  have hcl : ∀ x y z, x < im.dims.w → y < im.dims.h → NonN (c.px x y z) ∧
      IsLeast {n | ∃ j < im.dims.h, n = initVal t2 (im.px x j z) + |(y : Int) - j|} (c.px x y z).val :=
    fun x y z hx hy => cols_least inc up hinc hup im z hx hy
  obtain ⟨h1, ⟨i, hi, e⟩, h3⟩ := rows_least c (fun x y z hx hy => (hcl x y z hx hy).1) z
    (show x < c.dims.w from hx) (show y < c.dims.h from hy)
  refine ⟨h1, ?_, ?_⟩
  · obtain ⟨⟨j, hj, e'⟩, _⟩ := (hcl i y z hi hy).2
    exact ⟨i, hi, j, hj, by rw [e, e']⟩
  · rintro n ⟨i, hi, j, hj, rfl⟩
    have h4 := h3 ⟨i, hi, rfl⟩
    have h5 := (hcl i y z hi hy).2.2 ⟨j, hj, rfl⟩
    omega

/-- **C48**: `distCross` gives at every pixel the smaller of the maximum of the output type and the city-block
distance to the nearest zero pixel of its slice, for every image and every pair of types. -/
theorem C48_cross (auto : Bool) (im : Img (Px t1)) (dout : Dims) (hok : checkDims auto im.dims dout = .ok ()) :
    ∃ r : Img (Px t2), distCross auto im dout = .ok r ∧ r.dims = im.dims ∧
      ∀ p, Img.In im.dims p → ∃ v, r.at? p = some v ∧
        IsLeast (insert t2.hi {n | ∃ q, IsZero im q ∧ q.z = p.z ∧ n = cityBlock p q}) v.val := by
  refine ⟨(im.onCols fun l => scanBack upSat (down incSat l)).onRows sideLine, ?_, rfl, ?_⟩
  · unfold distCross; rw [hok]
  · intro p hp
    refine ⟨_, Img.at?_some _ _ hp, ?_⟩
    obtain ⟨a, b, c⟩ := p
    unfold Img.In at hp
    simp only at hp
    have hx : a.toNat < im.dims.w := by omega
    have hy : b.toNat < im.dims.h := by omega
    have hz : c.toNat < im.dims.d := by omega
    obtain ⟨_, ⟨i, hi, j, hj, e⟩, h2⟩ := plane_least (t2 := t2) incSat upSat incSat_val upSat_val im c.toNat hx hy
    simp only
    have ha : ((a.toNat : Nat) : Int) = a := by omega
    have hb : ((b.toNat : Nat) : Int) = b := by omega
    have hself := h2 ⟨a.toNat, hx, b.toNat, hy, rfl⟩
    rw [sub_self, sub_self, abs_zero, add_zero, add_zero] at hself
    have hle := hself.trans (initVal_le (t2 := t2) _)
    constructor
    · by_cases h0 : (im.px i j c.toNat).val = 0
      · right
        rw [initVal_zero h0] at e
        refine ⟨_, isZero_pt hi hj hz h0, by simp only; omega, ?_⟩
        rw [e]; unfold cityBlock
        simp only
        rw [ha, hb, show c - ((c.toNat : Nat) : Int) = 0 by omega, abs_zero]; ring
      · left
        rw [initVal_top h0] at e
        have h3 := abs_nonneg ((b.toNat : Int) - j)
        have h4 := abs_nonneg ((a.toNat : Int) - i)
        omega
    · rintro n (rfl | ⟨q, hq, hqz, rfl⟩)
      · exact hle
      · obtain ⟨x, y, z, hx', hy', hz', rfl, h0⟩ := hq.px
        simp only at hqz
        have hzc : z = c.toNat := by omega
        subst hzc
        have h3 := h2 ⟨x, hx', y, hy', rfl⟩
        rw [initVal_zero h0, ha, hb] at h3
        unfold cityBlock
        simp only
        rw [show c - ((c.toNat : Nat) : Int) = 0 by omega, abs_zero]
        omega

/-- The checks refuse images that are not allocated or, without automatic resizing, of another size. -/
theorem C48_errors (auto : Bool) (im : Img (Px t1)) (dout : Dims) :
    (im.dims.count = 0 ∨ dout.count = 0 → distCross (t2 := t2) auto im dout = .error errBadAllocation) ∧
    (im.dims.count ≠ 0 → dout.count ≠ 0 → dout ≠ im.dims → auto = false →
      distCross (t2 := t2) auto im dout = .error errBadSize) := by
  constructor
  · intro h; unfold distCross checkDims; rw [if_pos h]
  · intro h1 h2 h3 h4
    unfold distCross checkDims
    rw [if_neg (by omega), if_neg h3, if_neg (by simp [h4])]

/-- **C48**, three-dimensional cross (partial: output types of 16 bits at most): `distCross3d` gives at every
pixel the smaller of the maximum of the output type and the city-block distance to the nearest zero
pixel of the volume. -/
theorem C48_cross3d_partial (ht : t2.bits ≤ 16) (auto : Bool) (im : Img (Px t1)) (dout : Dims)
    (hok : checkDims auto im.dims dout = .ok ()) :
    ∃ r : Img (Px t2), distCross3d auto im dout = some (.ok r) ∧ r.dims = im.dims ∧
      ∀ p, Img.In im.dims p → ∃ v, r.at? p = some v ∧
        IsLeast (insert t2.hi {n | ∃ q, IsZero im q ∧ n = cityBlock p q}) v.val := by
  refine ⟨((im.onCols fun l => scanBack upCpp (down incCpp l)).onRows sideLine).onDepth sideLine, ?_, rfl, ?_⟩
  · unfold distCross3d; rw [hok]
    simp only
    rw [if_pos (show incOk t2 from Or.inr ht)]
  · intro p hp
    refine ⟨_, Img.at?_some _ _ hp, ?_⟩
    obtain ⟨a, b, c⟩ := p
    unfold Img.In at hp
    simp only at hp
    have hx : a.toNat < im.dims.w := by omega
    have hy : b.toNat < im.dims.h := by omega
    have hz : c.toNat < im.dims.d := by omega
    have hinc : ∀ p : Px t2, NonN p → (incCpp p).val = min (p.val + 1) t2.hi :=
      fun p hp => incCpp_val p (cInc_val ht p) hp
    have hpl := fun x y z hx hy =>
      plane_least (t2 := t2) incCpp upCpp hinc (upCpp_val ht) im (x := x) (y := y) z hx hy
    obtain ⟨⟨k, hk, e⟩, h2⟩ := depth_least
      ((im.onCols fun l => scanBack upCpp (down (t2 := t2) incCpp l)).onRows sideLine)
      (fun x y z hx hy => (hpl x y z hx hy).1) (x := a.toNat) (y := b.toNat) (z := c.toNat) hx hy hz
    simp only
    have ha : ((a.toNat : Nat) : Int) = a := by omega
    have hb : ((b.toNat : Nat) : Int) = b := by omega
    have hc : ((c.toNat : Nat) : Int) = c := by omega
    obtain ⟨⟨i, hi, j, hj, e'⟩, _⟩ := (hpl a.toNat b.toNat k hx hy).2
    have hself := h2 ⟨c.toNat, hz, rfl⟩
    rw [sub_self, abs_zero, add_zero] at hself
    have hself' := (hpl a.toNat b.toNat c.toNat hx hy).2.2 ⟨a.toNat, hx, b.toNat, hy, rfl⟩
    rw [sub_self, sub_self, abs_zero, add_zero, add_zero] at hself'
    have hle := (hself.trans hself').trans (initVal_le (t2 := t2) _)
    constructor
    · by_cases h0 : (im.px i j k).val = 0
      · right
        rw [initVal_zero h0] at e'
        refine ⟨_, isZero_pt hi hj hk h0, ?_⟩
        rw [e, e']; unfold cityBlock
        simp only
        rw [ha, hb, hc]; ring
      · left
        rw [initVal_top h0] at e'
        have h3 := abs_nonneg ((b.toNat : Int) - j)
        have h4 := abs_nonneg ((a.toNat : Int) - i)
        have h5 := abs_nonneg ((c.toNat : Int) - k)
        omega
    · rintro n (rfl | ⟨q, hq, rfl⟩)
      · exact hle
      · obtain ⟨x, y, z, hx', hy', hz', rfl, h0⟩ := hq.px
        have h3 := h2 ⟨z, hz', rfl⟩
        have h4 := (hpl a.toNat b.toNat z hx hy).2.2 ⟨x, hx', y, hy', rfl⟩
        rw [initVal_zero h0, ha, hb] at h4
        rw [hc] at h3
        unfold cityBlock
        simp only
        omega

/-- A 4 by 3 image with one zero pixel, for the examples. -/
def exDist : Img (Px UINT8) := ⟨⟨4, 3, 1⟩, fun i => UINT8.wrap ([0, 9, 9, 9, 9, 9, 9, 9, 9, 9, 9, 1].getD i 0)⟩

/-- The hypothesis holds and the result is the city-block distance. -/
example : checkDims true exDist.dims ⟨4, 3, 1⟩ = .ok () ∧
    (match distCross (t2 := UINT16) true exDist ⟨4, 3, 1⟩ with
      | .ok r => r.toRows.map (·.map (·.map Px.val))
      | .error _ => []) = [[[0, 1, 2, 3], [1, 2, 3, 4], [2, 3, 4, 5]]] := by decide

/-- With an output type of 32 bits `1 + infinite` is 0: without any zero pixel, the second row of the result is
0 and the first 1. -/
theorem C48_cross3d_bug : (match distCross3d (t2 := UINT32) true
      (⟨⟨1, 2, 1⟩, fun _ => UINT8.wrap 1⟩ : Img (Px UINT8)) ⟨1, 2, 1⟩ with
      | some (.ok r) => some (r.toRows.map (·.map (·.map Px.val)))
      | _ => none) = some [[[1], [0]]] := by decide

/-! ## C49 -/

theorem fChess_eq (g : Nat → Int) (x : Int) (i : Nat) : fChess g x i = max (|x - i|) (g i) := by
  unfold fChess
  split_ifs with h
  · rw [max_eq_right (by omega)]
  · rw [max_eq_left (by omega)]

/-- A row of `distSquare`. -/
theorem chessRow_spec (cap : Nat) (l : List (Px t2)) (hl : ∀ c ∈ l, NonN c) (hn : 0 < l.length)
    (hcap : l.length ≤ cap) : ∃ r, chessRow cap l = some r ∧ r.length = l.length ∧
      ∀ (x : Nat) (v : Px t2), r[x]? = some v → IsLeast {n | ∃ (i : Nat) (g : Px t2), l[i]? = some g ∧
        n = max (|(x : Int) - i|) g.val} v.val := by
  obtain ⟨c, h1, h2, h3⟩ := meijster_spec (chess_crosses l.length (lineVal (l.map Px.val))) hn hcap
  refine ⟨_, by unfold chessRow; simp only; rw [h1]; rfl, by simp, ?_⟩
  intro x v hv
  simp only [List.getElem?_map, List.getElem?_range', Option.map_eq_some_iff] at hv
  obtain ⟨x', hx', hv⟩ := hv
  have hxl : x < l.length := by
    have := (List.getElem?_eq_some_iff.mp hx').1; simpa using this
  have hxx : x' = x := by
    rw [List.getElem?_range hxl] at hx'; simp only [Option.some.injEq] at hx'; exact hx'.symm
  subst hxx
  obtain ⟨s, hs, hcs, hmin⟩ := h3 x' hxl
  have hcg : c.getD x' 0 = s := by rw [List.getD_eq_getElem?_getD, hcs]; rfl
  rw [hcg] at hv
  have hlv : ∀ i (hi : i < l.length), lineVal (l.map Px.val) i = l[i].val := by
    intro i hi; unfold lineVal; simp [List.getD_eq_getElem?_getD, hi]
  have hls : l.getD s ⊤ = l[s] := by simp [List.getD_eq_getElem?_getD, hs]
  rw [hls] at hv
  have hmin' : ∀ i (hi : i < l.length), max (|(x' : Int) - s|) l[s].val ≤ max (|(x' : Int) - i|) l[i].val := by
    intro i hi
    have := hmin i hi
    rw [fChess_eq, fChess_eq, hlv s hs, hlv i hi] at this
    exact this
  have hself := hmin' x' hxl
  have hfit : |(x' : Int) - s| ≤ t2.hi := by
    have h4 := le_max_left (|(x' : Int) - s|) l[s].val
    have h5 : max (|(x' : Int) - x'|) l[x'].val ≤ t2.hi := by
      rw [sub_self, abs_zero]
      exact max_le t2.hi_nonneg (l[x'].le_hi)
    omega
  have hval : v.val = max (|(x' : Int) - s|) l[s].val := by
    rw [← hv]
    unfold outChess
    simp only
    have hw : (t2.wrap (|(x' : Int) - s|)).val = |(x' : Int) - s| :=
      t2.wrap_of_mem (by have := t2.lo_le_zero; have := abs_nonneg ((x' : Int) - s); omega) hfit
    split_ifs with hlt
    · have : (t2.wrap (|(x' : Int) - s|)).val < l[s].val := hlt
      rw [max_eq_right (by omega)]
    · have : ¬ (t2.wrap (|(x' : Int) - s|)).val < l[s].val := hlt
      rw [hw, max_eq_left (by omega)]
  constructor
  · exact ⟨s, l[s], List.getElem?_eq_getElem hs, hval⟩
  · rintro n ⟨i, g, hi, rfl⟩
    obtain ⟨hil, rfl⟩ := List.getElem?_eq_some_iff.mp hi
    rw [hval]; exact hmin' i hil

/-- **C49**, chessboard distance: `distSquare` gives at every pixel the smaller of the maximum of the output
type and the chessboard distance to the nearest zero pixel of its slice. -/
theorem C49_square (auto : Bool) (im : Img (Px t1)) (dout : Dims) (hok : checkDims auto im.dims dout = .ok ()) :
    ∃ r : Img (Px t2), distSquare auto im dout = some (.ok r) ∧ r.dims = im.dims ∧
      ∀ p, Img.In im.dims p → ∃ v, r.at? p = some v ∧
        IsLeast (insert t2.hi {n | ∃ q, IsZero im q ∧ q.z = p.z ∧ n = chessboard p q}) v.val := by
  set c : Img (Px t2) := im.onCols fun l => scanBack upSat (down incSat l) with hcdef
  have hcl : ∀ x y z, x < im.dims.w → y < im.dims.h → NonN (c.px x y z) ∧
      IsLeast {n | ∃ j < im.dims.h, n = initVal t2 (im.px x j z) + |(y : Int) - j|} (c.px x y z).val :=
    fun x y z hx hy => cols_least incSat upSat incSat_val upSat_val im z hx hy
  have hdim : 0 < im.dims.w ∧ 0 < im.dims.h := by
    unfold checkDims at hok
    split_ifs at hok with h1 h2 h3 <;>
    · simp only [not_or] at h1
      unfold Dims.count at h1
      constructor <;> (rw [Nat.pos_iff_ne_zero]; intro h0; simp [h0] at h1)
  have hrow : ∀ y z, y < im.dims.h → ∃ r, chessRow (max im.dims.w im.dims.h) (c.row y z) = some r ∧
      r.length = im.dims.w ∧ ∀ (x : Nat) (v : Px t2), r[x]? = some v → IsLeast {n | ∃ (i : Nat) (g : Px t2),
        (c.row y z)[i]? = some g ∧ n = max (|(x : Int) - i|) g.val} v.val := by
    intro y z hy
    have hlen : (c.row y z).length = im.dims.w := row_length c y z
    obtain ⟨r, h1, h2, h3⟩ := chessRow_spec (max im.dims.w im.dims.h) (c.row y z)
      (by
        intro v hv
        unfold Img.row at hv
        simp only [List.mem_map, List.mem_range] at hv
        obtain ⟨i, hi, rfl⟩ := hv
        exact (hcl i y z hi hy).1)
      (by rw [hlen]; exact hdim.1) (by rw [hlen]; exact le_max_left _ _)
    exact ⟨r, h1, by rw [h2, hlen], h3⟩
  refine ⟨c.onRows fun l => (chessRow (max im.dims.w im.dims.h) l).getD [], ?_, rfl, ?_⟩
  · unfold distSquare; rw [hok]
    simp only
    unfold Img.onRows?
    rw [if_pos]
    · rfl
    · intro z _ y hy
      obtain ⟨r, h1, _⟩ := hrow y z hy
      rw [← hcdef, h1]; rfl
  · intro p hp
    refine ⟨_, Img.at?_some _ _ hp, ?_⟩
    obtain ⟨a, b, k⟩ := p
    unfold Img.In at hp
    simp only at hp
    have hx : a.toNat < im.dims.w := by omega
    have hy : b.toNat < im.dims.h := by omega
    have hz : k.toNat < im.dims.d := by omega
    obtain ⟨r, h1, h2, h3⟩ := hrow b.toNat k.toNat hy
    have hpx := onRows_px (fun l => (chessRow (max im.dims.w im.dims.h) l).getD []) c (x := a.toNat)
      (y := b.toNat) (z := k.toNat) (by rw [h1]; exact h2) hx hy
    rw [h1] at hpx
    obtain ⟨⟨i, g, hg, e⟩, h5⟩ := h3 _ _ hpx
    have hi : i < im.dims.w := by
      have := (List.getElem?_eq_some_iff.mp hg).1; rwa [row_length] at this
    rw [row_get c b.toNat k.toNat hi] at hg
    simp only [Option.some.injEq] at hg
    subst hg
    obtain ⟨⟨j, hj, e'⟩, _⟩ := (hcl i b.toNat k.toNat hi hy).2
    simp only
    have ha : ((a.toNat : Nat) : Int) = a := by omega
    have hb : ((b.toNat : Nat) : Int) = b := by omega
    have hself := h5 ⟨a.toNat, _, row_get c b.toNat k.toNat hx, rfl⟩
    rw [sub_self, abs_zero] at hself
    have hself' : max 0 (c.px a.toNat b.toNat k.toNat).val ≤ t2.hi :=
      max_le t2.hi_nonneg (c.px a.toNat b.toNat k.toNat).le_hi
    have hle := hself.trans hself'
    constructor
    · by_cases h0 : (im.px i j k.toNat).val = 0
      · right
        rw [initVal_zero h0] at e'
        refine ⟨_, isZero_pt hi hj hz h0, by simp only; omega, ?_⟩
        rw [e, e']; unfold chessboard
        simp only
        rw [ha, hb, zero_add]
      · left
        rw [initVal_top h0] at e'
        have h6 := abs_nonneg ((b.toNat : Int) - j)
        have h7 := le_max_right (|((a.toNat : Nat) : Int) - i|) (c.px i b.toNat k.toNat).val
        omega
    · rintro n (rfl | ⟨q, hq, hqz, rfl⟩)
      · exact hle
      · obtain ⟨x, y, z, hx', hy', hz', rfl, h0⟩ := hq.px
        simp only at hqz
        have hzc : z = k.toNat := by omega
        subst hzc
        have h6 := h5 ⟨x, _, row_get c b.toNat k.toNat hx', rfl⟩
        have h7 := (hcl x b.toNat k.toNat hx' hy).2.2 ⟨y, hy', rfl⟩
        rw [initVal_zero h0, zero_add, hb] at h7
        unfold chessboard
        simp only
        rw [ha] at h6
        exact h6.trans (max_le_max (le_refl _) h7)

/-- The chessboard distance on the example. -/
example : (match distSquare (t2 := UINT16) true exDist ⟨4, 3, 1⟩ with
      | some (.ok r) => r.toRows.map (·.map (·.map Px.val))
      | _ => []) = [[[0, 1, 2, 3], [1, 1, 2, 3], [2, 2, 2, 3]]] := by decide

/-! ### Euclidean distance -/

/-- A line of the Euclidean distance. -/
theorem eucLine_spec (t : PT) (cap : Nat) (sq : List Int) (h1 : sq.length ≤ 46341) (h0 : 0 < sq.length)
    (hcap : sq.length ≤ cap) : ∃ r, eucLine t cap sq = some r ∧ r.length = sq.length ∧
      ∀ (x : Nat) (v : Px t), r[x]? = some v → ∃ n, v = t.wrap n ∧
        IsLeast {n | ∃ (i : Nat) (g : Int), sq[i]? = some g ∧ n = ((x : Int) - i) ^ 2 + g} n := by
  obtain ⟨c, h2, h3, h4⟩ := meijster_spec (euc_crosses sq.length (lineVal sq)) h0 hcap
  refine ⟨_, by unfold eucLine; rw [if_neg (by omega)]; simp only; rw [h2]; rfl, by simp, ?_⟩
  intro x v hv
  simp only [List.getElem?_map, Option.map_eq_some_iff] at hv
  obtain ⟨x', hx', hv⟩ := hv
  have hxl : x < sq.length := by
    have := (List.getElem?_eq_some_iff.mp hx').1; simpa using this
  have hxx : x' = x := by
    rw [List.getElem?_range hxl] at hx'; simp only [Option.some.injEq] at hx'; exact hx'.symm
  subst hxx
  obtain ⟨s, hs, hcs, hmin⟩ := h4 x' hxl
  have hcg : c.getD x' 0 = s := by rw [List.getD_eq_getElem?_getD, hcs]; rfl
  rw [hcg] at hv
  have hlv : ∀ i (hi : i < sq.length), lineVal sq i = sq[i] := by
    intro i hi; unfold lineVal; simp [List.getD_eq_getElem?_getD, hi]
  refine ⟨_, hv.symm, ?_, ?_⟩
  · exact ⟨s, sq[s], List.getElem?_eq_getElem hs, by unfold fEuc; rw [hlv s hs]; ring⟩
  · rintro n ⟨i, g, hi, rfl⟩
    obtain ⟨hil, rfl⟩ := List.getElem?_eq_some_iff.mp hi
    have := hmin i hil
    unfold fEuc at this ⊢
    rw [hlv i hil] at this
    nlinarith

theorem cpp_small16 {t : PT} (ht : t.bits ≤ 16) {n : Int} (h0 : 0 ≤ n) (h1 : n < 2 ^ 31) : t.cpp n = some n := by
  unfold PT.cpp PT.promoted
  rw [if_pos ht, if_pos (show INT32.signed = true from rfl), if_pos]
  have e1 : INT32.lo = -(2 ^ 31) := by decide
  have e2 : INT32.hi = 2 ^ 31 - 1 := by decide
  omega

/-- The vertical distance in a column of `distanceEuclidean`. -/
theorem euc_col (ht : t2.bits ≤ 16) (im : Img (Px t1)) (hh : ((im.dims.h : Int) - 1) ^ 2 ≤ t2.hi) {x y : Nat}
    (z : Nat) (hx : x < im.dims.w) (hy : y < im.dims.h) :
    ((∃ j < im.dims.h, (im.px x j z).val = 0) →
      IsLeast {n | ∃ j < im.dims.h, (im.px x j z).val = 0 ∧ n = |(y : Int) - j|}
        ((im.onCols fun l => scanBack upEuc (down (t2 := t2) incCpp l)).px x y z).val) ∧
    ((∀ j < im.dims.h, (im.px x j z).val ≠ 0) →
      ((im.onCols fun l => scanBack upEuc (down (t2 := t2) incCpp l)).px x y z).val = t2.hi) := by
  obtain ⟨_, ⟨j, hj, e⟩, h2⟩ := cols_least (t2 := t2) incCpp upEuc
    (fun p hp => incCpp_val p (cInc_val ht p) hp)
    (fun n c => upEuc_val n c (fun _ => cInc_val ht n)) im z hx hy
  have hself := h2 ⟨y, hy, rfl⟩
  rw [sub_self, abs_zero, add_zero] at hself
  constructor
  · rintro ⟨j0, hj0, h0⟩
    have hlow := h2 ⟨j0, hj0, rfl⟩
    rw [initVal_zero h0, zero_add] at hlow
    constructor
    · by_cases hz : (im.px x j z).val = 0
      · exact ⟨j, hj, hz, by rw [e, initVal_zero hz, zero_add]⟩
      · refine ⟨j0, hj0, h0, ?_⟩
        rw [initVal_top hz] at e
        have h3 := abs_nonneg ((y : Int) - j)
        have h4 : |(y : Int) - j0| ≤ t2.hi := by
          have : |(y : Int) - j0| ≤ im.dims.h - 1 := by rw [abs_le]; omega
          nlinarith
        omega
    · rintro n ⟨j, hj, hz, rfl⟩
      have := h2 ⟨j, hj, rfl⟩
      rwa [initVal_zero hz, zero_add] at this
  · intro hno
    rw [initVal_top (hno j hj)] at e
    rw [initVal_top (hno y hy)] at hself
    have h3 := abs_nonneg ((y : Int) - j)
    omega

theorem mapM_some {α β : Type} {f : α → Option β} {g : α → β} {l : List α} (h : ∀ a ∈ l, f a = some (g a)) :
    l.mapM f = some (l.map g) := by
  induction l with
  | nil => rfl
  | cons a l ih =>
    rw [List.mapM_cons, h a List.mem_cons_self, ih (fun b hb => h b (List.mem_cons_of_mem _ hb))]
    rfl

/-- **C49**, Euclidean distance (partial): `distanceEuclidean` gives at every pixel the square of the Euclidean
distance to the nearest zero pixel of the volume, when the output type has 16 bits at most, the
square of the diagonal fits it, the image is not deeper than wide, and every slice has a zero pixel
(for types with a maximum above 46340, such as `UINT16`: every column of every slice has one). -/
theorem C49_euclidean_partial (ht : t2.bits ≤ 16) (auto : Bool) (im : Img (Px t1)) (dout : Dims)
    (hok : checkDims auto im.dims dout = .ok ()) (hdw : im.dims.d ≤ im.dims.w)
    (hfit : ((im.dims.w : Int) - 1) ^ 2 + ((im.dims.h : Int) - 1) ^ 2 + ((im.dims.d : Int) - 1) ^ 2 ≤ t2.hi)
    (hz : ∀ z < im.dims.d, (t2.hi ≤ 46340 ∧ ∃ x < im.dims.w, ∃ y < im.dims.h, (im.px x y z).val = 0) ∨
      ∀ x < im.dims.w, ∃ y < im.dims.h, (im.px x y z).val = 0) :
    ∃ r : Img (Px t2), distanceEuclidean auto im dout = some (.ok r) ∧ r.dims = im.dims ∧
      ∀ p, Img.In im.dims p → ∃ v, r.at? p = some v ∧
        IsLeast {n | ∃ q, IsZero im q ∧ n = sqDist p q} v.val := by
  have hdim : 0 < im.dims.w ∧ 0 < im.dims.h ∧ 0 < im.dims.d := by
    unfold checkDims at hok
    split_ifs at hok with h1 h2 h3 <;>
    · simp only [not_or] at h1
      unfold Dims.count at h1
      refine ⟨?_, ?_, ?_⟩ <;> (rw [Nat.pos_iff_ne_zero]; intro h0; simp [h0] at h1)
  obtain ⟨hw0, hh0, hd0⟩ := hdim
  have hhi : t2.hi < 2 ^ 16 := by
    unfold PT.hi
    have e1 : (2 ^ (t2.bits - 1) : Nat) ≤ 2 ^ 16 := Nat.pow_le_pow_right (by omega) (by omega)
    have e2 : (2 ^ t2.bits : Nat) ≤ 2 ^ 16 := Nat.pow_le_pow_right (by omega) (by omega)
    split_ifs <;> omega
  have sw := sq_nonneg ((im.dims.w : Int) - 1)
  have sh := sq_nonneg ((im.dims.h : Int) - 1)
  have sd := sq_nonneg ((im.dims.d : Int) - 1)
  have hwb : im.dims.w ≤ 46341 := by
    by_contra hc
    have : (46341 : Int) ≤ im.dims.w - 1 := by omega
    nlinarith
  have habs : ∀ (x i N : Nat), x < N → i < N → ((x : Int) - i) ^ 2 ≤ ((N : Int) - 1) ^ 2 := by
    intro x i N h1 h2
    apply sq_le_sq'
    · omega
    · omega
  set c : Img (Px t2) := im.onCols fun l => scanBack upEuc (down incCpp l) with hcdef
  have hcol := fun x y z hx hy => euc_col (t2 := t2) ht im (x := x) (y := y) (by omega) z hx hy
  have hcn : ∀ x y z, x < im.dims.w → y < im.dims.h → NonN (c.px x y z) := fun x y z hx hy =>
    (cols_least (t2 := t2) incCpp upEuc (fun p hp => incCpp_val p (cInc_val ht p) hp)
      (fun n c => upEuc_val n c (fun _ => cInc_val ht n)) im z hx hy).1
  -- the squares do not overflow
  have hsq : ∀ x y z, x < im.dims.w → y < im.dims.h → z < im.dims.d →
      t2.cpp ((c.px x y z).val * (c.px x y z).val) = some ((c.px x y z).val * (c.px x y z).val) := by
    intro x y z hx hy hzd
    have h0 := hcn x y z hx hy
    unfold NonN at h0
    apply cpp_small16 ht (mul_nonneg h0 h0)
    by_cases hcase : ∃ j < im.dims.h, (im.px x j z).val = 0
    · obtain ⟨⟨j, hj, _, e⟩, _⟩ := (hcol x y z hx hy).1 hcase
      have h1 := habs y j _ hy hj
      have h2 : (c.px x y z).val * (c.px x y z).val = ((y : Int) - j) ^ 2 := by
        rw [e, abs_mul_abs_self]; ring
      rw [h2]; omega
    · rcases hz z hzd with ⟨h1, _⟩ | h1
      · have := (c.px x y z).le_hi
        nlinarith
      · exact absurd (h1 x hx) hcase
  have hrow : ∀ y z, y < im.dims.h → z < im.dims.d → ∃ r, eucRow (c.row y z) = some r ∧
      r.length = im.dims.w ∧ ∀ (x : Nat) (v : Px t2), r[x]? = some v → x < im.dims.w ∧
        IsLeast {n | ∃ i < im.dims.w, ∃ j < im.dims.h, (im.px i j z).val = 0 ∧
          n = ((x : Int) - i) ^ 2 + ((y : Int) - j) ^ 2} v.val := by
    intro y z hy hzd
    have hlen : (c.row y z).length = im.dims.w := row_length c y z
    have hm : (c.row y z).mapM (fun v => t2.cpp (v.val * v.val)) =
        some ((c.row y z).map fun v => v.val * v.val) := by
      apply mapM_some
      intro v hv
      unfold Img.row at hv
      simp only [List.mem_map, List.mem_range] at hv
      obtain ⟨i, hi, rfl⟩ := hv
      exact hsq i y z hi hy hzd
    obtain ⟨r, h1, h2, h3⟩ := eucLine_spec t2 (c.row y z).length ((c.row y z).map fun v => v.val * v.val)
      (by rw [List.length_map, hlen]; exact hwb) (by rw [List.length_map, hlen]; exact hw0) (by simp)
    refine ⟨r, by unfold eucRow; rw [hm]; exact h1, by rw [h2, List.length_map, hlen], ?_⟩
    intro x v hv
    have hx : x < im.dims.w := by
      have := (List.getElem?_eq_some_iff.mp hv).1
      rw [h2, List.length_map, hlen] at this; exact this
    refine ⟨hx, ?_⟩
    obtain ⟨n, rfl, ⟨i, g, hg, e⟩, h5⟩ := h3 x v hv
    have hge : ∀ i, i < im.dims.w →
        ((c.row y z).map fun v => v.val * v.val)[i]? = some ((c.px i y z).val * (c.px i y z).val) := by
      intro i hi; rw [List.getElem?_map, row_get c y z hi]; rfl
    have hi : i < im.dims.w := by
      have := (List.getElem?_eq_some_iff.mp hg).1; rwa [List.length_map, hlen] at this
    rw [hge i hi] at hg
    simp only [Option.some.injEq] at hg
    subst hg
    -- any zero pixel of the slice is an upper bound
    have hub : ∀ i' < im.dims.w, ∀ j' < im.dims.h, (im.px i' j' z).val = 0 →
        n ≤ ((x : Int) - i') ^ 2 + ((y : Int) - j') ^ 2 := by
      intro i' hi' j' hj' h0
      have h6 := h5 ⟨i', _, hge i' hi', rfl⟩
      have h7 := ((hcol i' y z hi' hy).1 ⟨j', hj', h0⟩).2 ⟨j', hj', h0, rfl⟩
      have h8 := hcn i' y z hi' hy
      unfold NonN at h8
      have h9 : (c.px i' y z).val * (c.px i' y z).val ≤ ((y : Int) - j') ^ 2 := by
        have := mul_self_le_mul_self h8 h7
        rw [abs_mul_abs_self] at this
        nlinarith
      omega
    have hex : ∃ i' < im.dims.w, ∃ j' < im.dims.h, (im.px i' j' z).val = 0 := by
      rcases hz z hzd with ⟨_, h6⟩ | h6
      · exact h6
      · exact ⟨0, hw0, h6 0 hw0⟩
    have hn : n ≤ ((im.dims.w : Int) - 1) ^ 2 + ((im.dims.h : Int) - 1) ^ 2 := by
      obtain ⟨i', hi', j', hj', h0⟩ := hex
      have h6 := hub i' hi' j' hj' h0
      have h7 := habs x i' _ hx hi'
      have h8 := habs y j' _ hy hj'
      omega
    have hn0 : 0 ≤ n := by
      have h6 := sq_nonneg ((x : Int) - i)
      have h7 := mul_self_nonneg (c.px i y z).val
      omega
    rw [t2.wrap_of_mem (by have := t2.lo_le_zero; omega) (by omega)]
    constructor
    · by_cases hcase : ∃ j < im.dims.h, (im.px i j z).val = 0
      · obtain ⟨⟨j, hj, h0, e'⟩, _⟩ := (hcol i y z hi hy).1 hcase
        refine ⟨i, hi, j, hj, h0, ?_⟩
        rw [e, e', abs_mul_abs_self]; ring
      · have hcase' : ∀ j < im.dims.h, (im.px i j z).val ≠ 0 := fun j hj h0 => hcase ⟨j, hj, h0⟩
        have hhi2 := (hcol i y z hi hy).2 hcase'
        -- a column without zero is never strictly better than one with a zero
        rw [← hcdef] at hhi2
        rw [hhi2] at e
        obtain ⟨i', hi', j', hj', h0⟩ := hex
        refine ⟨i', hi', j', hj', h0, ?_⟩
        have h6 := hub i' hi' j' hj' h0
        have h7 := habs x i' _ hx hi'
        have h8 := habs y j' _ hy hj'
        have h9 := sq_nonneg ((x : Int) - i)
        have h10 : t2.hi ≤ t2.hi * t2.hi := by
          rcases t2.hi_nonneg.eq_or_lt with h | h
          · rw [← h]; simp
          · exact le_mul_of_one_le_left h.le h
        omega
    · rintro m ⟨i', hi', j', hj', h0, rfl⟩
      exact hub i' hi' j' hj' h0
  set r2 : Img (Px t2) := c.onRows fun l => (eucRow l).getD [] with hr2
  have hr2px : ∀ x y z, x < im.dims.w → y < im.dims.h → z < im.dims.d →
      IsLeast {n | ∃ i < im.dims.w, ∃ j < im.dims.h, (im.px i j z).val = 0 ∧
          n = ((x : Int) - i) ^ 2 + ((y : Int) - j) ^ 2} (r2.px x y z).val := by
    intro x y z hx hy hzd
    obtain ⟨r, h1, h2, h3⟩ := hrow y z hy hzd
    have hpx := onRows_px (fun l => (eucRow l).getD []) c (x := x) (y := y) (z := z)
      (by rw [h1]; exact h2) hx hy
    rw [h1] at hpx
    exact (h3 _ _ hpx).2
  have hdep : ∀ x y, x < im.dims.w → y < im.dims.h → ∃ r, eucDep im.dims.w (r2.dep x y) = some r ∧
      r.length = im.dims.d ∧ ∀ (z : Nat) (v : Px t2), r[z]? = some v → z < im.dims.d ∧
        ∃ n, v = t2.wrap n ∧ IsLeast {n | ∃ k < im.dims.d, n = ((z : Int) - k) ^ 2 + (r2.px x y k).val} n := by
    intro x y hx hy
    have hlen : (r2.dep x y).length = im.dims.d := dep_length r2 x y
    obtain ⟨r, h1, h2, h3⟩ := eucLine_spec t2 im.dims.w ((r2.dep x y).map Px.val)
      (by rw [List.length_map, hlen]; omega) (by rw [List.length_map, hlen]; exact hd0)
      (by rw [List.length_map, hlen]; exact hdw)
    refine ⟨r, h1, by rw [h2, List.length_map, hlen], ?_⟩
    intro z v hv
    refine ⟨by
      have := (List.getElem?_eq_some_iff.mp hv).1
      rw [h2, List.length_map, hlen] at this; exact this, ?_⟩
    obtain ⟨n, e, ⟨k, g, hg, e2⟩, h5⟩ := h3 z v hv
    have hge : ∀ k, k < im.dims.d → ((r2.dep x y).map Px.val)[k]? = some (r2.px x y k).val := by
      intro k hk; rw [List.getElem?_map, dep_get r2 x y hk]; rfl
    have hk : k < im.dims.d := by
      have := (List.getElem?_eq_some_iff.mp hg).1; rwa [List.length_map, hlen] at this
    rw [hge k hk] at hg
    simp only [Option.some.injEq] at hg
    subst hg
    refine ⟨n, e, ⟨k, hk, e2⟩, ?_⟩
    rintro m ⟨k', hk', rfl⟩
    exact h5 ⟨k', _, hge k' hk', rfl⟩
  refine ⟨r2.onDepth fun l => (eucDep im.dims.w l).getD [], ?_, rfl, ?_⟩
  · unfold distanceEuclidean; rw [hok]
    simp only
    rw [if_pos (show incOk t2 from Or.inr ht), ← hcdef]
    have e1 : c.onRows? eucRow = some r2 := by
      unfold Img.onRows?
      rw [if_pos]
      intro z hzd y hy
      obtain ⟨r, h1, _⟩ := hrow y z hy hzd
      rw [h1]; rfl
    rw [e1]
    simp only
    unfold Img.onDepth?
    rw [if_pos]
    · rfl
    · intro y hy x hx
      obtain ⟨r, h1, _⟩ := hdep x y hx hy
      rw [h1]; rfl
  · intro p hp
    refine ⟨_, Img.at?_some _ _ hp, ?_⟩
    obtain ⟨a, b, k⟩ := p
    unfold Img.In at hp
    simp only at hp
    have hx : a.toNat < im.dims.w := by omega
    have hy : b.toNat < im.dims.h := by omega
    have hzd : k.toNat < im.dims.d := by omega
    have ha : ((a.toNat : Nat) : Int) = a := by omega
    have hb : ((b.toNat : Nat) : Int) = b := by omega
    have hk : ((k.toNat : Nat) : Int) = k := by omega
    obtain ⟨r, h1, h2, h3⟩ := hdep a.toNat b.toNat hx hy
    have hpx := onDepth_px (fun l => (eucDep im.dims.w l).getD []) r2 (x := a.toNat)
      (y := b.toNat) (z := k.toNat) (by rw [h1]; exact h2) hx hy hzd
    rw [h1] at hpx
    obtain ⟨_, n, e, ⟨k', hk', e2⟩, h5⟩ := h3 _ _ hpx
    simp only
    rw [e]
    obtain ⟨⟨i, hi, j, hj, h0, e3⟩, _⟩ := hr2px a.toNat b.toNat k' hx hy hk'
    have s1 := habs a.toNat i _ hx hi
    have s2 := habs b.toNat j _ hy hj
    have s3 := habs k.toNat k' _ hzd hk'
    have n1 := sq_nonneg ((a.toNat : Int) - i)
    have n2 := sq_nonneg ((b.toNat : Int) - j)
    have n3 := sq_nonneg ((k.toNat : Int) - k')
    rw [t2.wrap_of_mem (by have := t2.lo_le_zero; omega) (by omega)]
    constructor
    · refine ⟨_, isZero_pt hi hj hk' h0, ?_⟩
      rw [e2, e3]; unfold sqDist
      simp only
      rw [ha, hb, hk]; ring
    · rintro m ⟨q, hq, rfl⟩
      obtain ⟨x, y, z, hx', hy', hz', rfl, h0'⟩ := hq.px
      have h6 := h5 ⟨z, hz', rfl⟩
      have h7 := (hr2px a.toNat b.toNat z hx hy hz').2 ⟨x, hx', y, hy', h0', rfl⟩
      unfold sqDist
      simp only
      rw [ha, hb] at h7
      rw [hk] at h6
      linarith

/-- The values of a result, slice by slice and row by row; `none` for an error or undefined behaviour. -/
def distRows {t : PT} (r : Option (Except Int (Img (Px t)))) : Option (List (List (List Int))) :=
  match r with
  | some (.ok r) => some (r.toRows.map (·.map (·.map Px.val)))
  | _ => none

/-- The hypotheses of `C49_euclidean_partial` hold for an image with columns without zero. -/
example : checkDims true exDist.dims ⟨4, 3, 1⟩ = .ok () ∧ exDist.dims.d ≤ exDist.dims.w ∧
    ((exDist.dims.w : Int) - 1) ^ 2 + ((exDist.dims.h : Int) - 1) ^ 2 + ((exDist.dims.d : Int) - 1) ^ 2 ≤ UINT8.hi ∧
    (∀ z < exDist.dims.d, UINT8.hi ≤ 46340 ∧ ∃ x < exDist.dims.w, ∃ y < exDist.dims.h, (exDist.px x y z).val = 0) ∧
    distRows (distanceEuclidean (t2 := UINT8) true exDist ⟨4, 3, 1⟩) =
      some [[[0, 1, 4, 9], [1, 2, 5, 10], [4, 5, 8, 13]]] := by decide

/-- A slice without zero pixel: (1, 0, 1) is at squared distance 2 from the only zero pixel, and the result
is 1 (the square of the maximum, 255, is 1 modulo 256). -/
theorem C49_slice_bug :
    let im : Img (Px UINT8) := ⟨⟨2, 1, 2⟩, fun i => UINT8.wrap ([0, 9, 9, 9].getD i 0)⟩
    distRows (distanceEuclidean (t2 := UINT8) true im im.dims) = some [[[0, 1]], [[1, 1]]] ∧
      ∀ q, IsZero im q → sqDist ⟨1, 0, 1⟩ q = 2 := by
  refine ⟨by decide, ?_⟩
  intro q hq
  obtain ⟨x, y, z, hx, hy, hz, rfl, h0⟩ := hq.px
  have hx : x < 2 := hx
  have hy : y < 1 := hy
  have hz : z < 2 := hz
  interval_cases x <;> interval_cases y <;> interval_cases z <;> first | decide | exact absurd h0 (by decide)

/-- In `UINT8` the squared distances above 255 are taken modulo 256: a pixel that is not zero gets 0. -/
theorem C49_wrap_bug :
    let im : Img (Px UINT8) := ⟨⟨18, 1, 1⟩, fun i => UINT8.wrap (if i = 0 then 0 else 9)⟩
    distRows (distanceEuclidean (t2 := UINT8) true im im.dims) =
      some [[[0, 1, 4, 9, 16, 25, 36, 49, 64, 81, 100, 121, 144, 169, 196, 225, 0, 33]]] := by decide +kernel

/-- In `UINT16` a column without zero pixel makes the code square 65535 in an `int`: the overflow is
undefined behaviour. -/
theorem C49_overflow_bug :
    let im : Img (Px UINT8) := ⟨⟨2, 1, 1⟩, fun i => UINT8.wrap ([0, 9].getD i 0)⟩
    distanceEuclidean (t2 := UINT16) true im im.dims = none := by decide

/-- In `UINT32` the sum of 1 and the maximum is 0: pixels above the first zero of a column become zero
themselves. -/
theorem C49_uint32_bug :
    let im : Img (Px UINT8) := ⟨⟨1, 3, 1⟩, fun i => UINT8.wrap ([9, 9, 0].getD i 0)⟩
    distRows (distanceEuclidean (t2 := UINT32) true im im.dims) = some [[[1], [0], [0]]] := by decide

/-- The third pass works in vectors of the length of a row: it writes beyond them when the image is
deeper than wide. -/
theorem C49_deep_bug :
    let im : Img (Px UINT8) := ⟨⟨1, 1, 3⟩, fun i => UINT8.wrap ([0, 0, 9].getD i 0)⟩
    distanceEuclidean (t2 := UINT8) true im im.dims = none := by decide

end Smil
