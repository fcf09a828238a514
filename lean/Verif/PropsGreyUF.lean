import Verif.GreyUFLemmas
import Verif.PropsAreaOpen
import Mathlib.Tactic.Ring
import Mathlib.Tactic.Positivity

/-!
# C117: the union-find area opening of the addon
-/

namespace Smil
open StrElt

/-! ### The sort -/

/-- **C117.** `PixelDownSort` writes each pixel exactly once, inside `SortPixels`, by decreasing grey value and in raster order among equal ones. -/
theorem C117_sort (n : Nat) (g : Nat → Nat) (hg : ∀ i < n, g i < 256) :
    ∃ sp, goSort n g = some sp ∧ ((List.range n).map sp).Perm (List.range n) ∧ ((List.range n).map sp).Pairwise fun a b => g b < g a ∨ g a = g b ∧ a < b := by
  obtain ⟨sp, e, h⟩ := goSort_ord hg
  refine ⟨sp, e, ?_, h.bef⟩
  rw [List.perm_ext_iff_of_nodup _ List.nodup_range]
  · intro a; rw [h.mem, List.mem_range]
  · exact h.bef.imp fun {a b} hab => by rintro rfl; exact ABef.irrefl hab

/-- Grey values 2, 5, 2, 9: the pixels 3, 1, 0, 2. -/
example : (goSort 4 fun i => [2, 5, 2, 9].getD i 0).map (fun sp => (List.range 4).map sp) = some [3, 1, 0, 2] := by decide +kernel

/-! ### The neighbours -/

theorem goDiv {w x y : Nat} (hx : x < w) : (w * y + x) / w = y ∧ (w * y + x) % w = x := by
  constructor
  · rw [Nat.mul_add_div (by omega), Nat.div_eq_of_lt hx, add_zero]
  · rw [Nat.mul_add_mod, Nat.mod_eq_of_lt hx]

theorem mem_goAdj {w h x y j : Nat} (hx : x < w) (hy : y < h) : j ∈ goAdj w h (w * y + x) ↔
    ∃ x' y', x' < w ∧ y' < h ∧ j = w * y' + x' ∧ (y' = y ∧ (x' + 1 = x ∨ x + 1 = x') ∨ x' = x ∧ (y' + 1 = y ∨ y + 1 = y')) := by
  unfold goAdj
  rw [(goDiv hx).1, (goDiv hx).2]
  constructor
  · intro hj
    simp only [List.mem_append] at hj
    rcases hj with ((hj | hj) | hj) | hj
    · split at hj
      · rw [List.mem_singleton] at hj
        exact ⟨x - 1, y, by omega, hy, by omega, .inl ⟨rfl, .inl (by omega)⟩⟩
      · cases hj
    · split at hj
      · rw [List.mem_singleton] at hj
        exact ⟨x + 1, y, by omega, hy, by omega, .inl ⟨rfl, .inr rfl⟩⟩
      · cases hj
    · split at hj
      · rw [List.mem_singleton] at hj
        obtain ⟨k, rfl⟩ : ∃ k, y = k + 1 := ⟨y - 1, by omega⟩
        exact ⟨x, k, hx, by omega, by rw [hj, Nat.mul_succ]; omega, .inr ⟨rfl, .inl rfl⟩⟩
      · cases hj
    · split at hj
      · rw [List.mem_singleton] at hj
        exact ⟨x, y + 1, hx, by omega, by rw [hj, Nat.mul_succ]; omega, .inr ⟨rfl, .inr rfl⟩⟩
      · cases hj
  · rintro ⟨x', y', h1, h2, rfl, ⟨rfl, rfl | rfl⟩ | ⟨rfl, rfl | rfl⟩⟩
    · rw [if_pos (show 0 < x' + 1 by omega)]
      simp only [List.mem_append, List.mem_singleton]
      exact .inl (.inl (.inl (by omega)))
    · rw [if_pos h1]
      simp only [List.mem_append, List.mem_singleton]
      exact .inl (.inl (.inr (by omega)))
    · rw [if_pos (show 0 < y' + 1 by omega)]
      simp only [List.mem_append, List.mem_singleton]
      exact .inl (.inr (by rw [Nat.mul_succ]; omega))
    · rw [if_pos h2]
      simp only [List.mem_append, List.mem_singleton]
      exact .inr (by rw [Nat.mul_succ]; omega)

theorem go_coord {w h i : Nat} (hi : i < w * h) : ∃ x y, x < w ∧ y < h ∧ i = w * y + x := by
  have hw : 0 < w := Nat.pos_of_ne_zero fun e => by rw [e] at hi; simp at hi
  exact ⟨i % w, i / w, Nat.mod_lt _ hw, Nat.div_lt_of_lt_mul hi, (Nat.div_add_mod i w).symm⟩

theorem go_lt {w h x y : Nat} (hx : x < w) (hy : y < h) : w * y + x < w * h := by
  have : w * (y + 1) ≤ w * h := Nat.mul_le_mul_left w hy
  rw [Nat.mul_succ] at this
  omega

/-- The neighbours of the pixels of the image. -/
def goAdjI (w h i : Nat) : List Nat := if i < w * h then goAdj w h i else []

theorem goAdjI_lt {w h : Nat} : ∀ i < w * h, ∀ j ∈ goAdjI w h i, j < w * h := by
  intro i hi j hj
  unfold goAdjI at hj
  rw [if_pos hi] at hj
  obtain ⟨x, y, hx, hy, rfl⟩ := go_coord hi
  obtain ⟨x', y', h1, h2, rfl, -⟩ := (mem_goAdj hx hy).mp hj
  exact go_lt h1 h2

theorem goAdjI_symm {w h : Nat} (i j : Nat) (hj : j ∈ goAdjI w h i) : i ∈ goAdjI w h j := by
  have hi : i < w * h := by
    by_contra hc
    unfold goAdjI at hj
    rw [if_neg hc] at hj
    cases hj
  have hjl := goAdjI_lt i hi j hj
  unfold goAdjI at hj ⊢
  rw [if_pos hi] at hj
  rw [if_pos hjl]
  obtain ⟨x, y, hx, hy, rfl⟩ := go_coord hi
  obtain ⟨x', y', h1, h2, rfl, h3⟩ := (mem_goAdj hx hy).mp hj
  exact (mem_goAdj h1 h2).mpr ⟨x, y, hx, hy, rfl, by omega⟩

theorem goAdjI_nb {D : Dims} (hd : D.d = 1) {i j : Nat} (hi : i < D.count) : j ∈ goAdjI D.w D.h i ↔ j ∈ nbOffsets D (CrossSE 1) i := by
  have hc : D.count = D.w * D.h := by unfold Dims.count; rw [hd, one_mul, mul_comm]
  rw [hc] at hi
  unfold goAdjI
  rw [if_pos hi]
  obtain ⟨x, y, hx, hy, rfl⟩ := go_coord hi
  have hoff : ∀ x y : Nat, offOf D ⟨x, y, 0⟩ = D.w * y + x := by
    intro x y
    unfold offOf rasterIndex
    simp only [Int.toNat_natCast, Int.toNat_zero, mul_zero, add_zero]
    omega
  have hin : ∀ {x y : Nat}, x < D.w → y < D.h → Img.In D ⟨x, y, 0⟩ := by
    intro x y hx hy
    unfold Img.In
    refine ⟨by positivity, ?_⟩
    simp only
    omega
  have hpts : (CrossSE 1).points = [⟨0, 0, 0⟩, ⟨1, 0, 0⟩, ⟨-1, 0, 0⟩, ⟨0, -1, 0⟩, ⟨0, 1, 0⟩] := by decide
  have hodd : (CrossSE 1).odd = false := by decide
  rw [mem_goAdj hx hy, ← hoff, mem_nbOffsets (hin hx hy), hpts, hodd]
  constructor
  · rintro ⟨x', y', h1, h2, rfl, h3⟩
    refine ⟨⟨x', y', 0⟩, hin h1 h2, hoff x' y', ⟨(x' : Int) - x, (y' : Int) - y, 0⟩, ?_, ?_, ?_⟩
    · rcases h3 with ⟨rfl, rfl | rfl⟩ | ⟨rfl, rfl | rfl⟩ <;> simp
    · intro e
      rw [IntPoint.mk.injEq] at e
      omega
    · simp [phys]
      omega
  · rintro ⟨⟨px, py, pz⟩, h1, h2, ⟨bx, bY, bz⟩, h3, h4, h5⟩
    unfold Img.In at h1
    simp only at h1
    simp only [phys] at h5
    simp at h5
    simp only [List.mem_cons, IntPoint.mk.injEq, List.not_mem_nil, or_false] at h3
    have h4' : ¬ (bx = 0 ∧ bY = 0 ∧ bz = 0) := fun e => h4 (by rw [e.1, e.2.1, e.2.2])
    have hpz : pz = 0 := by omega
    refine ⟨px.toNat, py.toNat, by omega, by omega, ?_, by omega⟩
    rw [← h2, hpz, ← hoff, Int.toNat_of_nonneg (by omega), Int.toNat_of_nonneg (by omega)]

/-! ### The opening -/

theorem goPixel_congr {w h : Nat} {g : Nat → Nat} {lam : Int} {fuel : Nat} {op : Nat → Int} {p : Nat} (hp : p < w * h) :
    goPixel g (goAdj w h) lam fuel op p = goPixel g (goAdjI w h) lam fuel op p := by
  unfold goPixel goAdjI
  rw [if_pos hp]

theorem goOpen_spec (w h lam : Nat) (g : Nat → Nat) (hg : ∀ i < w * h, g i < 256) (hlam : 1 ≤ lam) (op : Nat → Int) :
    ∃ (op' par : Nat → Int) (rt : Nat → Nat), goOpen w h lam g op = some op' ∧ UInv (goAdjI w h) (w * h) lam g (· < w * h) par rt ∧ ∀ x < w * h, op' x = g (rt x) := by
  obtain ⟨sp, e, hord⟩ := goSort_ord hg
  obtain ⟨par, rt, e2, hb⟩ := goBuild_spec (adj := goAdjI w h) goAdjI_symm goAdjI_lt hlam hord ((List.range (w * h)).map sp) [] op id rfl
    ⟨⟨by simp, by simp, by simp, by simp⟩, by simp, by simp, by simp⟩
  have h' : UInv (goAdjI w h) (w * h) lam g (· < w * h) par rt := hb.congr hord.mem
  have e3 : ((List.range (w * h)).map sp).foldlM (goPixel g (goAdj w h) lam (w * h + 1)) op = some par := by
    rw [← e2]
    exact foldlM_congr' _ _ fun x hx b => goPixel_congr ((hord.mem x).mp hx)
  refine ⟨((List.range (w * h)).map sp).reverse.foldl (goResolve g) par, par, rt, ?_, h', ?_⟩
  · unfold goOpen
    rw [e, Option.bind_some, e3]
    rfl
  · intro x hx
    refine (goResolve_spec h'.uf _ _ (fun _ => False) (List.pairwise_reverse.mpr hord.bef) ?_ ?_ ?_ ?_ ?_ x).1 ?_
    · intro z hz; rw [List.mem_reverse, hord.mem] at hz; exact hz
    · intro z _ y hy _; right; rw [List.mem_reverse, hord.mem]; exact hy
    · intro z _ h; exact h
    · intro z h; exact h.elim
    · intro z _; rfl
    · right; rw [List.mem_reverse, hord.mem]; exact hx

/-- **C117**, partial: on a plane image and for a size at least 1, `ImAreaOpening_UnionFind` computes the area opening for the four neighbours. Missing: sizes below 1 (`C117_size0_bug`) and volumes (`C117_slices_bug`). -/
theorem C117_open_partial (auto : Bool) (size : Nat) (im : Img (Px UINT8)) (dout : Dims) (ha : im.dims.count ≠ 0) (hs : dout = im.dims ∨ auto = true) (hd : im.dims.d = 1) (hn : 1 ≤ size) :
    ∃ (out : Img Int) (o : Img (Px UINT8)), imAreaOpeningUF auto size im dout = some (.ok out) ∧ out.dims = im.dims ∧
      IsAreaOpen (seRel (CrossSE 1)) size im o ∧ ∀ i < im.dims.count, out.buf i = (o.buf i).val := by
  have hc : im.dims.count = im.dims.w * im.dims.h := by unfold Dims.count; rw [hd, one_mul, mul_comm]
  have hlo : ∀ x : Px UINT8, 0 ≤ x.val ∧ x.val ≤ 255 := fun x => ⟨x.lo_le, x.le_hi⟩
  obtain ⟨op, par, rt, e, hU, hv⟩ := goOpen_spec im.dims.w im.dims.h size (fun i => (im.buf i).val.toNat)
    (fun i _ => by have := hlo (im.buf i); omega) hn fun _ => 0
  refine ⟨⟨im.dims, op⟩, ⟨im.dims, fun x => im.buf (rt x)⟩, ?_, rfl, ?_, ?_⟩
  · unfold imAreaOpeningUF
    have hck : checkOne auto im.dims dout = .ok () := by
      unfold checkOne
      rw [if_neg ha]
      rcases hs with e | e
      · rw [if_pos e]
      · rw [e]; split <;> rfl
    rw [hck]
    simp only
    rw [e]
    rfl
  · have hconn : ∀ S : Nat → Prop, (∀ i, S i → i < im.dims.count) → AConn (goAdjI im.dims.w im.dims.h) S = AConn (nbOffsets im.dims (CrossSE 1)) S := by
      intro S hS
      unfold AConn
      congr 1
      funext a b
      apply propext
      constructor
      · rintro ⟨h1, h2, h3⟩
        exact ⟨h1, h2, (goAdjI_nb hd (hS a h1)).mp h3⟩
      · rintro ⟨h1, h2, h3⟩
        exact ⟨h1, h2, (goAdjI_nb hd (hS a h1)).mpr h3⟩
    have hlev : ∀ v : Px UINT8, ALev im.dims.count (fun i => (im.buf i).val.toNat) v.val.toNat = ALev im.dims.count im.buf v := by
      intro v
      funext i
      unfold ALev
      apply propext
      refine and_congr_right fun _ => ?_
      show v.val.toNat ≤ (im.buf i).val.toNat ↔ v.val ≤ (im.buf i).val
      have := hlo v
      have := hlo (im.buf i)
      omega
    have hle : ∀ a b : Px UINT8, a ≤ b ↔ a.val.toNat ≤ b.val.toNat := by
      intro a b
      show a.val ≤ b.val ↔ _
      have := hlo a
      have := hlo b
      omega
    refine isAreaOpen_of_offsets fun x hx => ?_
    rw [← hc] at hU
    rcases UInv.value goAdjI_symm (by rw [hc]; exact goAdjI_lt) hU hx with ⟨h1, h2, h3⟩ | ⟨h1, h2, h3⟩
    · left
      unfold acomp at h1 h3 ⊢
      rw [hlev, hconn _ (fun i hi => hi.1)] at h1
      refine ⟨h1, (hle _ _).mpr h2, fun v hv hv' => ?_⟩
      have h4 := h3 v.val.toNat (by rw [← not_le] at hv ⊢; rwa [← hle]) ((hle _ _).mp hv')
      rwa [hlev, hconn _ (fun i hi => hi.1)] at h4
    · right
      unfold acomp at h1 ⊢
      rw [hconn _ (fun i hi => hi)] at h1 h2 h3
      exact ⟨h1, ⟨rt x, h2, rfl⟩, fun y hy => (hle _ _).mpr (h3 y hy)⟩
  · intro i hi
    show op i = _
    rw [hv i (by omega)]
    have := hlo (im.buf (rt i))
    show ((im.buf (rt i)).val.toNat : Int) = (im.buf (rt i)).val
    omega

/-- Rows of a result. -/
def goRow (r : Option (Except Int (Img Int))) : Option (List Int) :=
  match r with
  | some (.ok im) => some ((List.range im.dims.count).map im.buf)
  | _ => none

/-- The peak of one pixel is removed. -/
example : (lineImg [3, 1, 2, 2, 7, 3]).dims.count ≠ 0 ∧ goRow (imAreaOpeningUF true 2 (lineImg [3, 1, 2, 2, 7, 3]) ⟨6, 1, 1⟩) = some [1, 1, 2, 2, 3, 3] := by
  decide +kernel

/-- With two lines: the pixels above each other are neighbours, those across a corner are not. -/
example : goRow (imAreaOpeningUF true 2 ⟨⟨3, 2, 1⟩, fun i => UINT8.wrap ([5, 1, 7, 5, 7, 1].getD i 0)⟩ ⟨3, 2, 1⟩) = some [5, 1, 1, 5, 5, 1] := by decide +kernel

/-! ### The range of the elements of `opening` -/

theorem goCompress_ge : ∀ (fuel : Nat) (op op' : Nat → Int) (root newroot r : Nat), goCompress fuel op root newroot r = some op' → ∀ x, op' x = op x ∨ 0 ≤ op' x
  | 0, _, _, _, _, _, h, _ => by cases h
  | fuel + 1, op, op', root, newroot, r, h, x => by
    unfold goCompress at h
    split at h
    · rcases goCompress_ge fuel _ _ _ _ _ h x with h1 | h1
      · rw [Function.update_apply] at h1
        split at h1
        · right; omega
        · exact .inl h1
      · exact .inr h1
    · cases h; exact .inl rfl

theorem goLink_ge {lam B c : Int} {fuel : Nat} {op op' : Nat → Int} {n p : Nat} (hlam : 0 ≤ lam) (hB : B ≤ 0) (hc : c ≤ 0)
    (h : goLink lam fuel op n p = some op') (h1 : ∀ x, x ≠ p → B ≤ op x) (h2 : c ≤ op p) : (∀ x, x ≠ p → B ≤ op' x) ∧ c - lam ≤ op' p := by
  unfold goLink at h
  cases hr : goRoot fuel op n with
  | none => rw [hr] at h; cases h
  | some root =>
    rw [hr, Option.bind_some] at h
    by_cases hrp : root = p
    · rw [if_neg (by simpa using hrp)] at h
      have key := goCompress_ge _ _ _ _ _ _ h
      refine ⟨fun x hx => ?_, ?_⟩
      · have := key x; have := h1 x hx; omega
      · have := key p; omega
    · rw [if_pos hrp] at h
      by_cases hl : -(op root) < lam
      · rw [if_pos hl] at h
        have key := goCompress_ge _ _ _ _ _ _ h
        refine ⟨fun x hx => ?_, ?_⟩
        · have k := key x
          have := h1 x hx
          rw [Function.update_apply, Function.update_of_ne hx] at k
          split at k <;> omega
        · have k := key p
          rw [Function.update_of_ne (Ne.symm hrp), Function.update_self] at k
          omega
      · rw [if_neg hl] at h
        have key := goCompress_ge _ _ _ _ _ _ h
        refine ⟨fun x hx => ?_, ?_⟩
        · have k := key x
          have := h1 x hx
          rw [Function.update_of_ne hx] at k
          omega
        · have k := key p
          rw [Function.update_self] at k
          omega

theorem goAdj_length (w h p : Nat) : (goAdj w h p).length ≤ 4 := by
  unfold goAdj
  split <;> split <;> split <;> split <;> simp

theorem goFold_ge {g : Nat → Nat} {lam B : Int} {fuel p : Nat} (hlam : 0 ≤ lam) (hB : B ≤ 0) : ∀ (l : List Nat) (c : Int) (op op' : Nat → Int), c ≤ 0 →
    l.foldlM (fun op n => if goTest g p n then goLink lam fuel op n p else some op) op = some op' → (∀ x, x ≠ p → B ≤ op x) → c ≤ op p →
    (∀ x, x ≠ p → B ≤ op' x) ∧ c - l.length * lam ≤ op' p
  | [], c, op, op', _, h, h1, h2 => by
    cases h
    exact ⟨h1, by simpa using h2⟩
  | n :: l, c, op, op', hc, h, h1, h2 => by
    rw [List.foldlM_cons] at h
    have hlen : ((n :: l).length : Int) * lam = l.length * lam + lam := by rw [List.length_cons]; push_cast; ring
    rw [hlen]
    by_cases ht : goTest g p n = true
    · rw [if_pos ht] at h
      cases hk : goLink lam fuel op n p with
      | none => rw [hk] at h; cases h
      | some o =>
        rw [hk] at h
        obtain ⟨h3, h4⟩ := goLink_ge hlam hB hc hk h1 h2
        have := goFold_ge hlam hB l (c - lam) o op' (by omega) h h3 h4
        exact ⟨this.1, by omega⟩
    · rw [if_neg ht] at h
      have := goFold_ge hlam hB l c op op' hc h h1 h2
      exact ⟨this.1, by omega⟩

/-- **C117.** The elements of `opening` never go below `-(4 lambda + 1)`: the sums of `Link1` fit an `int` for sizes up to 536870911, whatever the image. The bound is kept by each pixel of the loop. -/
theorem C117_range (w h fuel : Nat) (g : Nat → Nat) (lam : Int) (hlam : 0 ≤ lam) (op op' : Nat → Int) (p : Nat) (hop : ∀ x, -(4 * lam + 1) ≤ op x)
    (hp : goPixel g (goAdj w h) lam fuel op p = some op') : ∀ x, -(4 * lam + 1) ≤ op' x := by
  unfold goPixel at hp
  obtain ⟨h1, h2⟩ := goFold_ge hlam (B := -(4 * lam + 1)) (by omega) _ (-1) _ _ (by omega) hp (fun x hx => by rw [Function.update_of_ne hx]; exact hop x)
    (by rw [Function.update_self])
  intro x
  by_cases hx : x = p
  · rw [hx]
    have h3 : ((goAdj w h p).length : Int) * lam ≤ 4 * lam := mul_le_mul_of_nonneg_right (by exact_mod_cast goAdj_length w h p) hlam
    omega
  · exact h1 x hx

/-! ### Exceptions -/

/-- Size 0 is accepted: a pixel of value 1 gets -1, which is no grey value. -/
theorem C117_size0_bug : goRow (imAreaOpeningUF true 0 (lineImg [3, 1, 2]) ⟨3, 1, 1⟩) = some [3, -1, 2] := by decide +kernel

/-- In a volume only the first slice is opened: the second one, of constant value 5, becomes 0. -/
theorem C117_slices_bug : goRow (imAreaOpeningUF true 1 ⟨⟨1, 1, 2⟩, fun _ => UINT8.wrap 5⟩ ⟨1, 1, 2⟩) = some [5, 0] := by decide +kernel

theorem kInv_int32 {a : Px INT32} (h : 0 ≤ a.val) : kInv a = none := by
  have h1 : INT32.hi = 2147483647 := by decide
  have h2 : INT32.lo = -2147483648 := by decide
  have h3 := a.le_hi
  have hp : INT32.promoted = INT32 := by decide
  have hs : INT32.signed = true := by decide
  unfold kInv PT.cpp
  rw [hp, hs, if_pos rfl, if_pos (by omega)]
  simp only [Option.bind_eq_bind, Option.bind_some, if_true]
  rw [if_neg (by omega)]
  rfl

/-- `ImAreaClosing_UnionFind` is undefined on every plane image: the second inversion is made on the 32-bit pixels of the output, where `max() - v - min()` overflows for each value the opening gives. -/
theorem C117_closing_bug (auto : Bool) (size : Nat) (im : Img (Px UINT8)) (dout : Dims) (ha : im.dims.count ≠ 0) (hs : dout = im.dims ∨ auto = true) (hd : im.dims.d = 1) (hn : 1 ≤ size) :
    imAreaClosingUF auto size im dout = none := by
  unfold imAreaClosingUF
  have hck : checkOne auto im.dims dout = .ok () := by
    unfold checkOne
    rw [if_neg ha]
    rcases hs with e | e
    · rw [if_pos e]
    · rw [e]; split <;> rfl
  rw [hck]
  simp only
  cases hm : Img.mapK kInv im with
  | none => rfl
  | some neg =>
    have hdn : neg.dims = im.dims := (Img.mapK_some _ _ _ hm).1
    obtain ⟨out, o, e, e1, -, e2⟩ := C117_open_partial auto size neg im.dims (by rw [hdn]; exact ha) (.inl hdn.symm) (by rw [hdn]; exact hd) hn
    rw [Option.bind_some, e, Option.bind_some]
    simp only
    unfold Img.mapK
    rw [if_neg]
    · rfl
    · intro hall
      have h0 := hall 0 (by show 0 < out.dims.count; rw [e1, hdn]; omega)
      simp only at h0
      rw [e2 0 (by rw [hdn]; omega)] at h0
      have hlo : 0 ≤ (o.buf 0).val := (o.buf 0).lo_le
      have hhi : (o.buf 0).val ≤ 255 := (o.buf 0).le_hi
      have hw : (INT32.wrap (o.buf 0).val).val = (o.buf 0).val :=
        INT32.wrap_of_mem (by rw [show INT32.lo = -2147483648 by decide]; omega) (by rw [show INT32.hi = 2147483647 by decide]; omega)
      rw [kInv_int32 (by rw [hw]; exact hlo)] at h0
      exact absurd h0 (by simp)

/-- The errors: an input without pixels, an output of another size. -/
theorem C117_errors (auto : Bool) (size : Int) (im : Img (Px UINT8)) (dout : Dims) :
    (im.dims.count = 0 → imAreaOpeningUF auto size im dout = some (.error errBadAllocation)) ∧
    (im.dims.count ≠ 0 → dout ≠ im.dims → auto = false → imAreaOpeningUF auto size im dout = some (.error errBadSize)) := by
  unfold imAreaOpeningUF checkOne
  constructor
  · intro h; rw [if_pos h]
  · intro h1 h2 h3; rw [if_neg h1, if_neg h2, h3]; rfl

end Smil
