import Verif.Matrix
import Verif.ArithLemmas
import Verif.MorphoSpec
import Mathlib.Algebra.BigOperators.Ring.Finset
import Mathlib.Algebra.BigOperators.Intervals

/-!
# Specification and lemmas for matrices

`IsMoved` and `IsProduct` are the specification used by C68.
-/

namespace Smil
variable {α : Type}

theorem foldl_keys {ι : Type} (key : ι → Nat) (val : ι → α) (i : ι) : ∀ (l : List ι) (b : Nat → α), i ∈ l →
    (∀ j ∈ l, key j = key i → val j = val i) → (l.foldl (fun b j => Function.update b (key j) (val j)) b) (key i) = val i := by
  intro l
  induction l using List.reverseRecOn with
  | nil => intro b h; cases h
  | append_singleton l j ih =>
    intro b hi hj
    rw [List.foldl_append, List.foldl_cons, List.foldl_nil]
    by_cases hk : key j = key i
    · rw [← hk, Function.update_self]
      exact hj j (by simp) hk
    · rw [Function.update_of_ne (Ne.symm hk)]
      refine ih b ?_ fun k hk' => hj k (by simp [hk'])
      rcases List.mem_append.mp hi with h | h
      · exact h
      · rw [List.mem_singleton] at h
        subst h
        exact absurd rfl hk

theorem mem_loopPts (D : Dims) (p : Nat × Nat × Nat) : p ∈ loopPts D ↔ p.1 < D.w ∧ p.2.1 < D.h ∧ p.2.2 < D.d := by
  obtain ⟨x, y, z⟩ := p
  unfold loopPts
  simp only [List.mem_flatMap, List.mem_range, List.mem_map, Prod.mk.injEq]
  constructor
  · rintro ⟨a, ha, b, hb, c, hc, rfl, rfl, rfl⟩
    exact ⟨hc, hb, ha⟩
  · rintro ⟨h1, h2, h3⟩
    exact ⟨z, h3, y, h2, x, h1, rfl, rfl, rfl⟩

/-- The offset of `setPixel` is the usual one. -/
theorem setPixel_in (im : Img α) {x y z : Nat} (h : x < im.dims.w ∧ y < im.dims.h ∧ z < im.dims.d) (v : α) :
    setPixel im x y z v = ⟨im.dims, Function.update im.buf (rasterIndex im.dims.w im.dims.h x y z) v⟩ := by
  unfold setPixel
  rw [if_pos h]
  have : z * im.dims.w * im.dims.h + y * im.dims.w + x = rasterIndex im.dims.w im.dims.h x y z := by
    unfold rasterIndex; ring
  rw [this]

theorem rasterIndex_inj' {w h x y z x' y' z' : Nat} (hx : x < w) (hy : y < h) (hx' : x' < w) (hy' : y' < h)
    (e : rasterIndex w h x y z = rasterIndex w h x' y' z') : x = x' ∧ y = y' ∧ z = z' := by
  obtain ⟨a, b, c⟩ := rasterIndex_div (z := z) hx hy
  obtain ⟨a', b', c'⟩ := rasterIndex_div (z := z') hx' hy'
  rw [e] at a b c
  exact ⟨a.symm.trans a', b.symm.trans b', c.symm.trans c'⟩

/-- The loops of a transposition with a table that permutes the axes. -/
theorem transposeBy_px (raw : Nat → α) (lut : Nat × Nat × Nat) (im : Img α)
    (hlut : lut ∈ [(1, 0, 2), (0, 2, 1), (1, 2, 0), (2, 0, 1), (2, 1, 0)]) :
    let r := transposeBy raw lut im
    let sz := (im.dims.w, im.dims.h, im.dims.d)
    r.dims = ⟨axisOf sz lut.1, axisOf sz lut.2.1, axisOf sz lut.2.2⟩ ∧
    ∀ p : Nat × Nat × Nat, p.1 < im.dims.w → p.2.1 < im.dims.h → p.2.2 < im.dims.d →
      r.px (axisOf p lut.1) (axisOf p lut.2.1) (axisOf p lut.2.2) = im.px p.1 p.2.1 p.2.2 := by
  intro r sz
  let D' : Dims := ⟨axisOf sz lut.1, axisOf sz lut.2.1, axisOf sz lut.2.2⟩
  let key : Nat × Nat × Nat → Nat := fun p => rasterIndex D'.w D'.h (axisOf p lut.1) (axisOf p lut.2.1) (axisOf p lut.2.2)
  have hin : ∀ p : Nat × Nat × Nat, p ∈ loopPts im.dims → axisOf p lut.1 < D'.w ∧ axisOf p lut.2.1 < D'.h ∧ axisOf p lut.2.2 < D'.d := by
    intro p hp
    obtain ⟨h1, h2, h3⟩ := (mem_loopPts _ _).mp hp
    simp only [List.mem_cons, List.not_mem_nil, or_false] at hlut
    rcases hlut with rfl | rfl | rfl | rfl | rfl <;> simp [D', sz, axisOf, h1, h2, h3]
  have hfold : ∀ (l : List (Nat × Nat × Nat)), (∀ p ∈ l, p ∈ loopPts im.dims) → ∀ b : Nat → α,
      l.foldl (fun o p => setPixel o (axisOf p lut.1) (axisOf p lut.2.1) (axisOf p lut.2.2) (im.px p.1 p.2.1 p.2.2)) ⟨D', b⟩ =
        ⟨D', l.foldl (fun b p => Function.update b (key p) (im.px p.1 p.2.1 p.2.2)) b⟩ := by
    intro l
    induction l with
    | nil => intro _ b; rfl
    | cons p l ih =>
      intro hl b
      rw [List.foldl_cons, List.foldl_cons, setPixel_in _ (hin p (hl p (by simp)))]
      exact ih (fun q hq => hl q (by simp [hq])) _
  have hr : r = ⟨D', (loopPts im.dims).foldl (fun b p => Function.update b (key p) (im.px p.1 p.2.1 p.2.2)) raw⟩ :=
    hfold _ (fun _ h => h) raw
  refine ⟨by rw [hr], fun p h1 h2 h3 => ?_⟩
  rw [hr]
  have hp : p ∈ loopPts im.dims := (mem_loopPts _ _).mpr ⟨h1, h2, h3⟩
  refine foldl_keys key (fun p => im.px p.1 p.2.1 p.2.2) p _ raw hp fun q hq e => ?_
  obtain ⟨a1, a2, a3⟩ := hin p hp
  obtain ⟨b1, b2, b3⟩ := hin q hq
  obtain ⟨e1, e2, e3⟩ := rasterIndex_inj' b1 b2 a1 a2 e
  have : q = p := by
    obtain ⟨x, y, z⟩ := p
    obtain ⟨x', y', z'⟩ := q
    simp only [List.mem_cons, List.not_mem_nil, or_false] at hlut
    rcases hlut with rfl | rfl | rfl | rfl | rfl <;> simp [axisOf] at e1 e2 e3 <;> simp [e1, e2, e3]
  rw [this]

/-- The image `r` is `im` with its pixels moved by `f`, and the size `D`. -/
def IsMoved (f : IntPoint → IntPoint) (D : Dims) (im r : Img α) : Prop := r.dims = D ∧ ∀ p, r.at? (f p) = im.at? p

theorem moved_of_px {f : IntPoint → IntPoint} {D : Dims} {im r : Img α} (hd : r.dims = D)
    (hf : ∀ p, Img.In D (f p) ↔ Img.In im.dims p)
    (hp : ∀ p, Img.In im.dims p → r.px (f p).x.toNat (f p).y.toNat (f p).z.toNat = im.px p.x.toNat p.y.toNat p.z.toNat) :
    IsMoved f D im r := by
  refine ⟨hd, fun p => ?_⟩
  by_cases h : Img.In im.dims p
  · rw [Img.at?_some im p h, Img.at?_some r (f p) (by rw [hd]; exact (hf p).mpr h), hp p h]
  · rw [Img.at?_none im p h, Img.at?_none r (f p) (by rw [hd]; exact fun hc => h ((hf p).mp hc))]

theorem transpose_lut (E : Env α) (im out : Img α) (order : String) (lut : Nat × Nat × Nat) (ha : im.alloc = true) (hb : out.alloc = true)
    (h1 : ¬ (order = "xyz" ∨ order = "xy")) (h2 : transLut (if order = "" then "yxz" else order) = some lut) :
    matTranspose E im out order = .ok (transposeBy E.raw lut im) := by
  unfold matTranspose
  rw [if_neg (by simp [ha, hb]), if_neg h1, h2]

theorem moved_inv {f g : IntPoint → IntPoint} {D D' : Dims} {im r r' : Img α} (h : IsMoved f D im r) (h' : IsMoved g D' r r')
    (hfg : ∀ p, g (f p) = p) (hd : D' = im.dims) : Img.Same r' im := by
  refine ⟨h'.1.trans hd, fun p => ?_⟩
  rw [← h.2 p, ← h'.2 (f p), hfg]

theorem alloc_perm {r : Img α} (h : 0 < r.dims.w ∧ 0 < r.dims.h ∧ 0 < r.dims.d) : r.alloc = true := by
  unfold Img.alloc
  obtain ⟨a, b, c⟩ := h
  have : 0 < r.dims.count := by unfold Dims.count; positivity
  exact decide_eq_true (by omega)

variable {t : PT}

/-- The matrix product modulo the number of values of the type. -/
def IsProduct (a b c : Img (Px t)) : Prop :=
  c.dims = ⟨b.dims.w, a.dims.h, 1⟩ ∧ ∀ x y, x < b.dims.w → y < a.dims.h →
    t.card ∣ (∑ i ∈ Finset.range a.dims.w, (a.px i y 0).val * (b.px x i 0).val) - (c.px x y 0).val

/-- The types for which the promoted product and sum of `matMultiply` cannot overflow as signed integers. -/
def ProdOk (t : PT) : Prop := t = UINT8 ∨ t = INT8 ∨ t = INT16 ∨ t = UINT32

theorem prod_bound {a b M : Int} (hM : 0 ≤ M) (ha : -M ≤ a ∧ a ≤ M) (hb : -M ≤ b ∧ b ≤ M) : -(M * M) ≤ a * b ∧ a * b ≤ M * M := by
  constructor <;> nlinarith

/-- One step of the sum is exact modulo the number of values. -/
theorem matStep_ok (ht : ProdOk t) (acc u v : Px t) :
    ∃ r : Px t, ((t.cpp (u.val * v.val)).bind fun p => (t.cpp (acc.val + p)).map t.wrap) = some r ∧
      t.card ∣ acc.val + u.val * v.val - r.val := by
  have small : ∀ s : PT, (s = UINT8 ∨ s = INT8 ∨ s = INT16) → ∀ acc u v : Px s,
      ∃ r : Px s, ((s.cpp (u.val * v.val)).bind fun p => (s.cpp (acc.val + p)).map s.wrap) = some r ∧
      s.card ∣ acc.val + u.val * v.val - r.val := by
    intro s hs acc u v
    have hb : ∀ w : Px s, -32768 ≤ w.val ∧ w.val ≤ 32768 := by
      intro w
      have h1 := w.lo_le
      have h2 := w.le_hi
      rcases hs with rfl | rfl | rfl <;> simp [PT.lo, PT.hi, UINT8, INT8, INT16] at h1 h2 <;> omega
    have hm := prod_bound (by norm_num) (hb u) (hb v)
    have ha := hb acc
    have hp : s.promoted = INT32 := by rcases hs with rfl | rfl | rfl <;> rfl
    have hc : ∀ v : Int, -2147483648 ≤ v → v ≤ 2147483647 → s.cpp v = some v := by
      intro v h1 h2
      unfold PT.cpp
      rw [hp, if_pos (show INT32.signed = true from rfl), if_pos]
      have e1 : PT.lo INT32 = -2147483648 := by decide
      have e2 : PT.hi INT32 = 2147483647 := by decide
      rw [e1, e2]
      exact ⟨h1, h2⟩
    rw [hc _ (by omega) (by omega)]
    simp only [Option.bind_some]
    rw [hc _ (by omega) (by omega)]
    exact ⟨_, rfl, s.wrap_dvd _⟩
  rcases ht with h | h | h | h
  · exact small t (Or.inl h) acc u v
  · exact small t (Or.inr (Or.inl h)) acc u v
  · exact small t (Or.inr (Or.inr h)) acc u v
  · subst h
    have hc : ∀ v : Int, PT.cpp UINT32 v = some (PT.wrap UINT32 v).val := fun v => rfl
    rw [hc]
    simp only [Option.bind_some]
    rw [hc]
    simp only [Option.map_some, PT.wrap_val]
    refine ⟨_, rfl, ?_⟩
    have h1 := PT.wrap_dvd UINT32 (u.val * v.val)
    have h2 := PT.wrap_dvd UINT32 (acc.val + (PT.wrap UINT32 (u.val * v.val)).val)
    have := Int.dvd_add h1 h2
    have e : u.val * v.val - (PT.wrap UINT32 (u.val * v.val)).val + (acc.val + (PT.wrap UINT32 (u.val * v.val)).val -
      (PT.wrap UINT32 (acc.val + (PT.wrap UINT32 (u.val * v.val)).val)).val) = acc.val + u.val * v.val -
      (PT.wrap UINT32 (acc.val + (PT.wrap UINT32 (u.val * v.val)).val)).val := by ring
    rw [e] at this
    exact this

theorem matDot_ok (ht : ProdOk t) (line col : Nat → Px t) (n : Nat) :
    ∃ r : Px t, matDot line col n = some r ∧ t.card ∣ (∑ i ∈ Finset.range n, (line i).val * (col i).val) - r.val := by
  unfold matDot
  induction n with
  | zero => exact ⟨t.wrap 0, rfl, by simpa using t.wrap_dvd 0⟩
  | succ n ih =>
    obtain ⟨r, hr, hd⟩ := ih
    obtain ⟨r', hr', hd'⟩ := matStep_ok ht r (line n) (col n)
    refine ⟨r', ?_, ?_⟩
    · rw [List.range_succ, List.foldlM_append, hr]
      simp only [bind, Option.bind_some, List.foldlM_cons, List.foldlM_nil]
      rw [hr']; rfl
    · rw [Finset.sum_range_succ]
      have := Int.dvd_add hd hd'
      have e : ∑ i ∈ Finset.range n, (line i).val * (col i).val - r.val + (r.val + (line n).val * (col n).val - r'.val) =
        ∑ i ∈ Finset.range n, (line i).val * (col i).val + (line n).val * (col n).val - r'.val := by ring
      rw [e] at this
      exact this

/-- The loops with a first matrix that is not written. -/
theorem matBuf_ok (ht : ProdOk t) (a cols : Nat → Px t) (w1 h1 w2 : Nat) (o : Nat → Px t) :
    ∃ o', matBuf (fun _ => a) w1 h1 w2 cols o = some o' ∧ ∀ x y, x < w2 → y < h1 →
      t.card ∣ (∑ i ∈ Finset.range w1, (a (y * w1 + i)).val * (cols (x * w1 + i)).val) - (o' (y * w2 + x)).val := by
  let val : Nat × Nat → Px t := fun p => (matDot_ok ht (fun i => a (p.2 * w1 + i)) (fun i => cols (p.1 * w1 + i)) w1).choose
  have hval : ∀ p : Nat × Nat, matDot (fun i => a (p.2 * w1 + i)) (fun i => cols (p.1 * w1 + i)) w1 = some (val p) ∧ _ := fun p =>
    (matDot_ok ht (fun i => a (p.2 * w1 + i)) (fun i => cols (p.1 * w1 + i)) w1).choose_spec
  have hfold : ∀ (l : List (Nat × Nat)) (o : Nat → Px t),
      l.foldlM (fun o (p : Nat × Nat) => (matDot (fun i => a (p.2 * w1 + i)) (fun i => cols (p.1 * w1 + i)) w1).map fun v =>
        Function.update o (p.2 * w2 + p.1) v) o =
      some (l.foldl (fun b p => Function.update b (p.2 * w2 + p.1) (val p)) o) := by
    intro l
    induction l with
    | nil => intro o; rfl
    | cons p l ih =>
      intro o
      rw [List.foldlM_cons, (hval p).1]
      simp only [Option.map_some, bind, Option.bind_some, List.foldl_cons]
      exact ih _
  refine ⟨_, hfold _ o, fun x y hx hy => ?_⟩
  have hmem : (x, y) ∈ (List.range h1).flatMap fun y => (List.range w2).map fun x => (x, y) := by
    simp only [List.mem_flatMap, List.mem_range, List.mem_map, Prod.mk.injEq]
    exact ⟨y, hy, x, hx, rfl, rfl⟩
  have := foldl_keys (fun p : Nat × Nat => p.2 * w2 + p.1) val (x, y) _ o hmem (by
    rintro ⟨x', y'⟩ hj e
    simp only [List.mem_flatMap, List.mem_range, List.mem_map, Prod.mk.injEq] at hj
    obtain ⟨b, hb, c, hc, rfl, rfl⟩ := hj
    dsimp only at e
    have hy' : b = y := by
      have h1 : (c + w2 * b) / w2 = b := by rw [Nat.add_mul_div_left _ _ (by omega), Nat.div_eq_of_lt hc, zero_add]
      have h2 : (x + w2 * y) / w2 = y := by rw [Nat.add_mul_div_left _ _ (by omega), Nat.div_eq_of_lt hx, zero_add]
      have e' : c + w2 * b = x + w2 * y := by rw [mul_comm w2, mul_comm w2]; omega
      rw [← h1, ← h2, e']
    subst hy'
    have : c = x := by omega
    rw [this])
  dsimp only at this
  rw [this]
  exact (hval (x, y)).2

theorem product_unique {a b c c' : Img (Px t)} (h : IsProduct a b c) (h' : IsProduct a b c') : Img.Same c c' := by
  rw [Img.same_iff_px]
  refine ⟨h.1.trans h'.1.symm, fun x y z hx hy hz => ?_⟩
  rw [h.1] at hx hy hz
  have hz : z = 0 := by dsimp only at hz; omega
  subst hz
  have d1 := h.2 x y hx hy
  have d2 := h'.2 x y hx hy
  have := Int.dvd_sub d2 d1
  have e : ∑ i ∈ Finset.range a.dims.w, (a.px i y 0).val * (b.px x i 0).val - (c'.px x y 0).val -
    (∑ i ∈ Finset.range a.dims.w, (a.px i y 0).val * (b.px x i 0).val - (c.px x y 0).val) = (c.px x y 0).val - (c'.px x y 0).val := by ring
  rw [e] at this
  have := t.wrap_congr this
  simpa using this

/-- Products of products agree. -/
theorem product_assoc {a b c ab bc l r : Img (Px t)} (hab : IsProduct a b ab) (hl : IsProduct ab c l) (hbc : IsProduct b c bc)
    (hr : IsProduct a bc r) (h1 : a.dims.w = b.dims.h) : Img.Same l r := by
  rw [Img.same_iff_px]
  have hld : l.dims = r.dims := by rw [hl.1, hr.1, hab.1, hbc.1]
  refine ⟨hld, fun x y z hx hy hz => ?_⟩
  rw [hl.1, hab.1] at hx hy hz
  dsimp only at hx hy hz
  have hz : z = 0 := by omega
  subst hz
  have d1 := hl.2 x y hx (by rw [hab.1]; exact hy)
  have d2 := hr.2 x y (by rw [hbc.1]; exact hx) hy
  rw [hab.1] at d1
  dsimp only at d1
  -- the two double sums
  have s1 : t.card ∣ (∑ j ∈ Finset.range b.dims.w, ∑ i ∈ Finset.range a.dims.w, (a.px i y 0).val * (b.px j i 0).val * (c.px x j 0).val) -
      ∑ j ∈ Finset.range b.dims.w, (ab.px j y 0).val * (c.px x j 0).val := by
    rw [← Finset.sum_sub_distrib]
    refine Finset.dvd_sum fun j hj => ?_
    have := hab.2 j y (Finset.mem_range.mp hj) hy
    have := Dvd.dvd.mul_right this (c.px x j 0).val
    rw [sub_mul, Finset.sum_mul] at this
    exact this
  have s2 : t.card ∣ (∑ i ∈ Finset.range a.dims.w, ∑ j ∈ Finset.range b.dims.w, (a.px i y 0).val * (b.px j i 0).val * (c.px x j 0).val) -
      ∑ i ∈ Finset.range a.dims.w, (a.px i y 0).val * (bc.px x i 0).val := by
    rw [← Finset.sum_sub_distrib]
    refine Finset.dvd_sum fun i hi => ?_
    have := hbc.2 x i hx (by rw [← h1]; exact Finset.mem_range.mp hi)
    have := Dvd.dvd.mul_left this (a.px i y 0).val
    rw [mul_sub, Finset.mul_sum] at this
    simp only [← mul_assoc] at this
    exact this
  rw [Finset.sum_comm] at s2
  have := Int.dvd_sub (Int.dvd_add s2 d2) (Int.dvd_add s1 d1)
  have e : ∀ A B C D E : Int, A - B + (B - D) - (A - C + (C - E)) = E - D := by intros; ring
  rw [e] at this
  have := t.wrap_congr this
  simpa using this

theorem alloc_pos3 {a : Img α} (h : a.alloc = true) : 0 < a.dims.w ∧ 0 < a.dims.h ∧ 0 < a.dims.d := by
  unfold Img.alloc at h
  have := of_decide_eq_true h
  unfold Dims.count at this
  refine ⟨?_, ?_, ?_⟩ <;> (by_contra hc; simp_all)

end Smil
