import Verif.PixelOpen
import Verif.PropsPixelHeap
import Verif.ArithLemmas
import Verif.PropsGreyUF

/-!
# C118: the area opening by pixel queue
-/

namespace Smil

/-- The inverse of a grey level: the levels of the type in the reverse order. -/
def GreyInv {t : PT} (a b : Px t) : Prop := a.val + b.val = t.hi + t.lo

theorem GreyInv.eq {t : PT} {a b c : Px t} (h : GreyInv a b) (h' : GreyInv b c) : a = c := by
  unfold GreyInv at h h'
  exact Px.ext (by omega)

theorem mapK_compl {t : PT} (hs : t.signed = false ∨ t.bits ≤ 16) (im : Img (Px t)) :
    ∃ r, Img.mapK kInv im = some r ∧ r.dims = im.dims ∧ ∀ i, GreyInv (im.buf i) (r.buf i) := by
  unfold Img.mapK
  rw [if_pos (fun i _ => by rw [kInv_eq hs]; rfl)]
  refine ⟨_, rfl, rfl, fun i => ?_⟩
  show (im.buf i).val + ((kInv (im.buf i)).getD default).val = _
  rw [kInv_eq hs, Option.getD_some]
  show (im.buf i).val + (t.hi + t.lo - (im.buf i).val) = _
  omega

/-- **C118.** The opening is the dual of the closing: it is undefined when the closing of the inverted image is, returns when that closing returns, and each of its pixels is the inverse of the pixel of that
closing. It holds in place too, when `out` is `im`. -/
theorem C118_dual {t : PT} (hs : t.signed = false ∨ t.bits ≤ 16) (auto : Bool) (im neg : Img (Px t)) (lam : Nat) (out : Img (Px t)) (h : PQArgs auto im.dims out.dims)
    (hd : neg.dims = im.dims) (hn : ∀ i, GreyInv (im.buf i) (neg.buf i)) :
    (areaClosingPQ auto false neg lam neg = none → areaOpeningPQ auto im lam out = none) ∧
    ∀ c, areaClosingPQ auto false neg lam neg = some (.ok c) → ∃ r, areaOpeningPQ auto im lam out = some (.ok r) ∧ r.dims = im.dims ∧ ∀ i, GreyInv (c.buf i) (r.buf i) := by
  obtain ⟨n', e, e1, e2⟩ := mapK_compl hs im
  have hnn : n' = neg := by
    obtain ⟨nd, nb⟩ := neg
    obtain ⟨nd', nb'⟩ := n'
    have hb : nb' = nb := funext fun i => by
      have h1 : (im.buf i).val + (nb' i).val = t.hi + t.lo := e2 i
      have h2 : (im.buf i).val + (nb i).val = t.hi + t.lo := hn i
      exact Px.ext (by omega)
    have hdd : nd' = nd := e1.trans hd.symm
    rw [hb, hdd]
  subst hnn
  have hcl : ∀ b : Img (Px t), b.dims = im.dims → areaClosingPQ auto false n' lam b = areaClosingPQ auto false n' lam n' := by
    intro b hb
    unfold areaClosingPQ
    rw [hb, e1]
  unfold areaOpeningPQ
  rw [pq_checkOne h]
  simp only
  rw [e, Option.bind_some, hcl ⟨im.dims, out.buf⟩ rfl]
  refine ⟨fun h0 => by rw [h0]; rfl, fun c hc => ?_⟩
  rw [hc, Option.bind_some]
  simp only
  obtain ⟨r, k, k1, k2⟩ := mapK_compl hs c
  refine ⟨r, by rw [k]; rfl, ?_, k2⟩
  rw [k1, (C113_values_partial auto n' lam n' c ⟨by rw [e1]; exact h.alloc, .inl rfl⟩ hc).1, e1]

/-- **C118, part.** When the area opening returns, in place or not, each pixel of the first slice has the value of some pixel of the first slice of the input, and the other slices are copied.
What is missing: that the result is the area opening, which is false (`C118_increase_bug`). -/
theorem C118_values_partial {t : PT} (hs : t.signed = false ∨ t.bits ≤ 16) (auto : Bool) (im : Img (Px t)) (lam : Nat) (out r : Img (Px t)) (h : PQArgs auto im.dims out.dims)
    (e : areaOpeningPQ auto im lam out = some (.ok r)) :
    r.dims = im.dims ∧ (∀ i < im.dims.w * im.dims.h, ∃ j < im.dims.w * im.dims.h, r.buf i = im.buf j) ∧ ∀ i, im.dims.w * im.dims.h ≤ i → r.buf i = im.buf i := by
  obtain ⟨neg, e0, e1, e2⟩ := mapK_compl hs im
  obtain ⟨k1, k2⟩ := C118_dual hs auto im neg lam out h e1 e2
  have ha : PQArgs auto neg.dims neg.dims := ⟨by rw [e1]; exact h.alloc, .inl rfl⟩
  cases hc : areaClosingPQ auto false neg lam neg with
  | none => rw [k1 hc] at e; cases e
  | some x =>
    cases x with
    | error c =>
      unfold areaClosingPQ at hc
      rw [pq_checkOne ha] at hc
      simp at hc
    | ok c =>
      obtain ⟨r', h1, h2, h3⟩ := k2 c hc
      rw [h1] at e
      obtain rfl : r' = r := by injection e with e; injection e
      obtain ⟨-, m2, m3⟩ := C113_values_partial auto neg lam neg c ha hc
      rw [e1] at m2 m3
      have hback : ∀ i j, c.buf i = neg.buf j → r'.buf i = im.buf j := fun i j hij => by
        have a1 := h3 i
        rw [hij] at a1
        exact ((e2 j).eq a1).symm
      refine ⟨h2, fun i hi => ?_, fun i hi => hback i i (m3 i hi)⟩
      obtain ⟨j, hj, hij⟩ := m2 i hi
      exact ⟨j, hj, hback i j hij⟩

/-- The pixels of the result of the opening in place. -/
def poRes (im : Img (Px UINT8)) (lam : Nat) : Option (List Int) :=
  match areaOpeningPQ false im lam im with
  | some (.ok r) => some ((List.range r.dims.count).map fun i => (r.buf i).val)
  | _ => none

set_option maxRecDepth 100000 in
/-- In place, an opening of size 3 on a row, which meets the hypotheses of the two theorems. -/
example : poRes (im8 ⟨4, 1, 1⟩ [2, 5, 4, 0]) 3 = some [2, 2, 2, 0] := by decide +kernel

set_option maxRecDepth 100000 in
/-- **C118 fails.** An opening never makes a pixel greater; here the pixel of value 1 becomes 2. -/
theorem C118_increase_bug : poRes (im8 ⟨2, 2, 1⟩ [0, 1, 2, 2]) 2 = some [0, 2, 2, 2] := by decide +kernel

set_option maxRecDepth 100000 in
/-- **C118 fails.** The opening is undefined on images of fewer pixels than the size, and when the queue overflows. -/
theorem C118_undefined_bug : (areaOpeningPQ false (im8 ⟨3, 1, 1⟩ [5, 5, 5]) 4 (im8 ⟨3, 1, 1⟩ [0, 0, 0])).isNone ∧
    (areaOpeningPQ false (im8 ⟨3, 2, 1⟩ [1, 0, 0, 1, 0, 0]) 3 (im8 ⟨3, 2, 1⟩ [0, 0, 0, 0, 0, 0])).isNone := by decide +kernel

set_option maxRecDepth 100000 in
/-- **C118 fails on volumes.** The second slice keeps a maximum of one pixel. -/
theorem C118_volume_bug : poRes (im8 ⟨3, 1, 2⟩ [2, 5, 0, 2, 5, 0]) 2 = some [2, 2, 0, 2, 5, 0] := by decide +kernel

/-- **C118 fails for `INT32`.** The opening is undefined as soon as a pixel is not negative: the inversion overflows. -/
theorem C118_int32_bug (auto : Bool) (im out : Img (Px INT32)) (lam : Nat) (h : PQArgs auto im.dims out.dims) (i : Nat) (hi : i < im.dims.count) (hp : 0 ≤ (im.buf i).val) :
    areaOpeningPQ auto im lam out = none := by
  unfold areaOpeningPQ
  rw [pq_checkOne h]
  have : Img.mapK kInv im = none := by
    unfold Img.mapK
    rw [if_neg]
    intro hall
    have h0 := hall i hi
    rw [kInv_int32 hp] at h0
    exact absurd h0 (by simp)
  simp only
  rw [this]
  rfl

/-- An image which meets the hypotheses of `C118_int32_bug`. -/
example : PQArgs false (⟨⟨2, 1, 1⟩, fun _ => INT32.wrap 3⟩ : Img (Px INT32)).dims ⟨2, 1, 1⟩ ∧ 0 ≤ (INT32.wrap 3).val := ⟨⟨by decide, .inl rfl⟩, by decide⟩

/-- The errors: an image without pixels, an output of another size. -/
theorem C118_errors {t : PT} (auto : Bool) (im : Img (Px t)) (lam : Nat) (out : Img (Px t)) :
    (im.dims.count = 0 → areaOpeningPQ auto im lam out = some (.error errBadAllocation)) ∧
    (im.dims.count ≠ 0 → out.dims ≠ im.dims → areaOpeningPQ false im lam out = some (.error errBadSize)) := by
  unfold areaOpeningPQ checkOne
  refine ⟨fun h => by rw [if_pos h], fun h1 h2 => ?_⟩
  rw [if_neg h1, if_neg h2]
  simp

end Smil
