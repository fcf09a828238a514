import Verif.PropsCoords
import Mathlib.Logic.Function.Basic
import Mathlib.Data.List.Basic

/-!
# Images as pixel buffers and the line loops

An image is its dimensions and its contiguous pixel buffer (`pixels`, DImage.h; the line and slice
tables point into it, DImage.hxx:285-345). Cells beyond `pixelCount` have no meaning: everything
observable goes through `Img.at?`, which is `none` outside the image.
-/

namespace Smil

/-- An image: dimensions and pixel buffer. -/
structure Img (α : Type) where
  dims : Dims
  buf : Nat → α

namespace Img
variable {α : Type}

/-- Is the point inside the image? -/
def In (D : Dims) (p : IntPoint) : Prop :=
  0 ≤ p.x ∧ p.x < D.w ∧ 0 ≤ p.y ∧ p.y < D.h ∧ 0 ≤ p.z ∧ p.z < D.d

instance (D : Dims) (p : IntPoint) : Decidable (In D p) := by unfold In; infer_instance

/-- The pixel at natural coordinates, `slices[z][y][x]`. -/
def px (im : Img α) (x y z : Nat) : α := im.buf (rasterIndex im.dims.w im.dims.h x y z)

/-- What a user sees of the image: the value of a pixel, or nothing outside. -/
def at? (im : Img α) (p : IntPoint) : Option α :=
  if In im.dims p then some (im.px p.x.toNat p.y.toNat p.z.toNat) else none

/-- The image with the given pixels. -/
def ofFn (D : Dims) (g : Nat → Nat → Nat → α) : Img α :=
  ⟨D, fun k => g (k % D.w) ((k % (D.w * D.h)) / D.w) (k / (D.w * D.h))⟩

theorem ofFn_px (D : Dims) (g : Nat → Nat → Nat → α) (x y z : Nat) (hx : x < D.w)
    (hy : y < D.h) : (ofFn D g).px x y z = g x y z := by
  unfold px ofFn
  obtain ⟨h1, h2, h3⟩ := rasterIndex_div (z := z) hx hy
  simp only [h1, h2, h3]

theorem ofFn_at? (D : Dims) (g : Nat → Nat → Nat → α) (p : IntPoint) (hp : In D p) :
    (ofFn D g).at? p = some (g p.x.toNat p.y.toNat p.z.toNat) := by
  unfold at?
  have hp' : In (ofFn D g).dims p := hp
  rw [if_pos hp', ofFn_px]
  · unfold In at hp; omega
  · unfold In at hp; omega

theorem at?_none (im : Img α) (p : IntPoint) (hp : ¬ In im.dims p) : im.at? p = none := by
  unfold at?; rw [if_neg hp]

theorem at?_some (im : Img α) (p : IntPoint) (hp : In im.dims p) :
    im.at? p = some (im.px p.x.toNat p.y.toNat p.z.toNat) := by
  unfold at?; rw [if_pos hp]

theorem at?_isSome (im : Img α) (p : IntPoint) : (im.at? p).isSome ↔ In im.dims p := by
  unfold at?; split <;> simp_all

theorem at?_eq_some_in (im : Img α) (p : IntPoint) (v : α) (h : im.at? p = some v) :
    In im.dims p := by
  rw [← at?_isSome, h]; rfl

/-- Two images are the same for a user: same dimensions, same pixels. -/
def Same (a b : Img α) : Prop := a.dims = b.dims ∧ ∀ p, a.at? p = b.at? p

theorem Same.refl (a : Img α) : Same a a := ⟨rfl, fun _ => rfl⟩
theorem Same.symm {a b : Img α} (h : Same a b) : Same b a := ⟨h.1.symm, fun p => (h.2 p).symm⟩
theorem Same.trans {a b c : Img α} (h : Same a b) (h' : Same b c) : Same a c :=
  ⟨h.1.trans h'.1, fun p => (h.2 p).trans (h'.2 p)⟩

/-- The in-image point with natural coordinates. -/
def pt (x y z : Nat) : IntPoint := ⟨x, y, z⟩

theorem in_pt (D : Dims) (x y z : Nat) : In D (pt x y z) ↔ x < D.w ∧ y < D.h ∧ z < D.d := by
  unfold In pt; simp

theorem same_iff_px (a b : Img α) : Same a b ↔ a.dims = b.dims ∧
    ∀ x y z, x < a.dims.w → y < a.dims.h → z < a.dims.d → a.px x y z = b.px x y z := by
  constructor
  · rintro ⟨h1, h2⟩
    refine ⟨h1, fun x y z hx hy hz => ?_⟩
    have hin : In a.dims (pt x y z) := (in_pt _ _ _ _).mpr ⟨hx, hy, hz⟩
    have := h2 (pt x y z)
    rw [at?_some a _ hin, at?_some b _ (h1 ▸ hin)] at this
    simpa [pt] using this
  · rintro ⟨h1, h2⟩
    refine ⟨h1, fun p => ?_⟩
    by_cases hp : In a.dims p
    · rw [at?_some a _ hp, at?_some b _ (h1 ▸ hp), h2]
      all_goals (unfold In at hp; omega)
    · rw [at?_none a _ hp, at?_none b _ (h1 ▸ hp)]

/-- The rows of an image, for display in examples. -/
def toRows (im : Img α) : List (List (List α)) :=
  (List.range im.dims.d).map fun z => (List.range im.dims.h).map fun y =>
    (List.range im.dims.w).map fun x => im.px x y z

/-- An image given by its rows, for examples. -/
def ofRows (dflt : α) (D : Dims) (r : List (List (List α))) : Img α :=
  ofFn D fun x y z => (((r[z]?).bind fun s => (s[y]?).bind fun l => l[x]?).getD dflt)

end Img

/-! ### Line loops -/

/-- A line buffer. -/
abbrev Line (α : Type) := Nat → α

section
variable {α : Type}

/-- `copyLine`, Base/include/private/DLineArith.hpp:58-65. -/
def copyLine (n : Nat) (lIn lOut : Line α) : Line α :=
  (List.range n).foldl (fun o i => Function.update o i (lIn i)) lOut

/-- `fillLine::fill(lInOut, size, value)`, DLineArith.hpp:90-94. -/
def fillLine (n : Nat) (v : α) (lOut : Line α) : Line α :=
  (List.range n).foldl (fun o i => Function.update o i v) lOut

/-- Running a line loop on the sub-line that starts at pointer `p + k`. -/
def onTail (k : Nat) (F : Line α → Line α) (l : Line α) : Line α := fun i =>
  if i < k then l i else F (fun j => l (j + k)) (i - k)

/-- `shiftLine`, DLineArith.hpp:97-114, on a line of `w` pixels. `none`: the shift is longer
than the line, the unsigned remaining length wraps and the loops write outside the buffers. -/
def shiftLine (lIn : Line α) (dx : Int) (w : Nat) (lOut : Line α) (b : α) : Option (Line α) :=
  if dx = 0 then some (copyLine w lIn lOut)
  else if 0 < dx then
    if w < dx.toNat then none
    else some (onTail dx.toNat (copyLine (w - dx.toNat) lIn) (fillLine dx.toNat b lOut))
  else
    let k := (-dx).toNat
    if w < k then none
    else some (onTail (w - k) (fillLine k b) (copyLine (w - k) (fun j => lIn (j + k)) lOut))

/-- A binary line function `for (i < size) lOut[i] = f(lIn1[i], lIn2[i])` whose output is a third
buffer (supLine, infLine: DLineArith.hpp:169-187). -/
def zipLine (f : α → α → α) (n : Nat) (l1 l2 lOut : Line α) : Line α :=
  (List.range n).foldl (fun o i => Function.update o i (f (l1 i) (l2 i))) lOut

/-- The same loop when the output is the first operand: each iteration reads the current
contents. -/
def zipLineInto (f : α → α → α) (n : Nat) (l1 l2 : Line α) : Line α :=
  (List.range n).foldl (fun o i => Function.update o i (f (o i) (l2 i))) l1

theorem foldl_update_apply (g : Nat → α) (n : Nat) (o : Line α) (i : Nat) :
    (List.range n).foldl (fun o i => Function.update o i (g i)) o i =
      if i < n then g i else o i := by
  induction n with
  | zero => simp
  | succ n ih =>
    rw [List.range_succ, List.foldl_append]
    simp only [List.foldl_cons, List.foldl_nil, Function.update_apply]
    rw [ih]
    split_ifs <;> first | rfl | omega | (subst_vars; rfl)

theorem copyLine_apply (n : Nat) (lIn lOut : Line α) (i : Nat) :
    copyLine n lIn lOut i = if i < n then lIn i else lOut i := foldl_update_apply _ _ _ _

theorem fillLine_apply (n : Nat) (v : α) (lOut : Line α) (i : Nat) :
    fillLine n v lOut i = if i < n then v else lOut i := foldl_update_apply (fun _ => v) _ _ _

theorem zipLine_apply (f : α → α → α) (n : Nat) (l1 l2 lOut : Line α) (i : Nat) :
    zipLine f n l1 l2 lOut i = if i < n then f (l1 i) (l2 i) else lOut i :=
  foldl_update_apply (fun i => f (l1 i) (l2 i)) _ _ _

theorem zipLineInto_apply (f : α → α → α) (n : Nat) (l1 l2 : Line α) (i : Nat) :
    zipLineInto f n l1 l2 i = if i < n then f (l1 i) (l2 i) else l1 i := by
  unfold zipLineInto
  induction n with
  | zero => simp
  | succ n ih =>
    rw [List.range_succ, List.foldl_append]
    simp only [List.foldl_cons, List.foldl_nil, Function.update_apply]
    have hn : (List.range n).foldl (fun o i => Function.update o i (f (o i) (l2 i))) l1 n = l1 n := by
      clear ih
      have : ∀ m, m ≤ n → (List.range m).foldl
          (fun o i => Function.update o i (f (o i) (l2 i))) l1 n = l1 n := by
        intro m
        induction m with
        | zero => simp
        | succ m ih =>
          intro hm
          rw [List.range_succ, List.foldl_append]
          simp only [List.foldl_cons, List.foldl_nil, Function.update_apply]
          rw [if_neg (by omega), ih (by omega)]
      exact this n le_rfl
    rw [hn, ih]
    split_ifs <;> first | rfl | omega | (subst_vars; rfl)

/-- What a shift gives on the pixels of the line. -/
theorem shiftLine_apply (lIn : Line α) (dx : Int) (w : Nat) (lOut : Line α) (b : α)
    (h1 : -(w : Int) ≤ dx) (h2 : dx ≤ w) :
    ∃ o, shiftLine lIn dx w lOut b = some o ∧ ∀ i : Nat, i < w →
      o i = if 0 ≤ (i : Int) - dx ∧ (i : Int) - dx < w then lIn ((i : Int) - dx).toNat else b := by
  unfold shiftLine
  by_cases h0 : dx = 0
  · refine ⟨copyLine w lIn lOut, by rw [if_pos h0], fun i hi => ?_⟩
    rw [copyLine_apply, if_pos hi, if_pos (by omega)]
    congr 1; omega
  · by_cases hp : 0 < dx
    · refine ⟨_, by rw [if_neg h0, if_pos hp, if_neg (by omega)], fun i hi => ?_⟩
      unfold onTail
      rw [copyLine_apply, fillLine_apply]
      by_cases hi2 : i < dx.toNat
      · rw [if_pos hi2, if_pos hi2, if_neg (by omega)]
      · rw [if_neg hi2, if_pos (by omega), if_pos (by omega)]
        congr 1; omega
    · refine ⟨_, by rw [if_neg h0, if_neg hp, if_neg (by omega)], fun i hi => ?_⟩
      unfold onTail
      rw [fillLine_apply, copyLine_apply]
      by_cases hi2 : i < w - (-dx).toNat
      · rw [if_pos hi2, if_pos hi2, if_pos (by omega)]
        congr 1; omega
      · rw [if_neg hi2, if_pos (by omega), if_neg (by omega)]

theorem shiftLine_none (lIn : Line α) (dx : Int) (w : Nat) (lOut : Line α) (b : α) :
    shiftLine lIn dx w lOut b = none ↔ dx < -(w : Int) ∨ (w : Int) < dx := by
  unfold shiftLine
  by_cases h0 : dx = 0
  · simp only [h0, if_true, reduceCtorEq, false_iff]; omega
  · by_cases hp : 0 < dx
    · rw [if_neg h0, if_pos hp]
      by_cases hw : w < dx.toNat
      · simp only [if_pos hw, true_iff]; omega
      · simp only [if_neg hw, reduceCtorEq, false_iff]; omega
    · simp only [if_neg h0, if_neg hp]
      by_cases hw : w < (-dx).toNat
      · simp only [if_pos hw, true_iff]; omega
      · simp only [if_neg hw, reduceCtorEq, false_iff]; omega

end
end Smil
