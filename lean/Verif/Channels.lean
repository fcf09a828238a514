import Verif.PropsLabel

/-!
# Multichannel pixels, line pointers and images

Core/include/private/DMultichannelTypes.hpp, Core/include/DColor.h,
NSTypes/RGB/include/DLineArith_RGB.h, Base/include/private/DImageArith.hpp:1786-1905.
-/

namespace Smil

/-! ### Pixels -/

/-- `MultichannelType<T, N>`: the values returned by `value(i)`, DMultichannelTypes.hpp:50-336. -/
abbrev MCPx (t : PT) (N : Nat) := Fin N → Px t

section
variable {t : PT} {N : Nat}

/-- A loop `for (i < N) if (bad(i)) return false; return true;`. -/
def mcAll (bad : Fin N → Bool) : Bool :=
  go (List.finRange N)
where
  go : List (Fin N) → Bool
    | [] => true
    | i :: l => if bad i then false else go l

/-- `operator ==`, DMultichannelTypes.hpp:90-96. -/
def mcEq (a b : MCPx t N) : Bool := mcAll fun i => decide ((a i).val ≠ (b i).val)
/-- `operator ==(const int &)`, DMultichannelTypes.hpp:97-103: the channels are compared with the
`int` itself. -/
def mcEqI (a : MCPx t N) (v : Int) : Bool := mcAll fun i => decide ((a i).val ≠ v)
/-- `operator !=`, DMultichannelTypes.hpp:104-110. -/
def mcNe (a b : MCPx t N) : Bool := mcAll fun i => decide ((a i).val = (b i).val)
/-- `operator !=(const int &)`, DMultichannelTypes.hpp:111-114: the `int` is converted to the channel
type first. -/
def mcNeI (a : MCPx t N) (v : Int) : Bool := mcNe a fun _ => t.wrap v
/-- `operator <`, DMultichannelTypes.hpp:115-121. -/
def mcLt (a b : MCPx t N) : Bool := mcAll fun i => decide ((a i).val ≥ (b i).val)
/-- `operator <=`, DMultichannelTypes.hpp:122-128. -/
def mcLe (a b : MCPx t N) : Bool := mcAll fun i => decide ((a i).val > (b i).val)
/-- `operator >`, DMultichannelTypes.hpp:129-135. -/
def mcGt (a b : MCPx t N) : Bool := mcAll fun i => decide ((a i).val ≤ (b i).val)
/-- `operator >=`, DMultichannelTypes.hpp:136-142. -/
def mcGe (a b : MCPx t N) : Bool := mcAll fun i => decide ((a i).val < (b i).val)

/-- `supLine` on one pixel of a multichannel type without a specialisation
(`COLOR_UINT8_3`, `COLOR_32`): `l1 > l2 ? l1 : l2`, DLineArith.hpp:175. -/
def mcSup (a b : MCPx t N) : MCPx t N := if mcGt a b then a else b
/-- `infLine` likewise, DLineArith.hpp:185. -/
def mcInf (a b : MCPx t N) : MCPx t N := if mcLt a b then a else b

/-- `supLine<RGB>` on one pixel: the loop over the channels, DLineArith_RGB.h:100-115. -/
def rgbSup (a b : MCPx t N) : MCPx t N := fun n => if (a n).val > (b n).val then a n else b n
/-- `infLine<RGB>`, DLineArith_RGB.h:118-133. -/
def rgbInf (a b : MCPx t N) : MCPx t N := fun n => if (a n).val < (b n).val then a n else b n
/-- `equLine<RGB>`, DLineArith_RGB.h:136-158. -/
def rgbEqu (tv fv : Px t) (a b : MCPx t N) : MCPx t N :=
  fun n => if (a n).val = (b n).val then tv else fv
/-- `diffLine` on one pixel, not specialised for RGB (DLineArith.hpp: `l1 != l2 ? trueVal : falseVal`),
with `MultichannelType(trueVal)` putting the value in every channel. -/
def mcDiff (tv fv : Px t) (a b : MCPx t N) : MCPx t N := fun _ => if mcNe a b then tv else fv

theorem mcAll_go (bad : Fin N → Bool) (l : List (Fin N)) :
    mcAll.go bad l = true ↔ ∀ i ∈ l, bad i = false := by
  induction l with
  | nil => simp [mcAll.go]
  | cons a l ih =>
    simp only [mcAll.go]
    split
    · simp_all
    · simp_all

theorem mcAll_iff (bad : Fin N → Bool) : mcAll bad = true ↔ ∀ i, bad i = false := by
  unfold mcAll
  rw [mcAll_go]
  simp

/-! ### Line pointers -/

/-- `MultichannelArray<T, N>`: `arrays[c]` is the address `base c`, `index` the position moved by
`++`; DMultichannelTypes.hpp:383-548. The members `size` and `allocatedData` are not kept. -/
structure MCPtr (N : Nat) where
  base : Fin N → Nat
  index : Nat

namespace MCPtr

/-- `operator [](i)` and `operator *`: the address read in each channel, lines 461-473. -/
def addr (p : MCPtr N) (i : Nat) (c : Fin N) : Nat := p.base c + (p.index + i)
/-- Copy constructor and `operator =`, lines 400-405 and 522-530. -/
def copy (p : MCPtr N) : MCPtr N := ⟨fun c => p.base c + p.index, 0⟩
/-- `MultichannelArray(rhs, newindex)`, lines 406-411. -/
def ofIndex (p : MCPtr N) (newindex : Nat) : MCPtr N := ⟨fun c => p.base c + p.index + newindex, 0⟩
/-- `operator +`, lines 492-510. -/
def plus (p : MCPtr N) (dp : Nat) : MCPtr N := ofIndex p (p.index + dp)
/-- `operator ++`, lines 512-516. -/
def incr (p : MCPtr N) : MCPtr N := ⟨p.base, p.index + 1⟩

end MCPtr

/-- A pixel of a line as an l-value, `MultichannelArrayItem`, lines 349-373: the inherited array `c`
and the addressed channels. `MultichannelArrayItem(mcArray, index)` default-constructs the base, so
`c` is 0 in every channel. -/
structure MCItem (t : PT) (N : Nat) where
  c : MCPx t N
  cell : MCPx t N

/-- `mcArray[i]` on a memory `mem` of channel cells, lines 354-358. -/
def MCItem.make (mem : Fin N → Nat → Px t) (p : MCPtr N) (i : Nat) : MCItem t N :=
  ⟨fun _ => Px.zero, fun ch => mem ch (p.addr i ch)⟩

/-- `operator double`, lines 296-302: the sum of the array `c` (before the division by `N`). -/
def MCItem.sum (x : MCItem t N) : Int := ((List.finRange N).map fun i => (x.c i).val).sum

/-- The same conversion on a plain pixel. -/
def mcSum (a : MCPx t N) : Int := ((List.finRange N).map fun i => (a i).val).sum

/-- `MultichannelArrayItem::operator =`, lines 359-364: writes through the addresses. -/
def mcStore (mem : Fin N → Nat → Px t) (p : MCPtr N) (i : Nat) (v : MCPx t N) :
    Fin N → Nat → Px t :=
  fun ch => Function.update (mem ch) (p.addr i ch) (v ch)

end

/-! ### Images -/

/-- A multichannel image: one buffer for each channel. -/
structure MCImg (N : Nat) (α : Type) where
  dims : Dims
  chan : Fin N → Nat → α

section
variable {t1 t2 : PT} {N : Nat}

/-- `copyLine<T1, T2>` between different types: `lOut[i] = static_cast<T2>(lIn[i])`,
DLineArith.hpp:50-57. -/
def convLine (n : Nat) (lIn : Nat → Px t1) (lOut : Nat → Px t2) : Nat → Px t2 :=
  copyLine n (fun i => t2.wrap (lIn i).val) lOut

/-- `copyChannel`, DImageArith.hpp:1786-1800. `raw`: the cells of an output that is reallocated. -/
def copyChannel (auto : Bool) (raw : Nat → Px t2) (im : MCImg N (Px t1)) (c : Nat)
    (out : Img (Px t2)) : Except Int (Img (Px t2)) :=
  if h : c < N then
    match checkDims auto im.dims out.dims with
    | .error e => .error e
    | .ok _ =>
      let o := if out.dims = im.dims then out.buf else raw
      .ok ⟨im.dims, convLine im.dims.count (im.chan ⟨c, h⟩) o⟩
  else .error (-100)

/-- `copyToChannel`, DImageArith.hpp:1819-1833. -/
def copyToChannel (auto : Bool) (raw : Fin N → Nat → Px t2) (im : Img (Px t1)) (c : Nat)
    (out : MCImg N (Px t2)) : Except Int (MCImg N (Px t2)) :=
  if h : c < N then
    match checkDims auto im.dims out.dims with
    | .error e => .error e
    | .ok _ =>
      let o := if out.dims = im.dims then out.chan else raw
      .ok ⟨im.dims, Function.update o ⟨c, h⟩ (convLine im.dims.count im.buf (o ⟨c, h⟩))⟩
  else .error (-100)

/-- The sub-buffer starting at `k` is rewritten: `copyLine(..., lineOut + k)`. -/
def writeAt (k n : Nat) (lIn : Nat → Px t1) (o : Nat → Px t2) : Nat → Px t2 :=
  onTail k (convLine n lIn) o

/-- `splitChannels`, DImageArith.hpp:1851-1871. `raw` is the content of the output after
`setSize(width, height, N)`, which cannot fail for a non-empty size in the model. The depth of the
input is not used. -/
def splitChannels (raw : Nat → Px t2) (im : MCImg N (Px t1)) : Except Int (Img (Px t2)) :=
  if im.dims.count = 0 then .error (-99)
  else
    let pc := im.dims.w * im.dims.h
    .ok ⟨⟨im.dims.w, im.dims.h, N⟩,
      (List.finRange N).foldl (fun o i => writeAt (i.val * pc) pc (im.chan i) o) raw⟩

/-- `mergeChannels`, DImageArith.hpp:1884-1905: `setSize(width, height)` gives depth 1. -/
def mergeChannels (raw : Fin N → Nat → Px t2) (im : Img (Px t1)) : Except Int (MCImg N (Px t2)) :=
  if im.dims.count = 0 then .error (-99)
  else if im.dims.d ≠ N then .error (-100)
  else
    let pc := im.dims.w * im.dims.h
    .ok ⟨⟨im.dims.w, im.dims.h, 1⟩,
      (List.finRange N).foldl (fun o i =>
        Function.update o i (convLine pc (fun j => im.buf (j + i.val * pc)) (o i))) raw⟩

/-! ### Lemmas -/

theorem convLine_apply (n : Nat) (lIn : Nat → Px t1) (lOut : Nat → Px t2) (i : Nat) :
    convLine n lIn lOut i = if i < n then t2.wrap (lIn i).val else lOut i := copyLine_apply _ _ _ _

theorem writeAt_apply (k n : Nat) (lIn : Nat → Px t1) (o : Nat → Px t2) (j : Nat) :
    writeAt k n lIn o j = if k ≤ j ∧ j < k + n then t2.wrap (lIn (j - k)).val else o j := by
  unfold writeAt onTail
  by_cases h : j < k
  · rw [if_pos h, if_neg (by omega)]
  · rw [if_neg h, convLine_apply]
    by_cases h2 : j - k < n
    · rw [if_pos h2, if_pos (by omega)]
    · rw [if_neg h2, if_neg (by omega), show j - k + k = j by omega]

theorem split_fold (pc : Nat) (ch : Fin N → Nat → Px t1) (l : List (Fin N)) (raw : Nat → Px t2)
    (i : Fin N) (hi : i ∈ l) (j : Nat) (hj : j < pc) :
    l.foldl (fun o i => writeAt (i.val * pc) pc (ch i) o) raw (i.val * pc + j) =
      t2.wrap (ch i j).val := by
  induction l using List.reverseRecOn with
  | nil => simp at hi
  | append_singleton l a ih =>
    rw [List.foldl_append, List.foldl_cons, List.foldl_nil, writeAt_apply]
    by_cases ha : a = i
    · subst ha
      rw [if_pos ⟨by omega, by omega⟩, show a.val * pc + j - a.val * pc = j by omega]
    · have hv : a.val ≠ i.val := fun h => ha (Fin.ext h)
      rw [if_neg]
      · exact ih (by simpa [Ne.symm ha] using hi)
      · rintro ⟨h1, h2⟩
        rcases Nat.lt_or_gt_of_ne hv with h | h
        · have := Nat.mul_le_mul_right pc (show a.val + 1 ≤ i.val from h)
          rw [Nat.add_mul] at this; omega
        · have := Nat.mul_le_mul_right pc (show i.val + 1 ≤ a.val from h)
          rw [Nat.add_mul] at this; omega

theorem merge_fold (f : Fin N → (Nat → Px t2) → Nat → Px t2) (l : List (Fin N)) (hl : l.Nodup)
    (raw : Fin N → Nat → Px t2) (i : Fin N) :
    l.foldl (fun o i => Function.update o i (f i (o i))) raw i =
      if i ∈ l then f i (raw i) else raw i := by
  induction l using List.reverseRecOn with
  | nil => simp
  | append_singleton l a ih =>
    have hl' := List.nodup_append.mp hl
    rw [List.foldl_append, List.foldl_cons, List.foldl_nil]
    by_cases ha : i = a
    · subst ha
      have : i ∉ l := fun h => hl'.2.2 i h i (by simp) rfl
      rw [Function.update_self, ih hl'.1, if_neg this, if_pos (by simp)]
    · rw [Function.update_of_ne ha, ih hl'.1]
      simp [ha]

end

end Smil
