import Verif.Flood
import Verif.Residues
import Verif.Label

/-!
# Area opening by union-find

Advanced/include/private/AreaOpening/DAreaOpenUnionFind.hpp and DAreaOpen.hpp.
-/

namespace Smil
section
variable {t : PT}

/-- The keys of `histoMap` in decreasing order, DAreaOpenUnionFind.hpp:135-157, 299 (`rbegin`). -/
def histLevels (n : Nat) (key : Nat → Px t) : List (Px t) :=
  ((List.range n).map key).dedup.insertionSort (· ≥ ·)

/-- The order of the Tarjan loop: levels from the highest, each in raster order,
DAreaOpenUnionFind.hpp:299-301. The insertions of `mkHistogram` (lines 144-153) are taken in raster
order: its `omp for` is not inside a parallel region. -/
def histOrder (n : Nat) (key : Nat → Px t) : List Nat :=
  (histLevels n key).flatMap fun v => (List.range n).filter fun i => key i = v

/-- The neighbours, DAreaOpenUnionFind.hpp:252-269, 305-316, 295: no correction of the odd lines. The
coordinates of line 252-262 are those of `coordPt` for offsets of the image. -/
def ufOffs (D : Dims) (se : StrElt) (cur : Nat) : List Nat :=
  se.noCenter.points.filterMap fun b =>
    let c := coordPt D cur
    if Img.In D ⟨c.x + b.x, c.y + b.y, c.z + b.z⟩ then
      some ((cur : Int) +
        (if D.d > 1 then b.x + b.y * D.w + b.z * (D.h * D.w) else b.x + b.y * D.w : Int)).toNat
    else none

/-- `FindRoot` with path compression, DAreaOpenUnionFind.hpp:167-174. `none`: fuel exhausted, the
recursion does not end. `parent` holds exact integers (the code: `off_t`). -/
def ufFind : Nat → (Nat → Int) → Nat → Option (Nat × (Nat → Int))
  | 0, _, _ => none
  | fuel + 1, par, x =>
    if par x ≥ 0 ∧ par x ≠ x then
      (ufFind fuel par (par x).toNat).map fun r => (r.1, Function.update r.2 x (r.1 : Int))
    else some (x, par)

section
variable {α : Type} [LinearOrder α]

/-- `Union` and `Criterion`, DAreaOpenUnionFind.hpp:176-193. -/
def ufUnion (f : Nat → α) (lam : Int) (fuel : Nat) (par : Nat → Int) (n p : Nat) : Option (Nat → Int) :=
  (ufFind fuel par n).map fun r =>
    if r.1 ≠ p then
      if f r.1 = f p ∨ -(r.2 r.1) < lam then
        Function.update (Function.update r.2 p (r.2 p + r.2 r.1)) r.1 (p : Int)
      else Function.update r.2 p (-lam)
    else r.2

/-- One pixel of the Tarjan loop, DAreaOpenUnionFind.hpp:302-321. -/
def ufPixel (f : Nat → α) (adj : Nat → List Nat) (lam : Int) (fuel : Nat) (par : Nat → Int) (pix : Nat) :
    Option (Nat → Int) :=
  (adj pix).foldlM (fun par n =>
      if f pix < f n ∨ (f pix = f n ∧ n < pix) then ufUnion f lam fuel par n pix else some par)
    (Function.update par pix (-1))

end

/-- One pixel of the output loop, DAreaOpenUnionFind.hpp:328-335, on `parent` and the output. -/
def ufOutPixel (f : Nat → Px t) (s : (Nat → Int) × (Nat → Px t)) (pix : Nat) :
    (Nat → Int) × (Nat → Px t) :=
  let v : Int := if s.1 pix ≥ 0 then s.1 (s.1 pix).toNat else (f pix).val
  (Function.update s.1 pix v, Function.update s.2 pix (t.wrap v))

/-- `_areaOpen`, DAreaOpenUnionFind.hpp:285-340: `key` are the pixels of the parameter `imIn` (read by
`mkHistogram`), `f` those of the member `imIn` (`bufIn`). `lam` is `off_t(size)`, taken as `size`: sizes
below 2^63. -/
def ufAreaOpen (n : Nat) (adj : Nat → List Nat) (key f : Nat → Px t) (lam : Nat) (out : Nat → Px t) :
    Option (Nat → Px t) :=
  ((histOrder n key).foldlM (ufPixel f adj lam (n + 1)) (fun _ => 0)).map fun par =>
    ((histOrder n key).reverse.foldl (ufOutPixel f) (par, out)).2

/-- `areaOpening`, DAreaOpen.hpp:67-81 with DAreaOpenUnionFind.hpp:75-86, 115-130: the size check, the
copy of the input, `fill(imOut, 0)`. `same`: input and output are the same image; the copy is made before
the fill but the histogram is made on the filled image. -/
def areaOpening (auto same : Bool) (se : StrElt) (lam : Nat) (im : Img (Px t)) (dout : Dims) :
    Option (Except Int (Img (Px t))) :=
  match checkDims auto im.dims dout with
  | .error c => some (.error c)
  | .ok _ =>
    (ufAreaOpen im.dims.count (ufOffs im.dims se) (if same then fun _ => Px.zero else im.buf) im.buf lam
      (fun _ => Px.zero)).map fun o => .ok ⟨im.dims, o⟩

end
end Smil
