import Verif.AreaOpen
import Verif.PathOp
import Verif.ImgOps
import Verif.LineArith

/-!
# The union-find area opening of the addon

Addons/PathOpening/include/FastAreaOpening/AreaOpeningUnionFind.hpp. The input has unsigned 8-bit pixels (`ShortImage`) and the output 32-bit ones (`greyval` is `int`), as the assignments of the buffers require.
-/

namespace Smil

/-- The histogram of `PixelDownSort`, lines 62-66; `g` are the grey values. -/
def goHist (n : Nat) (g : Nat → Nat) : Nat → Nat := (List.range n).foldl (fun h i => Function.update h (g i) (h (g i) + 1)) fun _ => 0

/-- The offsets in the sorted array, lines 68-72: from the grey value 255 down. -/
def goStart (n : Nat) (g : Nat → Nat) : Nat → Nat :=
  ((List.range 256).reverse.foldl (fun s v => (s.1 + goHist n g v, Function.update s.2 v s.1)) ((0, fun _ => 0) : Nat × (Nat → Nat))).2

/-- A turn of the loop of lines 74-77, `*(idx[*tmp]++) = current`. `none`: a write outside the `n` elements of `SortPixels`. -/
def goPut (n : Nat) (g : Nat → Nat) (s : (Nat → Nat) × (Nat → Nat)) (i : Nat) : Option ((Nat → Nat) × (Nat → Nat)) :=
  if s.1 (g i) < n then some (Function.update s.1 (g i) (s.1 (g i) + 1), Function.update s.2 (s.1 (g i)) i) else none

/-- `PixelDownSort`, lines 57-79. -/
def goSort (n : Nat) (g : Nat → Nat) : Option (Nat → Nat) := ((List.range n).foldlM (goPut n g) (goStart n g, fun _ => 0)).map Prod.snd

/-- The search of the root in `Link1`, lines 83-85. `none`: fuel exhausted. -/
def goRoot : Nat → (Nat → Int) → Nat → Option Nat
  | 0, _, _ => none
  | fuel + 1, op, x => if op x ≥ 0 then goRoot fuel op (op x).toNat else some x

/-- The loop of the compression of the path in `Link1`, lines 95-100. `none`: fuel exhausted. -/
def goCompress : Nat → (Nat → Int) → Nat → Nat → Nat → Option (Nat → Int)
  | 0, _, _, _, _ => none
  | fuel + 1, op, root, newroot, r => if r ≠ root then goCompress fuel (Function.update op r (newroot : Int)) root newroot (op r).toNat else some op

/-- `Link1`, lines 81-101. The elements of `opening` are exact integers (the code: `int`): at most 4 `lambda` plus the number of pixels. -/
def goLink (lam : Int) (fuel : Nat) (op : Nat → Int) (n p : Nat) : Option (Nat → Int) :=
  (goRoot fuel op n).bind fun root =>
    if root ≠ p then
      if -(op root) < lam then goCompress fuel (Function.update (Function.update op p (op p + op root)) root (p : Int)) root p n
      else goCompress fuel (Function.update op p (-lam)) root root n
    else goCompress fuel op root root n

/-- The neighbours of a pixel in the order of lines 164-171: left, right, above, below. -/
def goAdj (w h p : Nat) : List Nat :=
  (if 0 < p % w then [p - 1] else []) ++ (if p % w + 1 < w then [p + 1] else []) ++ (if 0 < p / w then [p - w] else []) ++ (if p / w + 1 < h then [p + w] else [])

/-- The test of the neighbours at lines 164-171: `<=` for the left and upper ones, `<` for the others. -/
def goTest (g : Nat → Nat) (p n : Nat) : Bool := if n < p then decide (g p ≤ g n) else decide (g p < g n)

/-- One pixel of the loop of lines 157-172. -/
def goPixel (g : Nat → Nat) (adj : Nat → List Nat) (lam : Int) (fuel : Nat) (op : Nat → Int) (p : Nat) : Option (Nat → Int) :=
  (adj p).foldlM (fun op n => if goTest g p n then goLink lam fuel op n p else some op) (Function.update op p (-1))

/-- One pixel of the loop of lines 174-176. -/
def goResolve (g : Nat → Nat) (op : Nat → Int) (p : Nat) : Nat → Int := Function.update op p (if op p < 0 then (g p : Int) else op (op p).toNat)

/-- `GreyAreaOpening`, lines 144-178. -/
def goOpen (w h : Nat) (lam : Int) (g : Nat → Nat) (op : Nat → Int) : Option (Nat → Int) :=
  (goSort (w * h) g).bind fun sp =>
    (((List.range (w * h)).map sp).foldlM (goPixel g (goAdj w h) lam (w * h + 1)) op).map fun op => ((List.range (w * h)).map sp).reverse.foldl (goResolve g) op

/-- `ImAreaOpening_UnionFind`, lines 189-229: the checks, `fill(imOut, 0)`, and the first slice only (lines 207-215: the lines of one plane). The pixels of the result as integers. -/
def imAreaOpeningUF (auto : Bool) (size : Int) (im : Img (Px UINT8)) (dout : Dims) : Option (Except Int (Img Int)) :=
  match checkOne auto im.dims dout with
  | .error c => some (.error c)
  | .ok _ => (goOpen im.dims.w im.dims.h size (fun i => (im.buf i).val.toNat) fun _ => 0).map fun op => .ok ⟨im.dims, op⟩

/-- `ImAreaClosing_UnionFind`, DFastAreaOpening.h:106-120: the first inversion is made in the type of the input, the second in the type of the output, here 32-bit signed. -/
def imAreaClosingUF (auto : Bool) (size : Int) (im : Img (Px UINT8)) (dout : Dims) : Option (Except Int (Img (Px INT32))) :=
  match checkOne auto im.dims dout with
  | .error c => some (.error c)
  | .ok _ =>
    (Img.mapK kInv im).bind fun neg =>
      (imAreaOpeningUF auto size neg im.dims).bind fun r =>
        match r with
        | .error c => some (.error c)
        | .ok o => (Img.mapK kInv ⟨o.dims, fun i => INT32.wrap (o.buf i)⟩).map .ok

end Smil
