import Verif.Transform
import Verif.Label

/-!
# Binary path openings

Addons/PathOpening/include/MorphoPathOpening/morphoPathOpening.hpp. The array `Lambda` of 8 numbers per pixel is a function of the direction (0 to 7) and of the point, the numbers
are natural: they are at most `W + H`, and sizes for which `W * H * 8` is more than an `int` are undefined here (`none`).
-/

namespace Smil
section
variable {t u : PT}

/-- `Lambda`. -/
abbrev Lam := Nat → Int × Int → Nat

/-- The three points that `ComputeLambda` looks at from `(0, 0)`, for `Dir - 1`, morphoPathOpening.hpp:61-138. -/
def lamOffs : Nat → List (Int × Int)
  | 0 => [(0, -1), (-1, -1), (1, -1)]
  | 1 => [(0, 1), (-1, 1), (1, 1)]
  | 2 => [(-1, 0), (-1, -1), (-1, 1)]
  | 3 => [(1, 0), (1, -1), (1, 1)]
  | 4 => [(0, -1), (-1, 0), (-1, -1)]
  | 5 => [(0, 1), (1, 0), (1, 1)]
  | 6 => [(-1, 0), (0, 1), (-1, 1)]
  | 7 => [(1, 0), (0, -1), (1, -1)]
  | _ => []

/-- The guards `x - 1 >= 0`, `x + 1 < W` and so on. -/
def inWH (W H : Nat) (p : Int × Int) : Bool := decide (0 ≤ p.1 ∧ p.1 < W ∧ 0 ≤ p.2 ∧ p.2 < H)

/-- `ComputeLambda(Lambda, W, H, x, y, k + 1)`, morphoPathOpening.hpp:54-142. In the first four directions the first of the three values is taken without comparing it with `L = 0`. -/
def computeLambda (W H : Nat) (lam : Lam) (k : Nat) (p : Int × Int) : Nat :=
  (lamOffs k).foldl (fun L o =>
    let q := (p.1 + o.1, p.2 + o.2)
    if inWH W H q && decide (L < lam k q) then lam k q else L) 0 + 1

/-- `CurrentX`, `CurrentY`, `Top`, `Left`. -/
structure DiagCur where
  x : Int
  y : Int
  top : Int
  left : Int
  deriving DecidableEq, Repr

/-- The next point of the diagonal scan, morphoPathOpening.hpp:190-201. -/
def DiagCur.next (W H : Nat) (c : DiagCur) : DiagCur :=
  let top := if c.y + 1 > c.top ∧ c.y + 1 < H then c.y + 1 else c.top
  let left := if c.y = H - 1 then c.left + 1 else c.left
  if c.x + 1 ≥ W ∨ c.y - 1 < 0 then ⟨left, top, top, left⟩ else ⟨c.x + 1, c.y - 1, top, left⟩

/-- `(x[k], y[k])` at the iteration `i`, morphoPathOpening.hpp:167-183. -/
def lamScan (W H : Nat) (c : DiagCur) (i : Nat) : Nat → Int × Int
  | 0 => ((i % W : Nat), (i / W : Nat))
  | 1 => ((i % W : Nat), H - 1 - (i / W : Nat))
  | 2 => ((i / H : Nat), (i % H : Nat))
  | 3 => (W - 1 - (i / H : Nat), (i % H : Nat))
  | 4 => (c.x, c.y)
  | 5 => (W - 1 - c.x, H - 1 - c.y)
  | 6 => (c.x, H - 1 - c.y)
  | _ => (W - 1 - c.x, H - 1 - (H - 1 - c.y))

/-- The loop over the directions, morphoPathOpening.hpp:185-188. `none`: an access outside the arrays. -/
def lamDirs (W H : Nat) (bin : Int × Int → Bool) (c : DiagCur) (i : Nat) (lam : Lam) : Option Lam :=
  (List.range 8).foldlM (fun lam k =>
    let p := lamScan W H c i k
    if inWH W H p then
      some (if bin p then Function.update lam k (Function.update (lam k) p (computeLambda W H lam k p)) else lam)
    else none) lam

/-- The main loop, morphoPathOpening.hpp:165-202. -/
def lamLoop (W H : Nat) (bin : Int × Int → Bool) : Option (Lam × DiagCur) :=
  (List.range (W * H)).foldlM (fun st i => (lamDirs W H bin st.2 i st.1).map fun lam => (lam, st.2.next W H)) (fun _ _ => 0, ⟨0, 0, 0, 0⟩)

/-- `ComputeBinaryPathOpening`, morphoPathOpening.hpp:147-217, as the number written at each pixel before it becomes a pixel. -/
def binaryPaths (W H : Nat) (bin : Int × Int → Bool) : Option (Int × Int → Nat) :=
  if W * H * 8 < 2 ^ 31 then
    (lamLoop W H bin).map fun st p =>
      max (st.1 0 p + st.1 1 p) (max (st.1 2 p + st.1 3 p) (max (st.1 4 p + st.1 5 p) (st.1 6 p + st.1 7 p)))
  else none

/-- `ASSERT_ALLOCATED(&imIn)` and `ASSERT_SAME_SIZE(&imIn, &imOut)`. -/
def checkOne (auto : Bool) (di dout : Dims) : Except Int Unit :=
  if di.count = 0 then .error errBadAllocation
  else if dout = di then .ok ()
  else if auto then .ok ()
  else .error errBadSize

/-- The point of a pixel of the first slice. -/
def pt2 (W i : Nat) : Int × Int := ((i % W : Nat), (i / W : Nat))

/-- The offset `x + y * W`. -/
def off2 (W : Nat) (p : Int × Int) : Nat := (p.1 + p.2 * W).toNat

/-- The comparison of a pixel with an `UINT32`: the pixel is converted first. -/
def gtU32 (a : Px t) (s : Nat) : Bool := decide ((s : Int) < a.val % 2 ^ 32)

/-- `ImBinaryPathOpening`, morphoPathOpening.hpp:999-1040. The lengths are stored in an image of `UINT16`. `imBin` has `W * H` entries, and is filled for all the pixels: `none` with more
than one slice. The output may be the input. -/
def binaryPathOpening (auto : Bool) (im : Img (Px t)) (len slice : Nat) (out : Img (Px u)) : Option (Except Int (Img (Px u))) :=
  match checkOne auto im.dims out.dims with
  | .error c => some (.error c)
  | .ok _ =>
    if im.dims.d = 1 then
      (binaryPaths im.dims.w im.dims.h fun p => gtU32 (im.buf (off2 im.dims.w p)) slice).map fun f =>
        .ok ⟨im.dims, fun i => if len ≤ f (pt2 im.dims.w i) % 2 ^ 16 then u.wrap 255 else u.wrap 0⟩
    else none

/-- One turn of `ImPathOpeningBruteForce`, morphoPathOpening.hpp:250-262: `imLenght`, the image that is thresholded, receives the lengths. -/
def bruteStep (D : Dims) (len : Nat) (st : (Nat → Nat) × (Nat → Px u)) (k : Nat) : Option ((Nat → Nat) × (Nat → Px u)) :=
  (binaryPaths D.w D.h fun p => decide (st.1 (off2 D.w p) > k)).map fun f =>
    let l := fun i => f (pt2 D.w i) % 2 ^ 16
    (l, fun i => if l i ≥ len ∨ k = 0 then u.wrap k else st.2 i)

/-- `ImPathOpeningBruteForce`, morphoPathOpening.hpp:220-266. -/
def brutePathOpening (auto : Bool) (im : Img (Px t)) (len : Nat) (out : Img (Px u)) : Option (Except Int (Img (Px u))) :=
  match checkOne auto im.dims out.dims with
  | .error c => some (.error c)
  | .ok _ =>
    if im.dims.d = 1 then
      ((List.range 256).foldlM (bruteStep im.dims len) (fun i => (im.buf i).val.toNat % 2 ^ 16, fun _ => u.wrap 0)).map fun st =>
        .ok ⟨im.dims, st.2⟩
    else none

end
end Smil
