import Verif.GeoMeas
import Verif.ImgOps

/-!
# Features of the grey level size zone matrix

Addons/ZoneMatrix/include/private/GLSZM.hpp. `double` are rationals. `int` are unbounded: images of fewer than 2^31 pixels and
matrices of fewer than 2^31 entries.
-/

namespace Smil
variable {t : PT}

/-- `round`: to the nearest integer, halves away from zero. -/
def roundC (q : ℚ) : Int := if 0 ≤ q then ⌊q + 1 / 2⌋ else ⌈q - 1 / 2⌉

/-- The level of a pixel, GLSZM.hpp:472: `(int) round((pixelsIn[i] / 255.0) * NbNDG)` converted to `UINT8`; `none` if the
number is no `int`. -/
def zmQuant (N : Nat) (v : Px t) : Option Nat :=
  let r := roundC ((v.val : ℚ) / 255 * N)
  if -2 ^ 31 ≤ r ∧ r < 2 ^ 31 then some (r % 256).toNat else none

/-- One turn of the loop over the pixels of `ComputeBinary` with `method` 0, GLSZM.hpp:353-418, on `pixelDone` and the
numbers `NbPixel` found so far. The loop over the queue is that of `_GeodesicPathBinary`, `gmFlood`: the marks 1 and -1 are
its -1 and -2, the number of pixels taken from the queue is the length of its second result. -/
def zmPixel (C : GmCfg) (s : (Nat → ℚ) × List Nat) (i : Nat) : Option ((Nat → ℚ) × List Nat) :=
  if s.1 i = -1 then
    (gmFlood C (C.n + 1) (Function.update s.1 i (-2), [i], [i])).map fun r => (r.1, s.2 ++ [r.2.length])
  else some s

/-- `ComputeBinary`, GLSZM.hpp:345-420, on a slice. -/
def zmBinary (W H : Nat) (S : Nat → Bool) : Option (List Nat) :=
  ((List.range (W * H * 1)).reverse.foldlM (zmPixel ⟨W * H * 1, gmNbs W H 1 1 1 1, fun _ => 0⟩)
    (fun i => if i < W * H * 1 ∧ S i then -1 else 0, [])).map Prod.snd

/-- The turns of the loops on `Level - 1` and `k`, GLSZM.hpp:431-433. -/
def zmTurns (N d : Nat) : List (Nat × Nat) := (List.range N).flatMap fun n => (List.range d).map fun k => (n, k)

/-- A turn, GLSZM.hpp:434-447. -/
def zmTurn (b : Img Nat) (e : Nat × Nat) : Option (List Nat) :=
  zmBinary b.dims.w b.dims.h fun j => e.1 + 1 ≤ b.buf (e.2 * b.dims.w * b.dims.h + j)

/-- What `Compute2D` finds, GLSZM.hpp:422-453: `Level - 1` and `NbPixel` of each component. -/
def zmZones (N : Nat) (b : Img Nat) : Option (List (Nat × Nat)) :=
  if (zmTurns N b.dims.d).all fun e => (zmTurn b e).isSome then
    some ((zmTurns N b.dims.d).flatMap fun e => ((zmTurn b e).getD []).map fun s => (e.1, s))
  else none

/-- The value returned by `Compute2D`. -/
def zmMax (zs : List (Nat × Nat)) : Nat := (zs.map Prod.snd).foldl max 0

/-- `Matrix[NbPixel + Level * mW]++`, GLSZM.hpp:416, in an array of `len` entries. -/
def zmAcc (len : Nat) (m : Nat → Nat) (i : Nat) : Option (Nat → Nat) :=
  if i < len then some (Function.update m i (m i + 1)) else none

/-- The matrix, GLSZM.hpp:476-481: `DMax * NbNDG` entries, zeroed, then filled. -/
def zmMatrix (N : Nat) (zs : List (Nat × Nat)) : Option (Nat → Nat) :=
  (zs.map fun e => e.2 + e.1 * zmMax zs).foldlM (zmAcc (zmMax zs * N)) fun _ => 0

/-- The two loops of the features. -/
def zmSum (W N : Nat) (f : Nat → Nat → ℚ) : ℚ :=
  ((List.range N).map fun n => ((List.range W).map fun s => f n s).sum).sum

/-- `ComputeFeatures`, GLSZM.hpp:198-212 with lines 29-196; `Sum` is 1 from the constructor on. -/
def zmFeatures (m : Nat → Nat) (W N : Nat) : List ℚ :=
  let M : Nat → Nat → ℚ := fun n s => m (s + n * W)
  [zmSum W N fun n s => M n s / ((s + 1 : Nat) : ℚ) ^ 2,
   zmSum W N fun n s => M n s * ((s + 1 : Nat) : ℚ) ^ 2,
   zmSum W N fun n s => M n s / ((n + 1 : Nat) : ℚ) ^ 2,
   zmSum W N fun n s => M n s * ((n + 1 : Nat) : ℚ) ^ 2,
   zmSum W N fun n s => M n s / (((n + 1 : Nat) : ℚ) ^ 2 * ((s + 1 : Nat) : ℚ) ^ 2),
   zmSum W N fun n s => M n s * (((n + 1 : Nat) : ℚ) / ((s + 1 : Nat) : ℚ)) ^ 2,
   zmSum W N fun n s => M n s * (((s + 1 : Nat) : ℚ) / ((n + 1 : Nat) : ℚ)) ^ 2,
   zmSum W N fun n s => M n s * ((n + 1 : Nat) : ℚ) ^ 2 * ((s + 1 : Nat) : ℚ) ^ 2,
   ((List.range N).map fun n => ((List.range W).map fun s => M n s).sum * ((List.range W).map fun s => M n s).sum).sum,
   ((List.range W).map fun s => ((List.range N).map fun n => M n s).sum * ((List.range N).map fun n => M n s).sum).sum,
   zmSum W N fun n s => ((n + 1 : Nat) : ℚ) * M n s,
   zmSum W N fun n s => ((s + 1 : Nat) : ℚ) * M n s]

/-- `grayLevelZMSize`, GLSZM.hpp:537-545, and `Size`, lines 456-489: an image that is not allocated gives no features. -/
def grayLevelZMSize (N : Nat) (im : Img (Px t)) : Option (List ℚ) :=
  if im.dims.count = 0 then some []
  else (im.mapK (zmQuant N)).bind fun b => (zmZones N b).bind fun zs =>
    (zmMatrix N zs).map fun m => zmFeatures m (zmMax zs) N

end Smil
