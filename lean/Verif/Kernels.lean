import Verif.Sched
import Verif.Morpho

/-!
# The specialised dilation/erosion kernels

Morpho/include/private/DMorphImageOperations.hxx:535-973: hexagon, square, cube, horizontal,
vertical and depth segments, cross. Memory is a map from lines (image lines, per-thread buffers,
the border line) to pixels. A kernel is a list of phases separated by barriers; a phase gives the
program of every thread, a list of line operations; each line operation is a list of atomic pixel
steps, so threads interleave pixel by pixel.
-/

namespace Smil

/-- The lines of the memory: line `y` of slice `z` of image `k`, the `n`-th buffer of thread `t`,
and `borderBuf`. -/
inductive LId where
  | img (k z y : Nat)
  | buf (t n : Nat)
  | border
deriving DecidableEq

/-- A pixel location. -/
abbrev Loc := LId × Nat

/-- Memory contents. -/
abbrev KMem (α : Type) := Loc → α

/-- Line operations. -/
inductive LOp where
  /-- `copyLine(a, w, o)` -/
  | copy (a o : LId)
  /-- `lineFunction(a, b, w, o)` -/
  | zip (a b o : LId)
  /-- `shiftLine(a, dx, w, o, borderValue)` -/
  | shift (a : LId) (dx : Int) (o : LId)
deriving DecidableEq

section
variable {α : Type}

/-- Copy of one pixel. -/
def Step.cp (o a : Loc) : Step Loc α :=
  ⟨o, [a], fun m => m a, fun _ _ h => h a (by simp)⟩

/-- `o = f(a, b)` on one pixel. -/
def Step.op (f : α → α → α) (o a b : Loc) : Step Loc α :=
  ⟨o, [a, b], fun m => f (m a) (m b), fun _ _ h => by rw [h a (by simp), h b (by simp)]⟩

/-- Store of a constant. -/
def Step.cst (v : α) (o : Loc) : Step Loc α := ⟨o, [], fun _ => v, fun _ _ _ => rfl⟩

/-- The pixel steps of a line operation on lines of `w` pixels (the loops of
Base/include/private/DLineArith.hpp:58-114 and 169-187). Shifts longer than the line do not occur
in the kernels unless `w = 0`. -/
def LOp.steps (f : α → α → α) (border : α) (w : Nat) : LOp → List (Step Loc α)
  | .copy a o => (List.range w).map fun i => Step.cp (o, i) (a, i)
  | .zip a b o => (List.range w).map fun i => Step.op f (o, i) (a, i) (b, i)
  | .shift a dx o =>
    if 0 ≤ dx then
      ((List.range dx.toNat).map fun i => Step.cst border (o, i)) ++
      ((List.range (w - dx.toNat)).map fun j => Step.cp (o, j + dx.toNat) (a, j))
    else
      ((List.range (w - (-dx).toNat)).map fun j => Step.cp (o, j) (a, j + (-dx).toNat)) ++
      ((List.range (-dx).toNat).map fun i => Step.cst border (o, w - (-dx).toNat + i))

/-- The pixel program of a list of line operations. -/
def lsteps (f : α → α → α) (border : α) (w : Nat) (l : List LOp) : List (Step Loc α) :=
  l.flatMap (LOp.steps f border w)

end

/-- A phase: the program of each thread between two barriers. -/
abbrev Phase := Nat → List LOp

/-! ### Blocks of lines -/

/-- Number of threads used by the vertical and cross kernels, DMorphImageOperations.hxx:813-814. -/
def kThreads (nt h : Nat) : Nat := max (min nt (h / 4)) 1

/-- First line and number of lines of the block of thread `t`, DMorphImageOperations.hxx:837-840. -/
def blockFirst (n h t : Nat) : Nat := t * (h / n)
/-- See `blockFirst`. -/
def blockSize (n h t : Nat) : Nat := if t = n - 1 then h - (h / n) * t else h / n

/-! ### Vertical segment, DMorphImageOperations.hxx:803-880 -/

/-- First phase: lines 843-850. -/
def vertPh1 (ks z fl t : Nat) : List LOp :=
  [.copy (.img ks z fl) (.buf t 0),
   .zip (.buf t 0) (if fl = 0 then .border else .img ks z (fl - 1)) (.buf t 1),
   .zip (.img ks z fl) (.img ks z (fl + 1)) (.buf t 0),
   .zip (.buf t 0) (.buf t 1) (.buf t 2)]

/-- The loop of lines 856-862, `n` iterations from line `i`, with `buf1 = a`, `buf2 = b`; gives the
operations and the final names of `buf1` and `buf2`. -/
def vertLoop (ks kd z : Nat) : Nat → Nat → LId → LId → List LOp × LId × LId
  | 0, _, a, b => ([], a, b)
  | n + 1, i, a, b =>
    let r := vertLoop ks kd z n (i + 1) b a
    (.zip (.img ks z i) (.img ks z (i + 1)) b :: .zip a b (.img kd z i) :: r.1, r.2)

/-- Second phase: lines 856-868. -/
def vertPh2 (ks kd z h fl bs t : Nat) : List LOp :=
  let r := vertLoop ks kd z (bs - 2) (fl + 1) (.buf t 0) (.buf t 1)
  r.1 ++ [.zip (.img ks z (fl + bs - 1)) (if fl + bs = h then .border else .img ks z (fl + bs)) r.2.2,
    .zip r.2.1 r.2.2 (.img kd z (fl + bs - 1))]

/-- Third phase: line 875. -/
def vertPh3 (kd z fl t : Nat) : List LOp := [.copy (.buf t 2) (.img kd z fl)]

/-- The three phases of slice `z`. -/
def vertSlice (ks kd h n z : Nat) : List Phase :=
  [fun t => if t < n then vertPh1 ks z (blockFirst n h t) t else [],
   fun t => if t < n then vertPh2 ks kd z h (blockFirst n h t) (blockSize n h t) t else [],
   fun t => if t < n then vertPh3 kd z (blockFirst n h t) t else []]

/-- The kernel: all slices in turn. -/
def vertKernel (ks kd : Nat) (D : Dims) (n : Nat) : List Phase :=
  (List.range D.d).flatMap fun z => vertSlice ks kd D.h n z

/-! ### Cross, DMorphImageOperations.hxx:882-973 -/

/-- `_exec_shifted_line_2ways`, DMorphImageOperations.hpp:212-224, on `a` into `o` with scratch
`tmp`. -/
def twoWays (a o tmp : LId) : List LOp :=
  [.shift a 1 tmp, .zip a tmp o, .shift a (-1) tmp, .zip o tmp o]

/-- First phase: lines 927-936. Buffers: 0..3 are `buf1..buf4`, 4 is `tmpBuf`, 5 `firstLineBuf`. -/
def crossPh1 (ks z fl t : Nat) : List LOp :=
  .copy (.img ks z fl) (.buf t 0) :: twoWays (.buf t 0) (.buf t 3) (.buf t 4) ++
  [.copy (.img ks z (fl + 1)) (.buf t 1), .zip (.buf t 3) (.buf t 1) (.buf t 4),
   .zip (if fl = 0 then .border else .img ks z (fl - 1)) (.buf t 4) (.buf t 5)]

/-- The loop of lines 942-954, `n` iterations from `i`, with `buf1, buf2, buf3 = a, b, c`. -/
def crossLoop (ks kd z t : Nat) : Nat → Nat → LId → LId → LId → List LOp × LId × LId
  | 0, _, a, b, _ => ([], a, b)
  | n + 1, i, a, b, c =>
    let r := crossLoop ks kd z t n (i + 1) b c a
    (.copy (.img ks z i) c :: twoWays b (.buf t 3) (.buf t 4) ++
      [.zip a c (.buf t 4), .zip (.buf t 3) (.buf t 4) (.img kd z (i - 1))] ++ r.1, r.2)

/-- Second phase: lines 942-961. -/
def crossPh2 (ks kd z h fl bs t : Nat) : List LOp :=
  let r := crossLoop ks kd z t (bs - 2) (fl + 2) (.buf t 0) (.buf t 1) (.buf t 2)
  r.1 ++ twoWays r.2.2 (.buf t 3) (.buf t 4) ++
    [.zip r.2.1 (.buf t 3) (.buf t 3),
     .zip (.buf t 3) (if fl + bs = h then .border else .img ks z (fl + bs))
       (.img kd z (fl + bs - 1))]

/-- Third phase: line 968. -/
def crossPh3 (kd z fl t : Nat) : List LOp := [.copy (.buf t 5) (.img kd z fl)]

/-- The three phases of slice `z`. -/
def crossSlice (ks kd h n z : Nat) : List Phase :=
  [fun t => if t < n then crossPh1 ks z (blockFirst n h t) t else [],
   fun t => if t < n then crossPh2 ks kd z h (blockFirst n h t) (blockSize n h t) t else [],
   fun t => if t < n then crossPh3 kd z (blockFirst n h t) t else []]

/-- The kernel: all slices in turn. -/
def crossKernel (ks kd : Nat) (D : Dims) (n : Nat) : List Phase :=
  (List.range D.d).flatMap fun z => crossSlice ks kd D.h n z

/-! ### Horizontal segment, DMorphImageOperations.hxx:709-751 -/

/-- The body of the loop on one line by thread `t`, lines 742-746. -/
def horizLine (ks kd z y t : Nat) : List LOp :=
  [.shift (.img ks z y) 1 (.buf t 0), .zip (.buf t 0) (.img ks z y) (.buf t 1),
   .shift (.img ks z y) (-1) (.buf t 0), .zip (.buf t 0) (.buf t 1) (.img kd z y)]

/-- The parallel loop over all lines; `own l` is the thread that receives line `l`
(`omp for` does not fix the distribution). -/
def horizKernel (ks kd : Nat) (D : Dims) (own : Nat → Nat) : List Phase :=
  [fun t => (List.range (D.d * D.h)).flatMap fun l =>
    if own l = t then horizLine ks kd (l / D.h) (l % D.h) t else []]

/-! ### Depth segment, DMorphImageOperations.hxx:754-801 -/

/-- The loop of lines 787-794, `n` iterations from slice `z`, with `buf1 = a`, `buf2 = b`; gives the
final `buf1`. -/
def depthLoop (ks kd y : Nat) : Nat → Nat → LId → LId → List LOp × LId
  | 0, _, a, _ => ([], a)
  | n + 1, z, a, b =>
    let r := depthLoop ks kd y n (z + 1) b a
    (.zip (.img ks z y) (.img ks (z - 1) y) b :: .zip a b (.img kd (z - 1) y) :: r.1, r.2)

/-- The body for one `y`, lines 785-796. -/
def depthLine (ks kd d y t : Nat) : List LOp :=
  let r := depthLoop ks kd y (d - 1) 1 (.buf t 0) (.buf t 1)
  .zip .border (.img ks 0 y) (.buf t 0) :: r.1 ++ [.zip .border r.2 (.img kd (d - 1) y)]

/-- The parallel loop over the lines of a slice. -/
def depthKernel (ks kd : Nat) (D : Dims) (own : Nat → Nat) : List Phase :=
  [fun t => (List.range D.h).flatMap fun y => if own y = t then depthLine ks kd D.d y t else []]

/-! ### Square and cube -/

/-- `_exec_single_square_SE`, DMorphImageOperations.hxx:620-627: vertical, then horizontal in place
on the output. -/
def squKernel (ks kd : Nat) (D : Dims) (n : Nat) (own : Nat → Nat) : List Phase :=
  vertKernel ks kd D n ++ horizKernel kd kd D own

/-- `_exec_single_cube_SE`, DMorphImageOperations.hxx:629-637. -/
def cubeKernel (ks kd : Nat) (D : Dims) (n : Nat) (own own' : Nat → Nat) : List Phase :=
  squKernel ks kd D n own ++ depthKernel kd kd D own'

/-! ### Hexagon, DMorphImageOperations.hxx:535-618 -/

/-- `_exec_shifted_line(a, a, dx, w, o, tmp)`, DMorphImageOperations.hpp:186-192. -/
def shifted (a : LId) (dx : Int) (o tmp : LId) : List LOp := [.shift a dx tmp, .zip a tmp o]

/-- The shift of line 586 / 606: `l` even on an even slice (or odd on an odd slice) shifts left. -/
def hexDx (l s : Nat) : Int := if (l % 2 = 0) = (s % 2 = 0) then -1 else 1

/-- The loop of lines 580-603, `n` iterations from `l`, with `buf0, buf1, buf2 = a, b, c`; buffers 3
and 4 are `buf3, buf4`, buffer 5 is `cpBuf`. -/
def hexLoop (ks kd s : Nat) : Nat → Nat → LId → LId → LId → List LOp × LId × LId
  | 0, _, a, b, _ => ([], a, b)
  | n + 1, l, a, b, c =>
    let r := hexLoop ks kd s n (l + 1) b c a
    (shifted (.img ks s l) (hexDx l s) c (.buf 0 5) ++ shifted b (hexDx l s) (.buf 0 3) (.buf 0 4) ++
      [.zip a c (.buf 0 4), .zip (.buf 0 3) (.buf 0 4) (.img kd s (l - 1))] ++ r.1, r.2)

/-- One slice, lines 566-611. -/
def hexSlice (ks kd h s : Nat) : List LOp :=
  let r := hexLoop ks kd s (h - 2) 2 (.buf 0 0) (.buf 0 1) (.buf 0 2)
  shifted (.img ks s 0) (-1) (.buf 0 0) (.buf 0 5) ++ shifted (.buf 0 0) 1 (.buf 0 3) (.buf 0 4) ++
  shifted (.img ks s 1) 1 (.buf 0 1) (.buf 0 5) ++
  [.zip (.buf 0 3) (.buf 0 1) (.buf 0 4), .zip .border (.buf 0 4) (.img kd s 0)] ++ r.1 ++
  shifted r.2.2 (hexDx h s) (.buf 0 3) (.buf 0 4) ++
  [.zip (.buf 0 3) r.2.1 (.buf 0 4), .zip .border (.buf 0 4) (.img kd s (h - 1))]

/-- One kernel for all slices (single-threaded). -/
def hexKernel (ks kd : Nat) (D : Dims) : List Phase :=
  (List.range D.d).map fun s => fun t => if t = 0 then hexSlice ks kd D.h s else []

/-! ### Executions -/

section
variable {α : Type}

/-- A complete execution of one phase: some interleaving of the threads. -/
def PhaseRun (f : α → α → α) (border : α) (w : Nat) (ph : Phase) (m m' : KMem α) : Prop :=
  ∃ ts, (runSched ts (fun t => lsteps f border w (ph t)) m).1 = m' ∧
    ∀ t, (runSched ts (fun t => lsteps f border w (ph t)) m).2 t = []

/-- A complete execution of a kernel: the phases one after the other (barriers). -/
def KRun (f : α → α → α) (border : α) (w : Nat) : List Phase → KMem α → KMem α → Prop
  | [], m, m' => m = m'
  | ph :: phs, m, m' => ∃ m1, PhaseRun f border w ph m m1 ∧ KRun f border w phs m1 m'

/-- The sequential execution with `n` threads. -/
def kExec (f : α → α → α) (border : α) (w n : Nat) (phs : List Phase) (m : KMem α) : KMem α :=
  phs.foldl (fun m ph => execThreads n (fun t => lsteps f border w (ph t)) m) m

/-- The memory when a kernel starts: image `ks` holds the input, image `kd` (if different) the old
output, `borderBuf` is filled with the border value, the buffers are not initialised. -/
def kLoad (border : α) (ks kd : Nat) (im out : Img α) (garbage : KMem α) : KMem α
  | (.img k z y, x) => if k = ks then im.px x y z else if k = kd then out.px x y z
      else garbage (.img k z y, x)
  | (.buf t n, x) => garbage (.buf t n, x)
  | (.border, _) => border

/-- The image found in the lines of image `kd`. -/
def kStore (D : Dims) (kd : Nat) (m : KMem α) : Img α := Img.ofFn D fun x y z => m (.img kd z y, x)

end
end Smil
