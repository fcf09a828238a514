import Verif.Label
import Verif.MorphoTop

/-!
# Distance functions

Morpho/include/private/DMorphoDistance.hpp. `distCross`, `distCross3d`, `distSquare` and `distanceEuclidean`
work on whole columns and whole rows, in place: the passes are modelled on lists, one for each column or row,
and the image is put together again (the columns of a pass do not share pixels, so the order in which the
loops visit them does not matter; the `omp for` pragmas are outside of any parallel region, the loops run on
one thread). Each scan keeps the length of its line, so the default value in `onCols`, `onRows`, `onDepth`
is never used.
-/

namespace Smil

/-! ### Lines of an image -/

section
variable {α β : Type}

/-- The pixels of a column. -/
def Img.col (im : Img α) (x z : Nat) : List α := (List.range im.dims.h).map fun y => im.px x y z

/-- The pixels of a row. -/
def Img.row (im : Img α) (y z : Nat) : List α := (List.range im.dims.w).map fun x => im.px x y z

/-- The pixels along the third axis. -/
def Img.dep (im : Img α) (x y : Nat) : List α := (List.range im.dims.d).map fun z => im.px x y z

/-- Work on every column. -/
def Img.onCols [Inhabited β] (F : List α → List β) (im : Img α) : Img β :=
  Img.ofFn im.dims fun x y z => ((F (im.col x z))[y]?).getD default

/-- Work on every row. -/
def Img.onRows [Inhabited β] (F : List α → List β) (im : Img α) : Img β :=
  Img.ofFn im.dims fun x y z => ((F (im.row y z))[x]?).getD default

/-- Work along the third axis. -/
def Img.onDepth [Inhabited β] (F : List α → List β) (im : Img α) : Img β :=
  Img.ofFn im.dims fun x y z => ((F (im.dep x y))[z]?).getD default

/-- Work on every row, with undefined behaviour. -/
def Img.onRows? [Inhabited β] (F : List α → Option (List β)) (im : Img α) : Option (Img β) :=
  if ∀ z < im.dims.d, ∀ y < im.dims.h, (F (im.row y z)).isSome then
    some (im.onRows fun l => (F l).getD []) else none

/-- Work along the third axis, with undefined behaviour. -/
def Img.onDepth? [Inhabited β] (F : List α → Option (List β)) (im : Img α) : Option (Img β) :=
  if ∀ y < im.dims.h, ∀ x < im.dims.w, (F (im.dep x y)).isSome then
    some (im.onDepth fun l => (F l).getD []) else none

/-- A loop `for x = 1 ..` that rewrites `line[x]` from the new `line[x - 1]` and the old `line[x]`. -/
def scanFrom (f : α → α → α) (p : α) : List α → List α
  | [] => []
  | c :: l => f p c :: scanFrom f (f p c) l

/-- The loop on a whole line; the first pixel does not change. -/
def scan (f : α → α → α) : List α → List α
  | [] => []
  | c :: l => c :: scanFrom f c l

/-- A loop `for x = n - 2 .. 0` that rewrites `line[x]` from the new `line[x + 1]` and the old `line[x]`. -/
def scanBack (f : α → α → α) : List α → List α
  | [] => []
  | c :: l =>
    match scanBack f l with
    | [] => [c]
    | n :: r => f n c :: n :: r

end

/-! ### `distCross` and `distCross3d` -/

section
variable {t1 t2 : PT}

/-- The zero of the output type, `T2(0)`. -/
def dZero : Px t2 := t2.wrap 0

/-- The loop down a column, DMorphoDistance.hpp:348-377 (`distCross`), 450-476 (`distSquare`), 233-250
(`distCross3d`) and 868-892 (`distanceEuclidean`): 0 where the input is zero, `infinite` on the first
row, and after it `inc` of the pixel above. (`distCross` and `distCross3d` test `inf(imIn, 1)`
instead of the input; one is zero when the other is.) -/
def downFrom (inc : Px t2 → Px t2) (p : Px t2) : List (Px t1) → List (Px t2)
  | [] => []
  | v :: l =>
    let c := if v.val = 0 then dZero else inc p
    c :: downFrom inc c l

/-- The loop on a whole column. -/
def down (inc : Px t2 → Px t2) : List (Px t1) → List (Px t2)
  | [] => []
  | v :: l =>
    let c := if v.val = 0 then dZero else ⊤
    c :: downFrom inc c l

/-- The increment of `distCross` and `distSquare`, DMorphoDistance.hpp:370-374 and 468-473. -/
def incSat (p : Px t2) : Px t2 := if p < ⊤ then t2.wrap (p.val + 1) else ⊤

/-- `1 + p` as C++ computes it: in `int` for the small types, modulo 2^32 for `UINT32`. Types that are signed
and larger than 16 bits overflow; they are left out by `incOk`. -/
def cInc (p : Px t2) : Int := (t2.promoted.wrap (p.val + 1)).val

/-- No signed overflow in `1 + p`. -/
def incOk (t : PT) : Prop := t.signed = false ∨ t.bits ≤ 16

instance (t : PT) : Decidable (incOk t) := by unfold incOk; infer_instance

/-- The increment of `distCross3d` and `distanceEuclidean`, DMorphoDistance.hpp:246-249 and 887-890. -/
def incCpp (p : Px t2) : Px t2 := if t2.hi < cInc p then ⊤ else t2.wrap (cInc p)

/-- The loop up a column of `distCross` and `distSquare`, DMorphoDistance.hpp:379-391 and 478-490: `n` the pixel
below. -/
def upSat (n c : Px t2) : Px t2 :=
  let minVal := if n < ⊤ then t2.wrap (n.val + 1) else n
  if minVal < c then t2.wrap (n.val + 1) else c

/-- The loop up a column of `distCross3d`, DMorphoDistance.hpp:252-259. -/
def upCpp (n c : Px t2) : Px t2 :=
  let m := if t2.hi < cInc n then t2.hi else cInc n
  if m < c.val then t2.wrap (cInc n) else c

/-- The loop up a column of `distanceEuclidean`, DMorphoDistance.hpp:894-901. -/
def upEuc (n c : Px t2) : Px t2 :=
  if n < c then (if cInc n < t2.hi then t2.wrap (cInc n) else ⊤) else c

/-- The loops on the rows, and along the third axis, of `distCross` and `distCross3d`,
DMorphoDistance.hpp:397-409, 265-279 and 285-303. -/
def sideStep (p c : Px t2) : Px t2 := if c.val ≠ 0 ∧ p < c then t2.wrap (p.val + 1) else c

/-- Both loops on a row. -/
def sideLine (l : List (Px t2)) : List (Px t2) := scanBack sideStep (scan sideStep l)

/-- `distCross`, DMorphoDistance.hpp:327-410. -/
def distCross (auto : Bool) (im : Img (Px t1)) (dout : Dims) : Except Int (Img (Px t2)) :=
  match checkDims auto im.dims dout with
  | .error c => .error c
  | .ok _ => .ok ((im.onCols fun l => scanBack upSat (down incSat l)).onRows sideLine)

/-- `distCross3d`, DMorphoDistance.hpp:206-322; `none`: signed overflow. -/
def distCross3d (auto : Bool) (im : Img (Px t1)) (dout : Dims) : Option (Except Int (Img (Px t2))) :=
  match checkDims auto im.dims dout with
  | .error c => some (.error c)
  | .ok _ =>
    if incOk t2 then
      some (.ok (((im.onCols fun l => scanBack upCpp (down incCpp l)).onRows sideLine).onDepth sideLine))
    else none

/-! ### The lower envelope (`distSquare`, `distanceEuclidean`) -/

/-- The loop that lowers `q`: `f x i` is the value at `x` of the candidate `i`. The stack holds `s[q], t[q]`
first. -/
def mPop (f : Int → Nat → Int) (u : Nat) : List (Nat × Int) → List (Nat × Int)
  | [] => []
  | (s, t) :: st => if f t s > f t u then mPop f u st else (s, t) :: st

/-- SCAN 3, DMorphoDistance.hpp:506-585 and 922-938, for one candidate `u`. `m` is the length of the line,
`cap` the length of the vectors `s` and `t`; `none`: write beyond them. When the stack becomes empty
(`q < 0`), `s[0] = u` and `t[0]` is still 0. -/
def mStep (f : Int → Nat → Int) (sep : Nat → Nat → Int) (m cap : Nat) (st : List (Nat × Int)) (u : Nat) :
    Option (List (Nat × Int)) :=
  match mPop f u st with
  | [] => some [(u, 0)]
  | (s, t) :: st' =>
    let w := 1 + sep s u
    if w < m then
      if st'.length + 1 < cap then some ((u, w) :: (s, t) :: st') else none
    else some ((s, t) :: st')

/-- SCAN 4, DMorphoDistance.hpp:587-604 and 939-945: for each pixel from the right, its candidate. `none`: the
stack is empty (`s[-1]`). -/
def mBack : Nat → List (Nat × Int) → List Nat → Option (List Nat)
  | 0, _, acc => some acc
  | _ + 1, [], _ => none
  | u + 1, (s, t) :: st, acc => mBack u (if (u : Int) = t then st else (s, t) :: st) (s :: acc)

/-- Scans 3 and 4 on a line: the candidate of each pixel. -/
def meijster (f : Int → Nat → Int) (sep : Nat → Nat → Int) (m cap : Nat) : Option (List Nat) :=
  match (List.range' 1 (m - 1)).foldlM (mStep f sep m cap) [(0, 0)] with
  | none => none
  | some st => mBack m st []

/-- Reading a line. -/
def lineVal (l : List Int) (i : Nat) : Int := l.getD i 0

/-- The separator of `distSquare`, DMorphoDistance.hpp:556-577. -/
def sepChess (g : Nat → Int) (i u : Nat) : Int :=
  if g i ≤ g u then
    let w := i + g u
    if w < (i + u : Int).tdiv 2 then (i + u : Int).tdiv 2 else w
  else
    let w := u - g i
    if w ≥ (i + u : Int).tdiv 2 then (i + u : Int).tdiv 2 else w

/-- The distance to a candidate, DMorphoDistance.hpp:509-515: the larger of `|x - i|` and `g i`. -/
def fChess (g : Nat → Int) (x : Int) (i : Nat) : Int := if (|x - i|) < g i then g i else |x - i|

/-- The value written in SCAN 4, DMorphoDistance.hpp:596-600: `|u - s|` is converted first. -/
def outChess (g : Px t2) (x s : Nat) : Px t2 :=
  let a := t2.wrap (|(x : Int) - s|)
  if a < g then g else a

/-- A row of `distSquare`; `cap` is the larger of width and height. -/
def chessRow (cap : Nat) (l : List (Px t2)) : Option (List (Px t2)) :=
  let g := lineVal (l.map Px.val)
  (meijster (fChess g) (sepChess g) l.length cap).map fun c =>
    (List.range l.length).map fun x => outChess (l.getD (c.getD x 0) ⊤) x (c.getD x 0)

/-- `distSquare`, DMorphoDistance.hpp:415-608. -/
def distSquare (auto : Bool) (im : Img (Px t1)) (dout : Dims) : Option (Except Int (Img (Px t2))) :=
  match checkDims auto im.dims dout with
  | .error c => some (.error c)
  | .ok _ =>
    ((im.onCols fun l => scanBack upSat (down incSat l)).onRows?
      (chessRow (max im.dims.w im.dims.h))).map .ok

/-! ### `distanceEuclidean` -/

/-- `__f_euclidean`, DMorphoDistance.hpp:908-909 and 956-957: `g` holds the squares. -/
def fEuc (g : Nat → Int) (x : Int) (i : Nat) : Int := (x - i) * (x - i) + g i

/-- `__sep`, DMorphoDistance.hpp:910-913 and 958-961; the division rounds towards zero. -/
def sepEuc (g : Nat → Int) (a b : Nat) : Int := ((b * b - a * a + g b - g a : Int)).tdiv (2 * (b - a))

/-- A line of the second or third pass: `sq` the squares. `none`: more than 46341 pixels, `b * b`, which is
computed in `int`, may overflow. -/
def eucLine (t : PT) (cap : Nat) (sq : List Int) : Option (List (Px t)) :=
  if 46341 < sq.length then none
  else
    let g := lineVal sq
    (meijster (fEuc g) (sepEuc g) sq.length cap).map fun c =>
      (List.range sq.length).map fun (x : Nat) => t.wrap (fEuc g x (c.getD x 0))

/-- A row: the squares `pixelsTmp[i] * pixelsTmp[i]` are computed in the promoted type; all of them are
computed, whatever the path. -/
def eucRow (l : List (Px t2)) : Option (List (Px t2)) :=
  match l.mapM (fun v => t2.cpp (v.val * v.val)) with
  | none => none
  | some sq => eucLine t2 l.length sq

/-- Along the third axis the values are squares already; the vectors `s` and `t` still have the length of a
row. -/
def eucDep (w : Nat) (l : List (Px t2)) : Option (List (Px t2)) := eucLine t2 w (l.map Px.val)

/-- `distanceEuclidean`, DMorphoDistance.hpp:831-991. -/
def distanceEuclidean (auto : Bool) (im : Img (Px t1)) (dout : Dims) : Option (Except Int (Img (Px t2))) :=
  match checkDims auto im.dims dout with
  | .error c => some (.error c)
  | .ok _ =>
    if incOk t2 then
      match (im.onCols fun l => scanBack upEuc (down incCpp l)).onRows? eucRow with
      | none => none
      | some r => (r.onDepth? (eucDep im.dims.w)).map .ok
    else none

end

end Smil
