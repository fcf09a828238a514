import Verif.Img
import Verif.Pix
import Mathlib.Algebra.BigOperators.Group.List.Basic
import Mathlib.Algebra.Order.Field.Rat

/-!
# Covariance

Base/include/private/DMeasures.hpp:940-1219: `genericCovariance`, `measCovariance`, `measAutoCovariance`. The sums and means are rationals instead of
`double`, and so are the pixels of the `Image<float>` of the centred version; products `dx * len` do not wrap.
-/

namespace Smil
section
variable {α : Type} {t : PT}

/-- `maxH`, DMeasures.hpp:956-964. -/
def covMaxH (D : Dims) (dx dy dz : Nat) : Nat :=
  let m := max (max D.w D.h) D.d
  let m := if 0 < dx then min m D.w else m
  let m := if 0 < dy then min m D.h else m
  let m := if 0 < dz then min m D.d else m
  m - 1

/-- The three loops of lines 996-1008 for the displacement `(mx, my, mz)`. `mul` is the product of two pixels as C++ evaluates it, `none` when it is
undefined; a read outside of an image is `none` too. The copy of the line to `bufLine` is left out. -/
def covSum (mul : α → α → Option ℚ) (im1 im2 : Img α) (mx my mz : Nat) : Option ℚ :=
  (List.range (im1.dims.d - mz)).foldlM (fun s z =>
    (List.range (im1.dims.h - my)).foldlM (fun s y =>
      (List.range (im1.dims.w - mx)).foldlM (fun s x =>
        (im1.at? (Img.pt x y z)).bind fun a => (im2.at? (Img.pt (x + mx) (y + my) (z + mz))).bind fun b => (mul a b).map (s + ·)) s) s) 0

/-- The body of the loop over `len`, lines 985-1012. -/
def covAt (mul : α → α → Option ℚ) (im1 im2 : Img α) (dx dy dz len : Nat) : Option ℚ :=
  let mx := min (dx * len) (im1.dims.w - 1)
  let my := min (dy * len) (im1.dims.h - 1)
  let mz := min (dz * len) (im1.dims.d - 1)
  let n := (im1.dims.w - mx) * (im1.dims.h - my) * (im1.dims.d - mz)
  (covSum mul im1 im2 mx my mz).map fun s => if n ≠ 0 then s / (n : ℚ) else s

/-- `genericCovariance`, DMeasures.hpp:940-1023. The result is `none` when the behaviour is undefined, the empty list when the code refuses; an entry is
`none` when it is not a finite number, after the division by `vec[0]` (lines 1014-1018). -/
def genericCovariance (mul : α → α → Option ℚ) (im1 im2 : Img α) (dx dy dz maxSteps : Nat) (normalize : Bool) : Option (List (Option ℚ)) :=
  if im1.dims.count = 0 ∨ im2.dims.count = 0 then some []
  else if im1.dims ≠ im2.dims then some []
  else if ¬ 0 < dx + dy + dz then some []
  else
    let maxH := covMaxH im1.dims dx dy dz
    let steps := min (if maxSteps = 0 then maxH else maxSteps) maxH
    if steps = 0 then some []
    else
      ((List.range (steps + 1)).mapM (covAt mul im1 im2 dx dy dz)).map fun vec =>
        if normalize then
          let orig := vec.headD 0
          vec.map fun v => if orig = 0 then none else some (v / orig)
        else vec.map some

/-- `lineIn1[x] * bufLine[x]` with integer pixels: evaluated as an `int` for types of at most 16 bits. -/
def mulPx (a b : Px t) : Option ℚ := (t.cpp (a.val * b.val)).map fun z => (z : ℚ)

/-- The same with `float` pixels. -/
def mulQ (a b : ℚ) : Option ℚ := some (a * b)

/-- `numeric_limits<float>::min()`, which is what `ImDtTypes<float>::min()` returns (DTypes.hpp:104-107): the smallest positive normal number. -/
def fltMin : ℚ := 1 / 2 ^ 126

/-- `subLine<float>`, DLineArith.hpp:147-157. -/
def subFloat (v m : ℚ) : ℚ := if v < fltMin + m then fltMin else v - m

/-- `imMean1`: the copy as `float`, its mean (`meanVal`, DMeasures.hpp:166-206) and the subtraction, lines 1176-1178. -/
def centreImg (im : Img (Px t)) : Img ℚ :=
  let m : ℚ := ((List.range im.dims.count).map fun i => ((im.buf i).val : ℚ)).sum / im.dims.count
  ⟨im.dims, fun i => subFloat ((im.buf i).val : ℚ) m⟩

/-- `measCovariance`, DMeasures.hpp:1169-1189. The mean of an image that is not allocated is read from an empty vector. -/
def measCovariance (im1 im2 : Img (Px t)) (dx dy dz maxSteps : Nat) (centered normalize : Bool) : Option (List (Option ℚ)) :=
  if centered then
    if im1.dims.count = 0 ∨ im2.dims.count = 0 then none
    else genericCovariance mulQ (centreImg im1) (centreImg im2) dx dy dz maxSteps normalize
  else genericCovariance mulPx im1 im2 dx dy dz maxSteps normalize

/-- `measAutoCovariance`, DMeasures.hpp:1205-1219. -/
def measAutoCovariance (im : Img (Px t)) (dx dy dz maxSteps : Nat) (centered normalize : Bool) : Option (List (Option ℚ)) :=
  if centered then
    if im.dims.count = 0 then none
    else genericCovariance mulQ (centreImg im) (centreImg im) dx dy dz maxSteps normalize
  else genericCovariance mulPx im im dx dy dz maxSteps normalize

end
end Smil
