import Verif.Covariance
import Verif.LineArith

/-!
# The cross correlation of two phases

Addons/Chabardes/include/private/DMeasures.hpp:134-195. The sums are rationals instead of `double`; products `dx * len` do not wrap; the two lines that are
never freed are left out.
-/

namespace Smil
section
variable {t : PT}

/-- The lines that `equLine` writes (DLineArith.hpp:341-356, lines 174-175): the maximum of the type where the pixel has the value, zero elsewhere. -/
def phaseImg (im : Img (Px t)) (v : Px t) : Img (Px t) := ⟨im.dims, fun i => if im.buf i = v then ⊤ else Px.zero⟩

/-- The body of the loop over `len`, lines 162-183. The lengths are `size_t`s: a displacement longer than the image wraps, and then the slices (168-170),
the lines (171-173) or the pixels (174-177) beyond the end are read (`none`), unless an outer loop has no turn. -/
def crossAt (im : Img (Px t)) (v1 v2 : Px t) (dx dy dz len : Nat) : Option ℚ :=
  if im.dims.d < dz * len then none
  else if im.dims.d = dz * len then some 0
  else if im.dims.h < dy * len then none
  else if im.dims.h = dy * len then some 0
  else if im.dims.w < dx * len then none
  else
    let n := (im.dims.w - dx * len) * (im.dims.h - dy * len) * (im.dims.d - dz * len)
    (covSum mulPx (phaseImg im v1) (phaseImg im v2) (dx * len) (dy * len) (dz * len)).map fun s => if n ≠ 0 then s / (n : ℚ) else s

/-- `measCrossCorrelation`; an entry is `none` when it is not a finite number. -/
def measCrossCorrelation (im : Img (Px t)) (v1 v2 : Px t) (dx dy dz maxSteps : Nat) (normalize : Bool) : Option (List (Option ℚ)) :=
  if im.dims.count = 0 then some []
  else
    let steps := if maxSteps = 0 then max (max im.dims.w im.dims.h) im.dims.d - 1 else maxSteps
    ((List.range (steps + 1)).mapM (crossAt im v1 v2 dx dy dz)).map fun vec =>
      if normalize then
        let orig := vec.headD 0
        vec.map fun v => if orig = 0 then none else some (v / orig)
      else vec.map some

end
end Smil
