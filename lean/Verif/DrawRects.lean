import Verif.Draw
import Verif.BlobVals

/-! # Drawing the rectangles of a map -/

namespace Smil

variable {α κ : Type}

/-- The rectangle of one entry of the map, DImageDraw.hpp:209-213: the four first elements of the vector are read
without a test (`none` beyond its end); the differences are `size_t`s. The coordinates are those of `int`s. -/
def drawRectEntry (val : α) (c : List Nat) (fill : Bool) (im : Img α) : Option (Except Int (Img α)) :=
  c[(0 : Nat)]?.bind fun x0 => c[(1 : Nat)]?.bind fun y0 => c[(2 : Nat)]?.bind fun x1 => c[(3 : Nat)]?.bind fun y1 =>
    orRes (drawRectangle im x0 y0 (sizeT ((x1 : Int) - x0 + 1)) (sizeT ((y1 : Int) - y0 + 1)) val fill 0)

/-- `drawRectangles`, DImageDraw.hpp:196-218; `cv` is the conversion `T(it->first)`. The map is the list of its
entries in the order of the keys; the first entry is read before the loop, which is undefined for an empty map. -/
def drawRectangles (cv : κ → α) (im : Img α) (m : List (κ × List Nat)) (fill : Bool) : Option (Except Int (Img α)) :=
  if im.alloc = false then some (.error errBadAllocation)
  else match m with
    | [] => none
    | e :: _ =>
      if e.2.length ≠ 4 then some (.error errRes)
      else m.foldl (fun r e => seqRes r (drawRectEntry (cv e.1) e.2 fill)) (some (.ok im))

end Smil
