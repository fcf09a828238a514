import Verif.IOFile
import Verif.LineArith

/-! # Bitmaps

IO/include/private/DImageIO_PBM.hpp:96-146, `PBMImageFileHandler<T>::read`; there is no writer (lines 147-150
call the one of the base class, which returns an error). -/

namespace Smil

variable {t : PT}

/-- `pbmFileType`, DImageIO_PBM.cpp:44-53: the number after the first character of the first line. -/
def pbmType (f : List UInt8) : Nat := atoiB (((Strm.opened f).getline []).1.drop 1)

/-- The test `((val >> k) % 2) == 0`, DImageIO_PBM.hpp:131, for a signed `char`: the shift rounds down, the
remainder has the sign of the number. -/
def pbmZero (v : UInt8) (k : Nat) : Bool :=
  let s : Int := if v.toNat < 128 then v.toNat else (v.toNat : Int) - 256
  (s / 2 ^ k).tmod 2 = 0

/-- The value of a pixel, DImageIO_PBM.hpp:131 and 140: `T(0)` or the maximum. -/
def pbmPx (z : Bool) : Px t := if z then Px.zero else ⊤

/-- The state of the loops: the stream, `val`, which has no value before the first byte is read, and the
pixels. -/
structure PbmSt (t : PT) where
  s : Strm
  val : Option UInt8
  buf : Nat → Px t

/-- `if (i % 8 == 0) fp.read(&val, 1)`, DImageIO_PBM.hpp:127-128; at the end of the file `val` keeps its
content. -/
def pbmByte (st : PbmSt t) (i : Nat) : PbmSt t :=
  if i % 8 = 0 then { st with s := (st.s.read 1).2, val := (st.s.read 1).1.head? <|> st.val } else st

/-- The body of the loops, DImageIO_PBM.hpp:127-131. A `val` without a value is read at once: undefined. -/
def pbmStep (w h j : Nat) (st : PbmSt t) (i : Nat) : IORes (PbmSt t) :=
  match (pbmByte st i).val with
  | none => .ub
  | some v =>
      (wrAt (w * h) st.buf (j * w + i) (pbmPx (pbmZero v (7 - i % 8)))).bind fun b =>
        .ok { pbmByte st i with buf := b }

/-- A row. -/
def pbmRow (w h : Nat) (st : PbmSt t) (j : Nat) : IORes (PbmSt t) := (List.range w).foldlM (pbmStep w h j) st

/-- The values of an ASCII file, DImageIO_PBM.hpp:137-141; `val` is an `int` (without a sign here, see
`getNat`), which keeps its content at the end of the file. -/
def pbmAscii (n : Nat) : List Nat → Strm → Option Nat → (Nat → Px t) → IORes (Nat → Px t)
  | [], _, _, buf => .ok buf
  | i :: is, s, val, buf =>
      let r := s.getNat (2 ^ 31 - 1) (val.getD 0)
      if val.isNone && s.good && (s.rest.dropWhile isSpaceB).isEmpty || val.isNone && !s.good then .ub
      else (wrAt n buf i (pbmPx (r.1 = 0))).bind fun b => pbmAscii n is r.2 (some r.1) b

/-- `PBMImageFileHandler<T>::read`, DImageIO_PBM.hpp:96-146. -/
def readPBM (f : List UInt8) (init : Nat → Px t) : IORes (Img (Px t)) := do
  let (inf, s) ← readPbmInfo (Strm.opened f) 0
  ensure (pbmType f = 1 ∨ pbmType f = 4)
  if inf.width * inf.height ≥ 2 ^ 64 then .unmod
  else if inf.binary then
    let st ← (List.range inf.height).foldlM (pbmRow inf.width inf.height) ⟨s, none, init⟩
    return ⟨⟨inf.width, inf.height, 1⟩, st.buf⟩
  else do
    let buf ← pbmAscii (inf.width * inf.height) (List.range (inf.width * inf.height)) s none init
    return ⟨⟨inf.width, inf.height, 1⟩, buf⟩

end Smil
