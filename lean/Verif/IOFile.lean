import Verif.Img
import Mathlib.Logic.Function.Basic
import Mathlib.Data.List.Range

/-!
# Files: bytes, `FILE` and `ifstream` reading, and the image formats

IO/src/DImageIO_BMP.cpp, IO/src/DImageIO_PBM.cpp, IO/src/DImageIO_VTK.cpp,
IO/include/private/DImageIO_RAW.hpp and DImageIO_VTK.hpp. A file is a list of bytes. Opening, closing
and the messages are not modelled; neither is the failure of an allocation.
-/

namespace Smil

/-- The outcome of a reader. `ub`: an access outside a table or image, or another undefined
operation; `unmod`: dimensions that do not fit the `int` variables of the readers, or floating point values,
which the model does not follow; `hang`: the reader does not stop. -/
inductive IORes (α : Type) where
  | ok (a : α)
  | err
  | ub
  | unmod
  | hang
deriving DecidableEq, Repr

/-- Sequencing of readers. -/
def IORes.bind {α β : Type} : IORes α → (α → IORes β) → IORes β
  | .ok a, f => f a
  | .err, _ => .err
  | .ub, _ => .ub
  | .unmod, _ => .unmod
  | .hang, _ => .hang

instance : Monad IORes where
  pure := .ok
  bind := IORes.bind

/-- A checked write in a buffer of `n` elements. -/
def wrAt {α : Type} (n : Nat) (buf : Nat → α) (i : Nat) (v : α) : IORes (Nat → α) :=
  if i < n then .ok (Function.update buf i v) else .ub

/-- A checked read of a table. -/
def rdTab {α : Type} (l : List α) (i : Nat) : IORes α :=
  match l[i]? with
  | some v => .ok v
  | none => .ub

/-- `k` bytes of `n`, the least significant first: an integer as written by `fwrite` on a
little-endian machine. -/
def leBytes (n : Nat) : Nat → List UInt8
  | 0 => []
  | k + 1 => UInt8.ofNat (n % 256) :: leBytes (n / 256) k

/-- The integer of a list of bytes. -/
def leVal : List UInt8 → Nat
  | [] => 0
  | b :: l => b.toNat + 256 * leVal l

/-- `ASSERT(fread(p, n, 1, fp))`: a short read, or `n = 0`, is an error. The remaining bytes. -/
def freadAll (n : Nat) (rest : List UInt8) : IORes (List UInt8 × List UInt8) :=
  if n = 0 ∨ rest.length < n then .err else .ok (rest.take n, rest.drop n)

/-- A field of a header. -/
def field (h : List UInt8) (off len : Nat) : Nat := leVal ((h.drop off).take len)

/-- An assertion that returns an error. -/
def ensure (c : Bool) : IORes Unit := if c then .ok () else .err

/-! ### BMP -/

/-- The fields of a BMP header that the readers use. -/
structure BmpHdr where
  offBits : Nat
  width : Nat
  height : Nat
  bitCount : Nat
  clrUsed : Nat
deriving DecidableEq, Repr

/-- `readBMPHeader`, DImageIO_BMP.cpp:97-114, on packed little-endian structures (lines 56-81). -/
def readBMPHeader (f : List UInt8) : IORes (BmpHdr × List UInt8) := do
  let (fh, f1) ← freadAll 14 f
  ensure (field fh 0 2 = 0x4D42)
  let (ih, f2) ← freadAll 40 f1
  ensure (field ih 16 4 = 0)
  return (⟨field fh 10 4, field ih 4 4, field ih 8 4, field ih 14 2, field ih 32 4⟩, f2)

/-- The color table, DImageIO_BMP.cpp:176-183: four bytes by entry, in the order b, g, r, a. -/
def readLut : Nat → List UInt8 → IORes (List UInt8)
  | 0, _ => .ok []
  | n + 1, b :: g :: r :: _ :: rest => do
      let l ← readLut n rest
      return UInt8.ofNat ((r.toNat + g.toNat + b.toNat) / 3) :: l
  | _ + 1, _ => .err

/-- `scanlineSize`, DImageIO_BMP.cpp:198 and 280. -/
def scanSize (w : Nat) : Nat := if w % 4 = 0 then w else w - w % 4 + 4

/-- One row, DImageIO_BMP.cpp:205-206. -/
def bmpRow (w h : Nat) (lut scan : List UInt8) (j : Nat) (buf : Nat → UInt8) : IORes (Nat → UInt8) :=
  (List.range w).foldlM (fun b i => do
    let s ← rdTab scan i
    let v ← rdTab lut s.toNat
    wrAt (w * h) b (j * w + i) v) buf

/-- The rows, DImageIO_BMP.cpp:201-207. -/
def bmpRows (w h : Nat) (lut : List UInt8) : List Nat → List UInt8 → (Nat → UInt8) → IORes (Nat → UInt8)
  | [], _, buf => .ok buf
  | j :: js, rest, buf => do
      let (scan, rest') ← freadAll (scanSize w) rest
      let buf' ← bmpRow w h lut scan j buf
      bmpRows w h lut js rest' buf'

/-- `BMPImageFileHandler<UINT8>::read`, DImageIO_BMP.cpp:153-213. `init` is the content of the image
after `setSize`. -/
def readBMP8 (f : List UInt8) (init : Nat → UInt8) : IORes (Img UInt8) := do
  let (hd, rest) ← readBMPHeader f
  ensure (hd.bitCount = 8)
  let lut ← readLut hd.clrUsed rest
  if hd.width + 4 ≥ 2 ^ 31 ∨ hd.height ≥ 2 ^ 31 then .unmod
  else
    let buf ← bmpRows hd.width hd.height lut (List.range hd.height).reverse (f.drop hd.offBits) init
    return ⟨⟨hd.width, hd.height, 1⟩, buf⟩

/-- The two headers of a BMP file, DImageIO_BMP.cpp:282-303 and 350-368; `xp` holds the eight bytes
of the fields that the writers do not set, and `si`, `cu`, `ci` the fields `biSizeImage`, `biClrUsed` and
`biClrImportant`. -/
def bmpHeaders (size off w h bits si cu ci : Nat) (xp : List UInt8) : List UInt8 :=
  leBytes 0x4D42 2 ++ leBytes size 4 ++ leBytes 0 2 ++ leBytes 0 2 ++ leBytes off 4 ++
  (leBytes 40 4 ++ leBytes w 4 ++ leBytes h 4 ++ leBytes 1 2 ++ leBytes bits 2 ++ leBytes 0 4 ++
    leBytes si 4 ++ xp ++ leBytes cu 4 ++ leBytes ci 4)

/-- `BMPImageFileHandler<UINT8>::write`, DImageIO_BMP.cpp:262-331: the first slice. `pad j` are the
bytes of padding of row `j`, which the code does not set. -/
def writeBMP8 (im : Img UInt8) (xp : List UInt8) (pad : Nat → List UInt8) : List UInt8 :=
  let w := im.dims.w
  let h := im.dims.h
  bmpHeaders (1078 + scanSize w * h) 1078 w h 8 0 256 256 xp
    ++ (List.range 256).flatMap (fun i => [UInt8.ofNat i, UInt8.ofNat i, UInt8.ofNat i, 0])
    ++ (List.range h).reverse.flatMap (fun j => (List.range w).map (fun i => im.buf (j * w + i)) ++ pad j)

/-- One row of an RGB file, DImageIO_BMP.cpp:249-251; channel `n` of pixel `p` is `buf (3 * p + n)`,
which stands for `arrays[n][i]`. -/
def bmpRowRGB (w h : Nat) (data : List UInt8) (j : Nat) (buf : Nat → UInt8) : IORes (Nat → UInt8) :=
  (List.range w).foldlM (fun b i => (List.range 3).foldlM (fun b n => do
    let v ← rdTab data (3 * i + (2 - n))
    wrAt (3 * (w * h)) b (3 * (j * w + i) + n) v) b) buf

/-- The rows, DImageIO_BMP.cpp:245-252. -/
def bmpRowsRGB (w h : Nat) : List Nat → List UInt8 → (Nat → UInt8) → IORes (Nat → UInt8)
  | [], _, buf => .ok buf
  | j :: js, rest, buf => do
      let (data, rest') ← freadAll (w * 3) rest
      let buf' ← bmpRowRGB w h data j buf
      bmpRowsRGB w h js rest' buf'

/-- `BMPImageFileHandler<RGB>::read`, DImageIO_BMP.cpp:216-259. -/
def readBMPRGB (f : List UInt8) (init : Nat → UInt8) : IORes (Dims × (Nat → UInt8)) := do
  let (hd, _) ← readBMPHeader f
  ensure (hd.bitCount = 24)
  if hd.width * 3 ≥ 2 ^ 31 ∨ hd.height ≥ 2 ^ 31 then .unmod
  else
    let buf ← bmpRowsRGB hd.width hd.height (List.range hd.height).reverse (f.drop hd.offBits) init
    return (⟨hd.width, hd.height, 1⟩, buf)

/-- `BMPImageFileHandler<RGB>::write`, DImageIO_BMP.cpp:334-393, without row padding; the fields `si`,
`cu`, `ci` are not set by the code. -/
def writeBMPRGB (D : Dims) (buf : Nat → UInt8) (si cu ci : Nat) (xp : List UInt8) : List UInt8 :=
  bmpHeaders (D.w * D.h * 3 + 54) 54 D.w D.h 24 si cu ci xp
    ++ (List.range D.h).reverse.flatMap (fun j => (List.range D.w).flatMap (fun i =>
      [buf (3 * (j * D.w + i) + 2), buf (3 * (j * D.w + i) + 1), buf (3 * (j * D.w + i))]))

/-! ### RAW -/

/-- `writeRAW`, DImageIO_RAW.hpp:109-123: the memory of the pixels, each of `sz` bytes. -/
def writeRAW (n : Nat) (buf : Nat → List UInt8) : List UInt8 := (List.range n).flatMap buf

/-- `readRAW`, DImageIO_RAW.hpp:71-96: `fread` of `n` elements of `sz` bytes; those that the file does
not hold keep their content, and reading none is an error. -/
def readRAW (sz n : Nat) (f : List UInt8) (init : Nat → List UInt8) : IORes (Nat → List UInt8) :=
  let got := min n (f.length / sz)
  if sz = 0 ∨ got = 0 then .err
  else .ok fun i => if i < got then (f.drop (sz * i)).take sz else init i

/-! ### Streams -/

/-- An `ifstream`: the file, the position and the state. -/
structure Strm where
  data : List UInt8
  pos : Nat
  eof : Bool
  fail : Bool
deriving DecidableEq, Repr

namespace Strm

/-- A fresh stream. -/
def opened (f : List UInt8) : Strm := ⟨f, 0, false, false⟩

/-- `good()`. -/
def good (s : Strm) : Bool := !s.eof && !s.fail

/-- The bytes not yet read. -/
def rest (s : Strm) : List UInt8 := s.data.drop s.pos

/-- `getline(fp, buf)`: the string (unchanged when the stream is not good) and whether it succeeded. -/
def getline (s : Strm) (buf : List UInt8) : List UInt8 × Bool × Strm :=
  if !s.good then (buf, false, { s with fail := true })
  else
    let line := s.rest.takeWhile (· != 10)
    if line.length < s.rest.length then (line, true, { s with pos := s.pos + line.length + 1 })
    else (line, !line.isEmpty, { s with pos := s.data.length, eof := true, fail := line.isEmpty })

/-- `tellg()`, `none` for -1. -/
def tellg (s : Strm) : Option Nat × Strm :=
  if s.good then (some s.pos, s) else (none, { s with fail := true })

/-- `seekg(p)`, which first clears the end of file. -/
def seekg (s : Strm) (p : Option Nat) : Strm :=
  if s.fail then { s with eof := false }
  else match p with
    | some p => { s with eof := false, pos := p }
    | none => { s with eof := false, fail := true }

/-- `read(p, n)`: the bytes obtained. -/
def read (s : Strm) (n : Nat) : List UInt8 × Strm :=
  if !s.good then ([], { s with fail := true })
  else if n ≤ s.rest.length then (s.rest.take n, { s with pos := s.pos + n })
  else (s.rest, { s with pos := s.data.length, eof := true, fail := true })

end Strm

/-- `isspace`. -/
def isSpaceB (b : UInt8) : Bool := b = 32 || (9 ≤ b && b ≤ 13)
/-- `isdigit`. -/
def isDigitB (b : UInt8) : Bool := 48 ≤ b && b ≤ 57
/-- The value of a sequence of digits. -/
def digitsVal (l : List UInt8) : Nat := l.foldl (fun a b => a * 10 + (b.toNat - 48)) 0

/-- `fp >> v` for an unsigned `v` of maximum `hi`: the value, or the previous one `v0` when nothing is
attempted. Signs are taken as a failure. -/
def Strm.getNat (s : Strm) (hi v0 : Nat) : Nat × Strm :=
  if !s.good then (v0, { s with fail := true })
  else
    let ws := s.rest.takeWhile isSpaceB
    let r := s.rest.dropWhile isSpaceB
    if r.isEmpty then (v0, { s with pos := s.data.length, eof := true, fail := true })
    else
      let ds := r.takeWhile isDigitB
      let s' := { s with pos := s.pos + ws.length + ds.length, eof := ds.length = r.length }
      if ds.isEmpty then (0, { s' with fail := true })
      else if digitsVal ds > hi then (hi, { s' with fail := true })
      else (digitsVal ds, s')

/-- `atoi` of a string (digits after spaces; no sign). -/
def atoiB (l : List UInt8) : Nat := digitsVal ((l.dropWhile isSpaceB).takeWhile isDigitB)

/-- The decimal digits of a number, as printed by `<<`. -/
def decB (n : Nat) : List UInt8 :=
  if n < 10 then [UInt8.ofNat (48 + n)] else decB (n / 10) ++ [UInt8.ofNat (48 + n % 10)]

/-! ### PGM -/

/-- The information of `readNetPBMFileInfo`. -/
structure PbmInfo where
  gray : Bool
  binary : Bool
  width : Nat
  height : Nat
  maxval : Nat
deriving DecidableEq, Repr

/-- The loop on comments, DImageIO_PBM.cpp:94-98: `buf` is the string. Once the stream is not good the
string does not change any more, so that the loop does not stop on a comment. -/
def skipComments : Nat → Strm → List UInt8 → IORes (Option Nat × Strm)
  | 0, _, _ => .hang
  | fuel + 1, s, buf =>
      let (cur, s1) := s.tellg
      let (buf', _, s2) := s1.getline buf
      if buf'.head? = some 35 then skipComments fuel s2 buf' else .ok (cur, s2)

/-- `readNetPBMFileInfo`, DImageIO_PBM.cpp:40-115; `mv` is the previous content of `maxval`. Types 1
and 4 are binary images, 3 and 6 colour ones. The bound on the loop is the number of lines plus two
(`skipComments_hang`). -/
def readPbmInfo (s : Strm) (mv : Nat) : IORes (PbmInfo × Strm) :=
  let (buf, _, s1) := s.getline []
  if buf.head? ≠ some 80 ∧ buf.head? ≠ some 112 then .err
  else
    let ty := atoiB (buf.drop 1)
    if ty = 0 ∨ 6 < ty then .err
    else do
      let (cur, s2) ← skipComments (s.data.length + 2) s1 buf
      let s3 := s2.seekg cur
      let (w, s4) := s3.getNat (2 ^ 64 - 1) 0
      let (h, s5) := s4.getNat (2 ^ 64 - 1) 0
      let (m, s6) := if ty = 1 ∨ ty = 4 then (mv, s5) else s5.getNat (2 ^ 32 - 1) mv
      -- seekg(1, cur)
      let s7 := if s6.fail then { s6 with eof := false } else { s6 with eof := false, pos := s6.pos + 1 }
      return (⟨ty = 2 ∨ ty = 5, 4 ≤ ty, w, h, m⟩, s7)

/-- A write of the four bytes of an `int` at byte `i`. -/
def wrInt (n : Nat) (buf : Nat → UInt8) (i : Nat) (v : Nat) : IORes (Nat → UInt8) :=
  (List.range 4).foldlM (fun b k => wrAt n b (i + k) (UInt8.ofNat (v / 256 ^ k))) buf

/-- The values of an ASCII file, DImageIO_PBM.cpp:163-167: every pixel is written as an `int`. A zero
`maxval` is a division by zero. The products modulo `2^32` are taken as they are. -/
def pgmAscii (n m : Nat) : List Nat → Strm → (Nat → UInt8) → IORes (Nat → UInt8)
  | [], _, buf => .ok buf
  | i :: is, s, buf =>
      let (px, s') := s.getNat (2 ^ 31 - 1) 0
      if m = 0 then .ub
      else do
        let buf' ← wrInt n buf i (px * 255 / m)
        pgmAscii n m is s' buf'

/-- `PGMImageFileHandler<UINT8>::read`, DImageIO_PBM.cpp:134-173; `mv` is the uninitialised
`maxval`. -/
def readPGM (f : List UInt8) (mv : Nat) (init : Nat → UInt8) : IORes (Img UInt8) := do
  let (inf, s) ← readPbmInfo (Strm.opened f) mv
  ensure inf.gray
  if inf.width ≥ 2 ^ 31 ∨ inf.height ≥ 2 ^ 31 ∨ inf.width * inf.height ≥ 2 ^ 31 then .unmod
  else if inf.binary then
    let got := (s.read (inf.width * inf.height)).1
    let buf ← (List.range got.length).foldlM (fun b i => do
      let v ← rdTab got i
      wrAt (inf.width * inf.height) b i v) init
    return ⟨⟨inf.width, inf.height, 1⟩, buf⟩
  else do
    let buf ← pgmAscii (inf.width * inf.height) inf.maxval (List.range (inf.width * inf.height)) s init
    return ⟨⟨inf.width, inf.height, 1⟩, buf⟩

/-- `PGMImageFileHandler<UINT8>::write`, DImageIO_PBM.cpp:176-199: the first slice. -/
def writePGM (im : Img UInt8) (fname : List UInt8) : List UInt8 :=
  [80, 53, 10] ++ [35, 32] ++ fname ++ [10] ++ decB im.dims.w ++ [32] ++ decB im.dims.h ++ [10]
    ++ [50, 53, 53, 10] ++ (List.range (im.dims.w * im.dims.h)).map im.buf

/-! ### VTK -/

/-- `toupper`. -/
def upperB (b : UInt8) : UInt8 := if 97 ≤ b ∧ b ≤ 122 then b - 32 else b

/-- The loop of `splitStr`; `acc` holds the bytes of the current word, the last first. -/
def splitAux : List UInt8 → List UInt8 → List (List UInt8)
  | acc, [] => if acc.isEmpty then [] else [acc.reverse]
  | acc, b :: l => if b = 32 then acc.reverse :: splitAux [] l else splitAux (b :: acc) l

/-- `splitStr(s, ' ', elems)`, DImageIO_VTK.cpp:36-47: an empty word after the last delimiter is not
kept. -/
def splitB (l : List UInt8) : List (List UInt8) := splitAux [] l

/-- A string of the source as bytes. -/
def strB (s : String) : List UInt8 := s.toList.map fun c => UInt8.ofNat c.toNat

/-- The scalar types of a VTK header. -/
inductive VtkTy | u8 | u16 | i16 | unknown
deriving DecidableEq, Repr

/-- `VTKHeader`, DImageIO_VTK.hpp:50-65, the fields used; `coeff` for `scalarCoeff`. -/
structure VtkHdr where
  width : Nat := 0
  height : Nat := 0
  depth : Nat := 0
  ty : VtkTy := .u8
  coeff : Nat := 0
  binary : Bool := false
  startPos : Option Nat := some 0
deriving DecidableEq, Repr

/-- `hStruct.scalarType`, DImageIO_VTK.cpp:99-107. -/
def vtkTyOf (w : List UInt8) : VtkTy :=
  if w = strB "UNSIGNED_CHAR" then .u8
  else if w = strB "UNSIGNED_SHORT" then .u16
  else if w = strB "SHORT" then .i16
  else .unknown

/-- One line of the header after the test for the end, DImageIO_VTK.cpp:76-112; an access `bufElems[k]`
beyond the words of the line is undefined. -/
def vtkLine (wrd : List UInt8) (ws : List (List UInt8)) (hd : VtkHdr) : IORes VtkHdr :=
  if wrd = strB "DATASET" then do
    let a ← rdTab ws 1
    ensure (a = strB "STRUCTURED_POINTS")
    return hd
  else if wrd = strB "ASCII" then .ok { hd with binary := false }
  else if wrd = strB "BINARY" then .ok { hd with binary := true }
  else if wrd = strB "DIMENSIONS" then do
    let a ← rdTab ws 1
    let b ← rdTab ws 2
    let c ← rdTab ws 3
    return { hd with width := atoiB a, height := atoiB b, depth := atoiB c }
  else if wrd = strB "POINT_DATA" then do
    let _ ← rdTab ws 1
    return hd
  else if wrd = strB "SCALARS" then do
    let a ← rdTab ws 2
    return { hd with ty := vtkTyOf a }
  else if wrd = strB "COLOR_SCALARS" then do
    let a ← rdTab ws 2
    return { hd with coeff := atoiB a }
  else .ok hd

/-- Does a line with this first byte end the header? DImageIO_VTK.cpp:66-72; the byte is in upper
case, and bytes from 128 are not alphanumeric. -/
def vtkEnds (fc : UInt8) : Bool := isDigitB fc || fc = 45 || (!(65 ≤ fc && fc ≤ 90) && fc != 35)

/-- `readVTKHeader`, DImageIO_VTK.cpp:49-116. Every turn consumes a byte, so that the bound on the number
of turns is not reached. -/
def vtkHeader : Nat → Strm → VtkHdr → IORes (VtkHdr × Strm)
  | 0, _, _ => .hang
  | fuel + 1, s, hd =>
      let (line, okay, s1) := s.getline []
      if !okay then .ok (hd, s1)
      else
        match splitB (line.map upperB) with
        | [] => .ub
        | wrd :: ws =>
            if vtkEnds (wrd.headD 0) then .ok (hd, s1)
            else do
              let (p, s2) := s1.tellg
              let hd' ← vtkLine wrd (wrd :: ws) { hd with startPos := p }
              vtkHeader fuel s2 hd'

/-- The lines of a volume in the order of the file: `z` from 0, `y` from the last. -/
def vtkRows (D : Dims) : List Nat :=
  (List.range D.d).flatMap fun z => (List.range D.h).reverse.map fun y => z * D.h + y

/-- A row read as one block, DImageIO_VTK.hpp:202: the bytes that the file holds. -/
def vtkRowRaw (n sz w l : Nat) (got : List UInt8) (buf : Nat → List UInt8) : IORes (Nat → List UInt8) :=
  (List.range w).foldlM (fun b i =>
    let c := (got.drop (sz * i)).take sz
    wrAt n b (l * w + i) (c ++ (b (l * w + i)).drop c.length)) buf

/-- A row read pixel by pixel with exchange of the bytes, DImageIO_VTK.hpp:204-209; `val` is the variable
of the code, which keeps its content at the end of the file. -/
def vtkRowSwap (n sz w l : Nat) (s : Strm) (val : List UInt8) (buf : Nat → List UInt8) :
    IORes ((Nat → List UInt8) × Strm) := do
  let (b, s, _) ← (List.range w).foldlM (fun (st : (Nat → List UInt8) × Strm × List UInt8) i => do
    let (got, s') := st.2.1.read sz
    let v := (got ++ st.2.2.drop got.length).reverse
    let b' ← wrAt n st.1 (l * w + i) v
    return (b', s', v)) (buf, s, val)
  return (b, s)

/-- The rows of a binary file, DImageIO_VTK.hpp:196-212. -/
def vtkBody (swap : Bool) (n sz w : Nat) (val : List UInt8) :
    List Nat → Strm → (Nat → List UInt8) → IORes (Nat → List UInt8)
  | [], _, buf => .ok buf
  | l :: ls, s, buf =>
      if swap then do
        let (buf', s') ← vtkRowSwap n sz w l s val buf
        vtkBody swap n sz w val ls s' buf'
      else do
        let (got, s') := s.read (sz * w)
        let buf' ← vtkRowRaw n sz w l got buf
        vtkBody swap n sz w val ls s' buf'

/-- `VTKImageFileHandler<T>::read`, DImageIO_VTK.hpp:121-220, for a pixel type of `sz` bytes; `ty` is
`unknown` for the types other than the three tested at lines 154-159. In an ASCII file the coefficient is a
division by `scalarCoeff`; when it is 0 the conversion of the result to `T` is undefined. -/
def readVTK (ty : VtkTy) (sz : Nat) (little : Bool) (f : List UInt8) (val : List UInt8)
    (init : Nat → List UInt8) : IORes (Dims × (Nat → List UInt8)) := do
  let (hd, s) ← vtkHeader (f.length + 2) (Strm.opened f) {}
  let sty := if hd.ty = .unknown then .u8 else hd.ty
  ensure (ty = .unknown ∨ ty = sty)
  if hd.width ≥ 2 ^ 31 ∨ hd.height ≥ 2 ^ 31 ∨ hd.depth ≥ 2 ^ 31 then .unmod
  else
    let D : Dims := ⟨hd.width, hd.height, hd.depth⟩
    if !hd.binary then
      if hd.coeff = 0 ∧ 0 < D.count then .ub else .unmod
    else
      let buf ← vtkBody (!(little || sz = 1)) D.count sz D.w val (vtkRows D) (s.seekg hd.startPos) init
      return (D, buf)

/-- The name of the type written by `write`, DImageIO_VTK.hpp:246-249. -/
def vtkTyName : VtkTy → List UInt8
  | .u8 => strB "unsigned_char"
  | .u16 => strB "unsigned_short"
  | _ => []

/-- The lines of the header, DImageIO_VTK.hpp:237-253. -/
def vtkHeaderLines (ty : VtkTy) (D : Dims) : List (List UInt8) :=
  [strB "# vtk DataFile Version 3.0", strB "vtk output", strB "BINARY", strB "DATASET STRUCTURED_POINTS",
    strB "DIMENSIONS " ++ decB D.w ++ [32] ++ decB D.h ++ [32] ++ decB D.d,
    strB "SPACING 1.0 1.0 1.0", strB "ORIGIN 0 0 0", strB "POINT_DATA " ++ decB (D.w * D.h * D.d),
    strB "SCALARS scalars " ++ vtkTyName ty, strB "LOOKUP_TABLE default"]

/-- `VTKImageFileHandler<T>::write`, DImageIO_VTK.hpp:221-287. -/
def writeVTK (ty : VtkTy) (sz : Nat) (little : Bool) (D : Dims) (buf : Nat → List UInt8) : List UInt8 :=
  (vtkHeaderLines ty D).flatMap (· ++ [10]) ++
    (vtkRows D).flatMap fun l => (List.range D.w).flatMap fun i =>
      if little || sz = 1 then buf (l * D.w + i) else (buf (l * D.w + i)).reverse

end Smil
