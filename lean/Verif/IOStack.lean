import Verif.IOFile
import Verif.Pbm
import Verif.Transform

/-!
# Choice of a file format and stacks of files

IO/src/DCommonIO.cpp:119-126, IO/include/private/DImageIO.hxx:64-208, for `Image<UINT8>`, without Curl. A name is a list of bytes. Several names may lead to the same file. The
libraries behind PNG, JPEG and TIFF files are parameters.
-/

namespace Smil

/-- An `ImageFileHandler<UINT8>`: `read` on the bytes of a file (the second argument is the content of the image after `setSize`) and the bytes that `write` gives for an image and a file
name, `none` when it is not implemented (DImageIO.hpp:64-79, then no file is opened). -/
structure Codec where
  read : List UInt8 → (Nat → UInt8) → IORes (Img UInt8)
  write : Img UInt8 → List UInt8 → Option (List UInt8)

/-- The machine: the file each name leads to, whether it can be opened for writing, the content of a fresh image at the `k`-th call of `read`, the bytes that the BMP writer leaves unset, the
unset `maxval` of the PGM reader, the byte order, and the libraries that are built in, by extension. -/
structure FsEnv where
  file : List UInt8 → Nat
  canWrite : List UInt8 → Bool
  raw : Nat → Nat → UInt8
  xp : List UInt8
  pad : Nat → Nat → List UInt8
  mv : Nat
  little : Bool
  lib : List UInt8 → Option Codec

/-- The content of the files. -/
abbrev FsSt := Nat → Option (List UInt8)

/-- `getFileExtension`, DCommonIO.cpp:119-126: `rfind('.')`, then what follows in upper case; without a dot `npos + 1 = 0`. -/
def fileExt (n : List UInt8) : List UInt8 := (n.drop (n.length - n.reverse.idxOf 46)).map upperB

/-- `BMPImageFileHandler<UINT8>`. -/
def bmpCodec (F : FsEnv) : Codec := ⟨readBMP8, fun im _ => some (writeBMP8 im F.xp (F.pad im.dims.w))⟩
/-- `PGMImageFileHandler<UINT8>`. -/
def pgmCodec (F : FsEnv) : Codec := ⟨fun f => readPGM f F.mv, fun im n => some (writePGM im n)⟩
/-- `PBMImageFileHandler<UINT8>`, which does not write. -/
def pbmCodec : Codec := ⟨fun f init => (readPBM (t := UINT8) f fun i => UINT8.wrap (init i).toNat).bind fun r =>
  .ok ⟨r.dims, fun i => UInt8.ofNat (r.buf i).val.toNat⟩, fun _ _ => none⟩
/-- `VTKImageFileHandler<UINT8>`. -/
def vtkCodec (F : FsEnv) : Codec := ⟨fun f init => (readVTK .u8 1 F.little f [0] fun i => [init i]).bind fun r =>
  .ok ⟨r.1, fun i => (r.2 i).headD 0⟩, fun im _ => some (writeVTK .u8 1 F.little im.dims fun i => [im.buf i])⟩

/-- The extensions of the libraries, DImageIO.hxx:73-86. -/
def libExts : List (List UInt8) := [strB "PNG", strB "JPG", strB "JPEG", strB "TIF", strB "TIFF"]

/-- `getHandlerForFile<UINT8>`, DImageIO.hxx:65-100. -/
def handlerFor (F : FsEnv) (n : List UInt8) : Option Codec :=
  if fileExt n = strB "BMP" then some (bmpCodec F)
  else if fileExt n ∈ libExts then F.lib (fileExt n)
  else if fileExt n = strB "VTK" then some (vtkCodec F)
  else if fileExt n = strB "PGM" then some (pgmCodec F)
  else if fileExt n = strB "PBM" then some pbmCodec
  else none

/-- `read(filename, image)`, DImageIO.hxx:107-147; `k` is the number of the call. `file://` is removed as long as it is there: the number of turns is bounded by the length of the name. -/
def readTurns (F : FsEnv) (fs : FsSt) (k : Nat) : Nat → List UInt8 → IORes (Img UInt8)
  | 0, _ => .hang
  | f + 1, n =>
    if (strB "http://").isPrefixOf n || (strB "https://").isPrefixOf n then .err
    else if (strB "file://").isPrefixOf n then readTurns F fs k f (n.drop 7)
    else match handlerFor F n with
      | none => .err
      | some c => match fs (F.file n) with
        | none => .err
        | some b => c.read b (F.raw k)

/-- `read(filename, image)`. -/
def readName (F : FsEnv) (fs : FsSt) (k : Nat) (n : List UInt8) : IORes (Img UInt8) := readTurns F fs k (n.length + 1) n

/-- `copy(tmpIm, 0, 0, 0, image, 0, 0, z)` inside an `ASSERT`, DImageIO.hxx:168, 174. -/
def putSlice (t im : Img UInt8) (z : Nat) : IORes (Img UInt8) :=
  match copyWin id t ⟨0, 0, 0⟩ t.dims im ⟨0, 0, z⟩ with
  | none => .ub
  | some (c, o) => if c = 1 then .ok o else .err

/-- The body of the loop, DImageIO.hxx:172-177. -/
def readStep (F : FsEnv) (fs : FsSt) (im : Img UInt8) (p : List UInt8 × Nat) : IORes (Img UInt8) :=
  (readName F fs p.2 p.1).bind fun t => putSlice t im p.2

/-- `read(fileList, image)`, DImageIO.hxx:153-180. -/
def readList (F : FsEnv) (fs : FsSt) : List (List UInt8) → IORes (Img UInt8)
  | [] => .err
  | n :: ns =>
    (readName F fs 0 n).bind fun t =>
    (putSlice t ⟨⟨t.dims.w, t.dims.h, ns.length + 1⟩, fun _ => 0⟩ 0).bind fun im => (ns.zipIdx 1).foldlM (readStep F fs) im

/-- `write(image, filename)`, DImageIO.hxx:186-196. The `Bool` is `RES_OK`. -/
def writeName (F : FsEnv) (fs : FsSt) (im : Img UInt8) (n : List UInt8) : Bool × FsSt :=
  match handlerFor F n with
  | none => (false, fs)
  | some c => match c.write im n with
    | none => (false, fs)
    | some b => if F.canWrite n then (true, Function.update fs (F.file n) (some b)) else (false, fs)

/-- The loop over the slices, DImageIO.hxx:214-217, from slice `z`; `none`: outside of an image. -/
def writeFrom (F : FsEnv) (im : Img UInt8) : List (List UInt8) → Nat → FsSt → Option (Bool × FsSt)
  | [], _, fs => some (true, fs)
  | n :: ns, z, fs =>
    match copyWin id im ⟨0, 0, z⟩ im.dims ⟨⟨im.dims.w, im.dims.h, 1⟩, F.raw z⟩ ⟨0, 0, 0⟩ with
    | none => none
    | some (c, s) =>
      if c = 1 then match writeName F fs s n with
        | (true, fs') => writeFrom F im ns (z + 1) fs'
        | (false, fs') => some (false, fs')
      else some (false, fs)

/-- `write(image, fileList)`, DImageIO.hxx:202-220; the number of names is kept in a `UINT`. -/
def writeList (F : FsEnv) (fs : FsSt) (im : Img UInt8) (names : List (List UInt8)) : Option (Bool × FsSt) :=
  if names.length % 2 ^ 32 ≠ im.dims.d then some (false, fs)
  else writeFrom F im (names.take (names.length % 2 ^ 32)) 0 fs

end Smil
