import Verif.Measures
import Verif.Label

/-!
# Blobs

Base/include/private/DBlob.hpp, the blob part of DBaseMeasureOperations.hpp, DBlobMeasures.hpp and
`areaThreshold` of DBlobOperations.hpp.
-/

namespace Smil

/-- `PixelSequence`, DBlob.hpp:64-76. -/
structure PixSeq where
  offset : Nat
  size : Nat
deriving DecidableEq, Repr

/-- `map<T, Blob>`: the entries in the order of the keys; a `Blob` is its vector of sequences
(DBlob.hpp:83-89). -/
abbrev BlobMap (κ : Type) := List (κ × List PixSeq)

section
variable {κ : Type} [LinearOrder κ]

/-- `blobs[k].sequences.push_back(s)`: `operator[]` creates the entry if it is absent. -/
def blobPush (k : κ) (s : PixSeq) : BlobMap κ → BlobMap κ
  | [] => [(k, [s])]
  | (a, l) :: m =>
    if k < a then (k, [s]) :: (a, l) :: m
    else if k = a then (a, l ++ [s]) :: m
    else (a, l) :: blobPush k s m

/-- `curSize`, `curStart`, `curVal` and `blobs`. -/
structure BlobSt (κ : Type) where
  size : Nat
  start : Nat
  val : κ
  blobs : BlobMap κ

/-- `if (curVal != 0 || !onlyNonZero) blobs[curVal].sequences.push_back(...)`, DBlob.hpp:125-126
and 132-133. -/
def blobFlush (zero : κ) (onlyNZ : Bool) (st : BlobSt κ) : BlobMap κ :=
  if st.val ≠ zero ∨ onlyNZ = false then blobPush st.val ⟨st.start, st.size⟩ st.blobs else st.blobs

/-- The body of the loop over the pixels of a line, DBlob.hpp:121-131; `base` is `l * npix`. -/
def blobPixel (zero : κ) (onlyNZ : Bool) (ln : Nat → κ) (base : Nat) (st : BlobSt κ) (i : Nat) :
    BlobSt κ :=
  if ln i = st.val then ⟨st.size + 1, st.start, st.val, st.blobs⟩
  else ⟨1, i + base, ln i, blobFlush zero onlyNZ st⟩

/-- A line, DBlob.hpp:112-134. -/
def blobLine (zero : κ) (onlyNZ : Bool) (npix : Nat) (buf : Nat → κ) (m : BlobMap κ) (l : Nat) :
    BlobMap κ :=
  let ln := fun i => buf (l * npix + i)
  let st : BlobSt κ := ⟨if ln 0 ≠ zero ∨ onlyNZ = false then 1 else 0, l * npix, ln 0, m⟩
  blobFlush zero onlyNZ ((List.range' 1 (npix - 1)).foldl (blobPixel zero onlyNZ ln (l * npix)) st)

/-- `computeBlobs`, DBlob.hpp:98-137; `zero` is the value `0` of the pixel type, `lines[l]` is
`pixels + l * width`. An image that is not allocated gives the empty map. -/
def computeBlobs (zero : κ) (onlyNZ : Bool) (im : Img κ) : BlobMap κ :=
  if im.dims.count = 0 then []
  else (List.range (im.dims.d * im.dims.h)).foldl (blobLine zero onlyNZ im.dims.w im.buf) []

end

/-! ### Drawing -/

section
variable {κ β : Type}

/-- `line[i] = outVal` in a buffer of `n` pixels; `none`: outside the buffer. -/
def blobWrite (n : Nat) (v : β) (f : Nat → β) (i : Nat) : Option (Nat → β) :=
  if i < n then some (Function.update f i v) else none

/-- The loop over the sequences of a blob, DBlob.hpp:176-180 and 232-236. -/
def drawSeqs (n : Nat) (v : β) (l : List PixSeq) (f : Nat → β) : Option (Nat → β) :=
  l.foldlM (fun f s => (List.range s.size).foldlM (fun f i => blobWrite n v f (s.offset + i)) f) f

/-- The body of the loop over the blobs, DBlob.hpp:163-181 and 219-237: only the last sequence is
compared with the number of pixels. `none`: a blob without sequences, whose `rbegin()` is
dereferenced, or a write outside the buffer. -/
def drawStep (n : Nat) (val : κ → β) (s : Bool × (Nat → β)) (b : κ × List PixSeq) :
    Option (Bool × (Nat → β)) :=
  match b.2.getLast? with
  | none => none
  | some q =>
    if q.offset + q.size ≥ n then some (false, s.2)
    else (drawSeqs n (val b.1) b.2 s.2).map fun f => (s.1, f)

/-- The common part of the two `drawBlobs`; `val k` is the value given to the blob of label `k`. The
result is the code returned and the image. -/
def drawWith (val : κ → β) (fillFirst : Bool) (dflt : β) (out : Img β) (m : BlobMap κ) :
    Option (Int × Img β) :=
  if out.dims.count = 0 then some (errBadAllocation, out)
  else
    (m.foldlM (drawStep out.dims.count val) (true, if fillFirst then fun _ => dflt else out.buf)).map
      fun s => (if s.1 then 1 else -100, ⟨out.dims, s.2⟩)

/-- `drawBlobs(blobs, imOut, blobsValue, fillFirst, defaultValue)`, DBlob.hpp:151-188; `conv` is the
conversion of the label type to the pixel type. -/
def drawBlobs [DecidableEq β] (conv : κ → β) (blobsValue : β) (fillFirst : Bool) (dflt : β)
    (out : Img β) (m : BlobMap κ) : Option (Int × Img β) :=
  drawWith (fun k => if blobsValue ≠ dflt then blobsValue else conv k) fillFirst dflt out m

/-- `drawBlobs(blobs, lut, imOut, fillFirst, defaultValue)`, DBlob.hpp:201-244; the lookup map is the
partial function `lut`. -/
def drawBlobsLut (lut : κ → Option β) (fillFirst : Bool) (dflt : β) (out : Img β) (m : BlobMap κ) :
    Option (Int × Img β) :=
  drawWith (fun k => (lut k).getD dflt) fillFirst dflt out m

end

/-! ### Measures -/

section
variable {κ σ α : Type}

/-- `processSequence(pixels + offset, size)` of a functor that reads all the pixels of the sequence:
`none` when some are outside the `n` pixels of the buffer. -/
def blobSeq (F : MeasFn σ α) (n : Nat) (buf : Nat → α) (s : σ) (q : PixSeq) : Option σ :=
  if q.offset + q.size ≤ n then some (F.seq s (seqOf buf q.offset q.size)) else none

/-- `processImage(imIn, blob)`, DBaseMeasureOperations.hpp:131-144, on an allocated image. -/
def measBlob (F : MeasFn σ α) (im : Img α) (l : List PixSeq) : Option σ :=
  l.foldlM (blobSeq F im.dims.count im.buf) F.init

/-- `processBlobMeasure(imIn, blobs)`, DBaseMeasureOperations.hpp:240-285. The iterations of the
parallel loop write distinct cells of `results` and only read the rest, so their order is immaterial;
`res[keys[i]] = results[i]` with the keys in increasing order lists the results in the order of the
keys. -/
def blobMeasure (F : MeasFn σ α) (im : Img α) (m : BlobMap κ) : Option (List (κ × σ)) :=
  if im.dims.count = 0 then some []
  else m.mapM fun b => (measBlob F im b.2).map fun s => (b.1, s)

/-- `MeasureFunctionWithPos::processImage(imIn, blob)`, DBaseMeasureOperations.hpp:213-230:
`getCoordsFromOffset` of the first pixel of the sequence. -/
def posBlobSeq (F : MeasPos σ α) (D : Dims) (buf : Nat → α) (s : σ) (q : PixSeq) : Option σ :=
  if q.offset + q.size ≤ D.count then
    some (F.seq s (seqOf buf q.offset q.size) (q.offset % D.w) (q.offset % (D.w * D.h) / D.w)
      (q.offset / (D.w * D.h)))
  else none

/-- The loop over the sequences. -/
def posMeasBlob (F : MeasPos σ α) (im : Img α) (l : List PixSeq) : Option σ :=
  l.foldlM (posBlobSeq F im.dims im.buf) F.init

/-- `processBlobMeasure` with a functor that uses the coordinates. -/
def posBlobMeasure (F : MeasPos σ α) (im : Img α) (m : BlobMap κ) : Option (List (κ × σ)) :=
  if im.dims.count = 0 then some []
  else m.mapM fun b => (posMeasBlob F im b.2).map fun s => (b.1, s)

/-- `measAreaFunc` on a blob, DMeasures.hpp:56-64: only the sizes are used, nothing is read. -/
def blobArea (l : List PixSeq) : Nat := l.foldl (fun s q => s + q.size) 0

/-- `blobsArea(blobs)`, DBlobMeasures.hpp:73-79, through an image of one pixel that is never read. -/
def blobsArea (m : BlobMap κ) : List (κ × Nat) := m.map fun b => (b.1, blobArea b.2)

end

/-! ### Area threshold -/

section
variable {t u : PT}

/-- The condition of DBlobOperations.hpp:94: the blob is left out. -/
def areaOut (thr : Int) (gt : Bool) (area : Nat) : Bool :=
  (gt && decide ((area : Int) < thr)) || (!gt && decide ((area : Int) > thr))

/-- The loop filling `lut`, DBlobOperations.hpp:91-105: one entry per blob, in the order of the
keys. -/
def areaLut (bin : Bool) (thr : Int) (gt : Bool) (areas : List (Px u × Nat)) : List (Px u × Px u) :=
  areas.map fun e => (e.1, if areaOut thr gt e.2 then u.wrap 0 else if bin then ⊤ else e.1)

/-- `lut[k]`: `operator[]` on a missing key creates an entry holding `0`. -/
def areaLutAt (lut : List (Px u × Px u)) (k : Px u) : Px u :=
  ((lut.find? fun e => e.1 = k).map (·.2)).getD (u.wrap 0)

/-- `imLabel`: `label(imIn, imLabel)` with the default structuring element when the image is binary,
`copy(imIn, imLabel)` otherwise, DBlobOperations.hpp:77-83. -/
def areaLabels (auto : Bool) (dflt : StrElt) (im : Img (Px t)) : Option (Img (Px u)) :=
  if isBinary im then
    match label auto u.hi.toNat false dflt dflt im im.dims with
    | some (.ok r) => some ⟨im.dims, fun i => u.wrap (r.2.buf i)⟩
    | _ => none
  else some ⟨im.dims, fun i => u.wrap (im.buf i).val⟩

/-- `areaThreshold`, DBlobOperations.hpp:68-122. The last loop is run in sequence: in parallel the
insertion of the key `0` by `lut[pl[i]]` is a data race, see `C19_race_bug`. `blobs.erase` has no
effect on the result. -/
def areaThreshold (auto : Bool) (dflt : StrElt) (thr : Int) (gt : Bool) (im : Img (Px t))
    (dout : Dims) : Option (Except Int (Img (Px u))) :=
  match checkDims auto im.dims dout with
  | .error c => some (.error c)
  | .ok _ =>
    (areaLabels (u := u) auto dflt im).map fun lab =>
      let lut := areaLut (isBinary im) thr gt (blobsArea (computeBlobs (u.wrap 0) true lab))
      .ok ⟨im.dims, fun i => areaLutAt lut (lab.buf i)⟩

end

end Smil
