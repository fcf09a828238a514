import Verif.Kernels

/-!
# Dilation, erosion, opening, closing: the entry points

Morpho/include/private/DMorphImageOperations.hxx:262-442 and 1178-1194, DMorphoBase.hpp:64-120,
DMorphoFilter.hpp:70-228. `none` is undefined behaviour (an access outside the line tables or a
shift longer than a line); `some (.error c)` is the return of the error code `c` with the output
untouched.
-/

namespace Smil
variable {α : Type}

/-- `RES_ERR_BAD_ALLOCATION`, Core/include/DErrors.h:53. -/
def errBadAllocation : Int := -99
/-- `RES_ERR_BAD_SIZE`, Core/include/DErrors.h:54. -/
def errBadSize : Int := -98

/-- What the environment chooses: the number of threads and `autoResizeImages` of the core
instance, the contents of uninitialised line buffers and of freshly allocated images. -/
structure Env (α : Type) where
  nt : Nat
  auto : Bool
  mem : KMem α
  raw : Nat → α

/-- `isInplaceSafe`, DMorphImageOperations.hxx:267-289. -/
def isInplaceSafe (se : StrElt) : Bool :=
  match se.seT with
  | .horiz | .vert | .hex | .squ | .cube | .cross => true
  | _ => false

/-- Does the kernel of this type index line 1 of every slice? (lines 571, 591, 848, 930) -/
def needsTwoLines (t : SeType) : Bool :=
  match t with
  | .vert | .hex | .squ | .cube | .cross => true
  | _ => false

/-- The kernel chosen by the `switch` of `_exec_single`, DMorphImageOperations.hxx:420-437. -/
def kernelOf (t : SeType) (nt ks kd : Nat) (D : Dims) : Option (List Phase) :=
  let n := kThreads nt D.h
  let own := fun l => l % max nt 1
  match t with
  | .hex => some (hexKernel ks kd D)
  | .squ => some (squKernel ks kd D n own)
  | .horiz => some (horizKernel ks kd D own)
  | .cross => some (crossKernel ks kd D n)
  | .vert => some (vertKernel ks kd D n)
  | .cube => some (cubeKernel ks kd D n own own)
  | _ => none

/-- `_exec_single`, DMorphImageOperations.hxx:416-442; `inPl` says that input and output are the
same image. The kernels are run with the threads one after the other (`C27_*` shows that no other
schedule can be distinguished). -/
def execSingle (E : Env α) (f : α → α → α) (border : α) (inPl : Bool) (se : StrElt) (im out : Img α) :
    Option (Img α) :=
  let kd := if inPl then 0 else 1
  match kernelOf se.seT E.nt 0 kd im.dims with
  | some phs =>
    if needsTwoLines se.seT ∧ im.dims.h < 2 then none
    else some (kStore im.dims kd (kExec f border im.dims.w (max E.nt 1) phs
      (kLoad border 0 kd im out E.mem)))
  | none => execGeneric f border se im out

/-- The loop of lines 388-393 between two distinct images: `k + 1` iterations from `a` to `b`; the
result is in the image written last. -/
def loopTwo (single : Img α → Img α → Option (Img α)) : Nat → Img α → Img α → Option (Img α)
  | 0, a, b => single a b
  | k + 1, a, b => (single a b).bind fun r => loopTwo single k r a

/-- `k` in-place iterations. -/
def loopOne (single : Img α → Option (Img α)) : Nat → Img α → Option (Img α)
  | 0, a => some a
  | k + 1, a => (single a).bind fun r => loopOne single k r

/-- The number of cubes of `_exec_rhombicuboctahedron`, DMorphImageOperations.hxx:1180-1182:
`size / (1 + √2)` rounded to the nearest, here computed exactly
(`size (√2 - 1) + 1/2 = (√(8 size²) - 2 size + 1) / 2`) instead of in `double`. -/
def nbSquare (size : Nat) : Nat := (Nat.sqrt (8 * size * size) + 1 - 2 * size) / 2

/-- `_exec_rhombicuboctahedron`, DMorphImageOperations.hxx:1178-1194. -/
def execRhombi (E : Env α) (f : α → α → α) (border : α) (inPl : Bool) (size : Nat) (im out : Img α) :
    Option (Img α) :=
  (execSingle E f border inPl (Cross3DSE 1) im out).bind fun r =>
  (loopOne (fun a => execSingle E f border true (Cross3DSE 1) a a) (size - nbSquare size - 1) r).bind
    fun r => loopOne (fun a => execSingle E f border true (CubeSE 1) a a) (nbSquare size) r

/-- `_exec`, DMorphImageOperations.hxx:343-412. -/
def execMorph (E : Env α) (f : α → α → α) (border : α) (inPl : Bool) (se : StrElt) (im out : Img α) :
    Option (Img α) :=
  if se.size = 0 then some im
  else if se.seT = .rhombicuboctahedron then execRhombi E f border inPl se.size im out
  else if isInplaceSafe se then
    (execSingle E f border inPl se im out).bind fun r =>
      loopOne (fun a => execSingle E f border true se a a) (se.size - 1) r
  else if inPl = false ∧ se.size = 1 then execSingle E f border false se im out
  else
    let tmp : Img α := ⟨im.dims, E.raw⟩
    (execSingle E f border false se im tmp).bind fun r =>
      if se.size = 1 then some r
      else loopTwo (fun a b => execSingle E f border false se a b) (se.size - 2) r out

/-- Is the image allocated? An image without pixels is not (DImage.hxx:255-283). -/
def Img.alloc (im : Img α) : Bool := im.dims.count ≠ 0

/-- `ASSERT_ALLOCATED` and `ASSERT_SAME_SIZE` on `(imIn, imOut)`, Core/include/DBaseImage.h:388-438:
the output that the operation then works on. -/
def checkSize (E : Env α) (im out : Img α) : Except Int (Img α) :=
  if im.alloc = false ∨ out.alloc = false then .error errBadAllocation
  else if out.dims = im.dims then .ok out
  else if E.auto then .ok ⟨im.dims, E.raw⟩
  else .error errBadSize

/-- The common shape of the operations: checks, then the computation. -/
def guarded (E : Env α) (im out : Img α) (k : Img α → Option (Img α)) :
    Option (Except Int (Img α)) :=
  match checkSize E im out with
  | .error c => some (.error c)
  | .ok o => (k o).map .ok

section
variable [LinearOrder α] [BoundedOrder α]

/-- `dilate`, DMorphoBase.hpp:64-73 with the default border value. -/
def dilate (E : Env α) (inPl : Bool) (se : StrElt) (im out : Img α) : Option (Except Int (Img α)) :=
  guarded E im out fun o => execMorph E max ⊥ inPl se im o

/-- `erode`, DMorphoBase.hpp:111-120 with the default border value. -/
def erode (E : Env α) (inPl : Bool) (se : StrElt) (im out : Img α) : Option (Except Int (Img α)) :=
  guarded E im out fun o => execMorph E min ⊤ inPl se.transpose im o

/-- Two operations one after the other, each checked by `ASSERT(... == RES_OK)`: any failure of
the second gives `RES_ERR`-like code `c`. -/
def andThen (r : Option (Except Int (Img α))) (k : Img α → Option (Except Int (Img α))) :
    Option (Except Int (Img α)) :=
  r.bind fun e => match e with
  | .error c => some (.error c)
  | .ok a => k a

/-- `open`, DMorphoFilter.hpp:123-144. When the element is in-place safe the intermediate image
is the output itself, otherwise a new image. -/
def morphOpen (E : Env α) (inPl : Bool) (se : StrElt) (im out : Img α) : Option (Except Int (Img α)) :=
  match checkSize E im out with
  | .error c => some (.error c)
  | .ok o =>
    if isInplaceSafe se then
      andThen (erode E inPl se im o) fun t => dilate E true se t t
    else
      andThen (erode E false se im ⟨im.dims, E.raw⟩) fun t => dilate E false se t o

/-- `close`, DMorphoFilter.hpp:70-91. -/
def morphClose (E : Env α) (inPl : Bool) (se : StrElt) (im out : Img α) :
    Option (Except Int (Img α)) :=
  match checkSize E im out with
  | .error c => some (.error c)
  | .ok o =>
    if isInplaceSafe se then
      andThen (dilate E inPl se im o) fun t => erode E true se t t
    else
      andThen (dilate E false se im ⟨im.dims, E.raw⟩) fun t => erode E false se t o

/-- The loop of `asfClose`, DMorphoFilter.hpp:188-191: sizes `i, i+1, …`, `n` of them, from
`tmpIm = t` with `imOut = o`. -/
def asfLoop (first second : StrElt → Img α → Img α → Option (Except Int (Img α))) (se : StrElt) :
    Nat → Nat → Img α → Img α → Option (Except Int (Img α))
  | 0, _, t, _ => some (.ok t)
  | n + 1, i, t, o =>
    andThen (first (se.resize i) t o) fun o' =>
    andThen (second (se.resize i) o' t) fun t' => asfLoop first second se n (i + 1) t' o'

/-- `asfClose`, DMorphoFilter.hpp:181-198 (the final copy gives `tmpIm`). -/
def asfClose (E : Env α) (se : StrElt) (im out : Img α) : Option (Except Int (Img α)) :=
  match checkSize E im out with
  | .error c => some (.error c)
  | .ok o => asfLoop (morphClose E false) (morphOpen E false) se se.size 1 im o

/-- `asfOpen`, DMorphoFilter.hpp:211-228. -/
def asfOpen (E : Env α) (se : StrElt) (im out : Img α) : Option (Except Int (Img α)) :=
  match checkSize E im out with
  | .error c => some (.error c)
  | .ok o => asfLoop (morphOpen E false) (morphClose E false) se se.size 1 im o

end
end Smil
