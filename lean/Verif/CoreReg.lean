import Verif.Transform

/-!
# The registry of the objects

Core/src/DCoreInstance.cpp:76-215, Core/include/DBaseObject.h:49-99, Core/include/private/DInstance.hpp:39-77. Objects are numbered by their address; an address may be used again after the
destruction of its object. A call on an object which does not exist, and a second deletion, are undefined (`none`). Signals, viewers and messages are left out; the size in bytes of an object is
given with it. `erase(std::remove(...))` with one iterator removes the element when it occurs once and is undefined when it does not occur.
-/

namespace Smil

/-- An object in memory: `className`, `registered` and `getAllocatedSize()`. -/
structure CObj where
  cls : String
  reg : Bool
  size : Nat
deriving DecidableEq

/-- The members of `Core` which change, DCoreInstance.h:68-110. -/
structure CInst where
  objects : List Nat
  images : List Nat
  keepAlive : Bool
  threads : Nat
deriving DecidableEq

/-- What `CpuID` reports. -/
structure CHw where
  logical : Nat
  cores : Nat

/-- The objects in memory and the unique instance. -/
structure CSt where
  obj : Nat → Option CObj
  inst : Option CInst

/-- `Core::Core` with OpenMP, DCoreInstance.cpp:44-63. -/
def cNew (hw : CHw) : CInst := ⟨[], [], true, hw.cores⟩

/-- `getInstance`, DInstance.hpp:52-63: the instance is made when there is none. -/
def cGet (hw : CHw) (s : CSt) : CInst := s.inst.getD (cNew hw)

/-- `v.erase(std::remove(v.begin(), v.end(), id))`. With the element absent `remove` gives `end()`, whose erasure is undefined; otherwise the first element of the part left over is erased: with
one occurrence, it is the whole part. -/
def eraseRemove (l : List Nat) (id : Nat) : Option (List Nat) :=
  if id ∈ l then some (l.filter (· ≠ id) ++ (l.drop ((l.filter (· ≠ id)).length + 1))) else none

/-- `Core::registerObject`, DCoreInstance.cpp:81-97. -/
def cRegister (hw : CHw) (s : CSt) (id : Nat) : Option CSt :=
  match s.obj id with
  | none => none
  | some o =>
    if o.reg then some s
    else
      let I := cGet hw s
      some ⟨Function.update s.obj id (some { o with reg := true }),
        some { I with objects := I.objects ++ [id], images := if o.cls = "Image" then I.images ++ [id] else I.images }⟩

/-- `Core::unregisterObject`, DCoreInstance.cpp:100-121. `dying`: it is called while `~Core` is running, so that `kill` would delete the instance a second time; otherwise `kill` finds an
instance without objects and only removes it. -/
def cUnregister (hw : CHw) (dying : Bool) (s : CSt) (id : Nat) : Option CSt :=
  match s.obj id with
  | none => none
  | some o =>
    if o.reg = false then some s
    else
      let I := cGet hw s
      (eraseRemove I.objects id).bind fun l =>
      (if o.cls = "Image" then eraseRemove I.images id else some I.images).bind fun m =>
        let ob := Function.update s.obj id (some { o with reg := false })
        if I.keepAlive = false ∧ l = [] then
          if dying then none else some ⟨ob, none⟩
        else some ⟨ob, some { I with objects := l, images := m }⟩

/-- The constructor of `BaseObject`, DBaseObject.h:55-64, at the address `id`. -/
def cConstruct (hw : CHw) (s : CSt) (id : Nat) (cls : String) (doReg : Bool) (size : Nat) : Option CSt :=
  match s.obj id with
  | some _ => none
  | none =>
    let s' : CSt := ⟨Function.update s.obj id (some ⟨cls, false, size⟩), s.inst⟩
    if doReg then cRegister hw s' id else some s'

/-- The copy constructor, DBaseObject.h:65-74: the class name is that of the source. -/
def cCopy (hw : CHw) (s : CSt) (id src : Nat) (doReg : Bool) (size : Nat) : Option CSt :=
  (s.obj src).bind fun o => cConstruct hw s id o.cls doReg size

/-- The destructor of `BaseObject`, DBaseObject.h:76-83. -/
def cDestroy (hw : CHw) (dying : Bool) (s : CSt) (id : Nat) : Option CSt :=
  match s.obj id with
  | none => none
  | some o =>
    (if o.reg then cUnregister hw dying s id else some s).map fun s' => ⟨Function.update s'.obj id none, s'.inst⟩

/-- The change of `className` by the constructor of a derived class, e.g. DSharedImage.hpp:60, or by an assignment, DBaseObject.h:93-97. -/
def cRename (s : CSt) (id : Nat) (cls : String) : Option CSt :=
  (s.obj id).map fun o => ⟨Function.update s.obj id (some { o with cls := cls }), s.inst⟩

/-- A change of the size of an object (allocation). -/
def cResize (s : CSt) (id : Nat) (size : Nat) : Option CSt :=
  (s.obj id).map fun o => ⟨Function.update s.obj id (some { o with size := size }), s.inst⟩

/-- `Core::deleteAllImages`, DCoreInstance.cpp:210-215. -/
def cDeleteAllImages (hw : CHw) (s : CSt) : Option CSt :=
  (cGet hw s).images.foldlM (cDestroy hw false) ⟨s.obj, some (cGet hw s)⟩

/-- `kill`, DInstance.hpp:65-71, with `deleteRegisteredObjects`, DCoreInstance.cpp:124-130. -/
def cKill (hw : CHw) (s : CSt) : Option CSt :=
  match s.inst with
  | none => some s
  | some I => (I.objects.foldlM (cDestroy hw true) s).map fun s' => ⟨s'.obj, none⟩

/-- `Core::getAllocatedMemory`, DCoreInstance.cpp:160-168. -/
def cMemory (hw : CHw) (s : CSt) : Option Nat := ((cGet hw s).images.mapM fun id => (s.obj id).map (·.size)).map List.sum

/-- `Core::getImageIndex`, DCoreInstance.cpp:180-186. -/
def cImageIndex (hw : CHw) (s : CSt) (id : Nat) : Int :=
  let l := (cGet hw s).images
  if l.idxOf id = l.length then -1 else l.idxOf id

/-- `Core::setNumberOfThreads`, DCoreInstance.cpp:147-152. -/
def cSetThreads (hw : CHw) (s : CSt) (n : Nat) : CSt × Int :=
  if n ≤ hw.logical then (⟨s.obj, some { cGet hw s with threads := n }⟩, 1) else (⟨s.obj, some (cGet hw s)⟩, errRes)

/-- `Core::resetNumberOfThreads`, DCoreInstance.cpp:154-157. -/
def cResetThreads (hw : CHw) (s : CSt) : CSt := ⟨s.obj, some { cGet hw s with threads := hw.logical }⟩

/-- `Core::getNumberOfThreads` and `Core::getNumberOfCores`, DCoreInstance.cpp:132-140: the second returns the number of threads, too. -/
def cThreads (hw : CHw) (s : CSt) : Nat := (cGet hw s).threads
def cCores (hw : CHw) (s : CSt) : Nat := (cGet hw s).threads

/-- What a program does. -/
inductive COp
  | construct (id : Nat) (cls : String) (doReg : Bool) (size : Nat)
  | copy (id src : Nat) (doReg : Bool) (size : Nat)
  | destroy (id : Nat)
  | register (id : Nat)
  | unregister (id : Nat)
  | rename (id : Nat) (cls : String)
  | resize (id : Nat) (size : Nat)
  | keepAlive (b : Bool)
  | threads (n : Nat)
  | resetThreads
  | deleteAllImages
  | kill

/-- One operation. -/
def cStep (hw : CHw) (s : CSt) : COp → Option CSt
  | .construct id cls r sz => cConstruct hw s id cls r sz
  | .copy id src r sz => cCopy hw s id src r sz
  | .destroy id => cDestroy hw false s id
  | .register id => cRegister hw s id
  | .unregister id => cUnregister hw false s id
  | .rename id c => cRename s id c
  | .resize id sz => cResize s id sz
  | .keepAlive b => some ⟨s.obj, some { cGet hw s with keepAlive := b }⟩
  | .threads n => some (cSetThreads hw s n).1
  | .resetThreads => some (cResetThreads hw s)
  | .deleteAllImages => cDeleteAllImages hw s
  | .kill => cKill hw s

/-- A program, from the start: no object and no instance. -/
def cRun (hw : CHw) (ops : List COp) : Option CSt := ops.foldlM (cStep hw) ⟨fun _ => none, none⟩

end Smil
