import Verif.CoreReg
import Mathlib.Data.List.Nodup
import Mathlib.Data.List.Basic

/-!
# The registry of the objects (C107)
-/

namespace Smil

/-- What there is: the class and the size of every object, the registered objects in the order of their registration, and the settings of the library. -/
structure AReg where
  live : Nat → Option (String × Nat)
  reg : List Nat
  keep : Bool
  threads : Nat

namespace AReg

/-- At the start. -/
def start (hw : CHw) : AReg := ⟨fun _ => none, [], true, hw.cores⟩

/-- The object is an image. -/
def isImage (a : AReg) (id : Nat) : Bool := ((a.live id).map (·.1)) = some "Image"

/-- The registered images. -/
def images (a : AReg) : List Nat := a.reg.filter a.isImage

/-- The object leaves the registry; the library starts afresh when it was the last one and is not kept alive. -/
def drop (hw : CHw) (a : AReg) (id : Nat) : AReg :=
  if id ∈ a.reg then
    if a.keep = false ∧ a.reg.filter (· ≠ id) = [] then { a with reg := [], keep := true, threads := hw.cores }
    else { a with reg := a.reg.filter (· ≠ id) }
  else a

/-- The object enters the registry. -/
def enter (a : AReg) (id : Nat) : AReg := if id ∈ a.reg then a else { a with reg := a.reg ++ [id] }

/-- The object is destroyed. -/
def kill1 (hw : CHw) (a : AReg) (id : Nat) : AReg := { a.drop hw id with live := Function.update (a.drop hw id).live id none }

/-- The object is made. -/
def make (a : AReg) (id : Nat) (cls : String) (doReg : Bool) (size : Nat) : AReg :=
  let b : AReg := { a with live := Function.update a.live id (some (cls, size)) }
  if doReg then b.enter id else b

/-- The effect of an operation. -/
def step (hw : CHw) (a : AReg) : COp → AReg
  | .construct id cls r sz => a.make id cls r sz
  | .copy id src r sz => match a.live src with
    | some o => a.make id o.1 r sz
    | none => a
  | .destroy id => a.kill1 hw id
  | .register id => a.enter id
  | .unregister id => a.drop hw id
  | .rename id c => { a with live := Function.update a.live id ((a.live id).map fun o => (c, o.2)) }
  | .resize id z => { a with live := Function.update a.live id ((a.live id).map fun o => (o.1, z)) }
  | .keepAlive b => { a with keep := b }
  | .threads n => if n ≤ hw.logical then { a with threads := n } else a
  | .resetThreads => { a with threads := hw.logical }
  | .deleteAllImages => a.images.foldl (kill1 hw) a
  | .kill => ⟨fun id => if id ∈ a.reg then none else a.live id, [], true, hw.cores⟩

/-- The operations a correct program may do: objects are made where there is none and used where there is one, the name "Image" is neither given to nor taken from an existing object, and the
library is not killed with objects in the registry unless it is kept alive. -/
def Legal (a : AReg) : COp → Prop
  | .construct id _ _ _ => a.live id = none
  | .copy id src _ _ => a.live id = none ∧ (a.live src).isSome
  | .destroy id => (a.live id).isSome
  | .register id => (a.live id).isSome
  | .unregister id => (a.live id).isSome
  | .rename id c => ∃ o, a.live id = some o ∧ (o.1 = "Image" ↔ c = "Image")
  | .resize id _ => (a.live id).isSome
  | .kill => a.keep = true ∨ a.reg = []
  | _ => True

/-- A program which is legal at each step. -/
def LegalRun (hw : CHw) : AReg → List COp → Prop
  | _, [] => True
  | a, op :: ops => a.Legal op ∧ LegalRun hw (a.step hw op) ops

end AReg

/-- The state of the code and what there is. -/
structure CRel (hw : CHw) (s : CSt) (a : AReg) : Prop where
  obj : ∀ id, s.obj id = (a.live id).map fun o => ⟨o.1, decide (id ∈ a.reg), o.2⟩
  nodup : a.reg.Nodup
  alive : ∀ id ∈ a.reg, (a.live id).isSome
  objects : (cGet hw s).objects = a.reg
  images : (cGet hw s).images = a.images
  keep : (cGet hw s).keepAlive = a.keep
  threads : (cGet hw s).threads = a.threads

theorem eraseRemove_nodup {l : List Nat} (h : l.Nodup) {id : Nat} (hid : id ∈ l) : eraseRemove l id = some (l.filter (· ≠ id)) := by
  unfold eraseRemove
  rw [if_pos hid]
  have : (l.filter (· ≠ id)).length + 1 = l.length := by
    have h1 : l.filter (· ≠ id) = l.erase id := by
      rw [h.erase_eq_filter]
      congr 1
      funext x
      by_cases hx : x = id <;> simp [hx]
    rw [h1, List.length_erase_of_mem hid]
    have := List.length_pos_of_mem hid
    omega
  rw [this, List.drop_length, List.append_nil]

theorem CRel.live_of {hw : CHw} {s : CSt} {a : AReg} (h : CRel hw s a) {id : Nat} (hl : (a.live id).isSome) :
    ∃ c z, a.live id = some (c, z) ∧ s.obj id = some ⟨c, decide (id ∈ a.reg), z⟩ := by
  obtain ⟨⟨c, z⟩, ho⟩ := Option.isSome_iff_exists.1 hl
  exact ⟨c, z, ho, by rw [h.obj, ho]; rfl⟩

theorem cRegister_rel {hw : CHw} {s : CSt} {a : AReg} (h : CRel hw s a) {id : Nat} (hl : (a.live id).isSome) :
    ∃ s', cRegister hw s id = some s' ∧ CRel hw s' (a.enter id) := by
  obtain ⟨c, z, ho, hs⟩ := h.live_of hl
  unfold cRegister AReg.enter
  rw [hs]
  simp only
  by_cases hr : id ∈ a.reg
  · rw [if_pos (by simpa using hr), if_pos hr]
    exact ⟨s, rfl, h⟩
  · rw [if_neg (by simpa using hr), if_neg hr]
    refine ⟨_, rfl, ⟨?_, ?_, ?_, ?_, ?_, ?_, ?_⟩⟩
    · intro id'
      by_cases e : id' = id
      · subst e
        simp [ho]
      · simp only [Function.update_of_ne e, h.obj, List.mem_append, List.mem_singleton, e, or_false]
    · simp only
      rw [List.nodup_append]
      refine ⟨h.nodup, by simp, ?_⟩
      intro x hx y hy
      simp at hy
      subst hy
      rintro rfl
      exact hr hx
    · intro id' hid'
      rcases List.mem_append.1 hid' with h' | h'
      · exact h.alive id' h'
      · simp at h'; subst h'; exact hl
    · show (cGet hw s).objects ++ [id] = _
      rw [h.objects]
    · show (if c = "Image" then (cGet hw s).images ++ [id] else (cGet hw s).images) = _
      rw [h.images]
      unfold AReg.images
      simp only [List.filter_append]
      have e : ∀ l : List Nat, l.filter (AReg.isImage { a with reg := a.reg ++ [id] }) = l.filter a.isImage := fun _ => rfl
      rw [e, e]
      by_cases hc : c = "Image"
      · rw [if_pos hc]
        simp [AReg.isImage, ho, hc]
      · rw [if_neg hc]
        simp [AReg.isImage, ho, hc]
    · exact h.keep
    · exact h.threads

theorem cUnregister_rel {hw : CHw} {s : CSt} {a : AReg} (h : CRel hw s a) {id : Nat} (hl : (a.live id).isSome) (dying : Bool)
    (hd : dying = true → ¬ (a.keep = false ∧ a.reg.filter (· ≠ id) = [])) :
    ∃ s', cUnregister hw dying s id = some s' ∧ CRel hw s' (a.drop hw id) := by
  obtain ⟨c, z, ho, hs⟩ := h.live_of hl
  unfold cUnregister AReg.drop
  rw [hs]
  simp only
  by_cases hr : id ∈ a.reg
  · rw [if_neg (by simpa using hr), if_pos hr, h.objects, h.images, h.keep, eraseRemove_nodup h.nodup hr]
    have him : (if c = "Image" then eraseRemove a.images id else some a.images) = some (a.images.filter (· ≠ id)) := by
      by_cases hc : c = "Image"
      · rw [if_pos hc]
        refine eraseRemove_nodup (h.nodup.filter _) (List.mem_filter.2 ⟨hr, ?_⟩)
        simp [AReg.isImage, ho, hc]
      · rw [if_neg hc]
        congr 1
        symm
        rw [List.filter_eq_self]
        intro x hx
        have : x ≠ id := by
          rintro rfl
          have := (List.mem_filter.1 hx).2
          simp [AReg.isImage, ho, hc] at this
        simpa using this
    rw [him]
    simp only [Option.bind_some]
    have hobj : ∀ l : List Nat, (∀ x, x ∈ l ↔ x ∈ a.reg ∧ x ≠ id) → ∀ id', Function.update s.obj id (some ⟨c, false, z⟩) id' =
        (a.live id').map fun o => (⟨o.1, decide (id' ∈ l), o.2⟩ : CObj) := by
      intro l hml id'
      by_cases e : id' = id
      · subst e
        simp [ho, hml]
      · rw [Function.update_of_ne e, h.obj]
        have : (id' ∈ l) ↔ id' ∈ a.reg := by rw [hml]; tauto
        simp only [this]
    by_cases hk : a.keep = false ∧ a.reg.filter (· ≠ id) = []
    · rw [if_pos hk, if_pos hk, if_neg (fun e => hd e hk)]
      refine ⟨_, rfl, ⟨?_, List.nodup_nil, by simp, rfl, rfl, rfl, rfl⟩⟩
      refine hobj [] fun x => ?_
      have := hk.2
      rw [List.filter_eq_nil_iff] at this
      constructor
      · intro hx; cases hx
      · rintro ⟨hx, hne⟩
        exact absurd (by simpa using hne) (this x hx)
    · rw [if_neg hk, if_neg hk]
      refine ⟨_, rfl, ⟨?_, h.nodup.filter _, ?_, rfl, ?_, rfl, h.threads⟩⟩
      · exact hobj _ fun x => by simp
      · intro x hx
        exact h.alive x (List.mem_filter.1 hx).1
      · show a.images.filter (· ≠ id) = _
        unfold AReg.images
        simp only [List.filter_filter]
        congr 1
        funext x
        exact Bool.and_comm _ _
  · rw [if_pos (by simpa using hr), if_neg hr]
    exact ⟨s, rfl, h⟩

theorem drop_live (hw : CHw) (a : AReg) (id : Nat) : (a.drop hw id).live = a.live := by
  unfold AReg.drop
  split_ifs <;> rfl

theorem drop_reg (hw : CHw) (a : AReg) (id : Nat) : (a.drop hw id).reg = a.reg.filter (· ≠ id) := by
  unfold AReg.drop
  split_ifs with h1 h2
  · exact h2.2.symm
  · rfl
  · symm
    rw [List.filter_eq_self]
    intro x hx
    have : x ≠ id := fun e => h1 (e ▸ hx)
    simpa using this

theorem cDestroy_rel {hw : CHw} {s : CSt} {a : AReg} (h : CRel hw s a) {id : Nat} (hl : (a.live id).isSome) (dying : Bool)
    (hd : dying = true → ¬ (a.keep = false ∧ a.reg.filter (· ≠ id) = [])) :
    ∃ s', cDestroy hw dying s id = some s' ∧ CRel hw s' (a.kill1 hw id) := by
  obtain ⟨c, z, ho, hs⟩ := h.live_of hl
  have key : ∃ s', (if (⟨c, decide (id ∈ a.reg), z⟩ : CObj).reg then cUnregister hw dying s id else some s) = some s' ∧ CRel hw s' (a.drop hw id) := by
    by_cases hr : id ∈ a.reg
    · rw [if_pos (by simpa using hr)]
      exact cUnregister_rel h hl dying hd
    · rw [if_neg (by simpa using hr)]
      refine ⟨s, rfl, ?_⟩
      unfold AReg.drop
      rw [if_neg hr]
      exact h
  obtain ⟨s', h1, h2⟩ := key
  have hn : id ∉ (a.drop hw id).reg := by rw [drop_reg]; simp
  refine ⟨⟨Function.update s'.obj id none, s'.inst⟩, by unfold cDestroy; rw [hs]; simp only; rw [h1]; rfl, ⟨?_, h2.nodup, ?_, h2.objects, ?_, h2.keep, h2.threads⟩⟩
  · intro id'
    unfold AReg.kill1
    by_cases e : id' = id
    · subst e; simp
    · simp only [Function.update_of_ne e]
      exact h2.obj id'
  · intro id' hid'
    have e : id' ≠ id := fun e => hn (e ▸ hid')
    unfold AReg.kill1
    simp only [Function.update_of_ne e]
    exact h2.alive id' hid'
  · show (cGet hw s').images = _
    rw [h2.images]
    unfold AReg.images AReg.kill1
    refine List.filter_congr fun x hx => ?_
    have e : x ≠ id := fun e => hn (e ▸ hx)
    unfold AReg.isImage
    simp only [Function.update_of_ne e]

theorem cConstruct_rel {hw : CHw} {s : CSt} {a : AReg} (h : CRel hw s a) {id : Nat} (hl : a.live id = none) (c : String) (r : Bool) (z : Nat) :
    ∃ s', cConstruct hw s id c r z = some s' ∧ CRel hw s' (a.make id c r z) := by
  have hs : s.obj id = none := by rw [h.obj, hl]; rfl
  have hn : id ∉ a.reg := fun e => by have := h.alive id e; rw [hl] at this; cases this
  have hb : CRel hw ⟨Function.update s.obj id (some ⟨c, false, z⟩), s.inst⟩ { a with live := Function.update a.live id (some (c, z)) } := by
    refine ⟨?_, h.nodup, ?_, h.objects, ?_, h.keep, h.threads⟩
    · intro id'
      by_cases e : id' = id
      · subst e; simp [hn]
      · simp only [Function.update_of_ne e]
        exact h.obj id'
    · intro id' hid'
      have e : id' ≠ id := fun e => hn (e ▸ hid')
      simp only [Function.update_of_ne e]
      exact h.alive id' hid'
    · show (cGet hw s).images = _
      rw [h.images]
      unfold AReg.images
      refine List.filter_congr fun x hx => ?_
      have e : x ≠ id := fun e => hn (e ▸ hx)
      unfold AReg.isImage
      simp only [Function.update_of_ne e]
  unfold cConstruct AReg.make
  rw [hs]
  simp only
  cases r with
  | false => exact ⟨_, rfl, hb⟩
  | true => exact cRegister_rel hb (by simp)

theorem images_kill1 {hw : CHw} {a : AReg} {id : Nat} : (a.kill1 hw id).live = Function.update a.live id none ∧ (a.kill1 hw id).reg = a.reg.filter (· ≠ id) := by
  unfold AReg.kill1
  exact ⟨by simp only [drop_live], drop_reg hw a id⟩

theorem kill1_keep {hw : CHw} {a : AReg} {id : Nat} (h : a.keep = true) : (a.kill1 hw id).keep = true := by
  unfold AReg.kill1 AReg.drop
  simp only
  split_ifs <;> simp [h]

theorem destroyAll_rel {hw : CHw} (dying : Bool) (l : List Nat) (hl : l.Nodup) {s : CSt} {a : AReg} (h : CRel hw s a) (ha : ∀ id ∈ l, (a.live id).isSome)
    (hd : dying = true → a.keep = true) :
    ∃ s', l.foldlM (cDestroy hw dying) s = some s' ∧ CRel hw s' (l.foldl (AReg.kill1 hw) a) ∧
      (∀ id, (l.foldl (AReg.kill1 hw) a).live id = if id ∈ l then none else a.live id) ∧
      (l.foldl (AReg.kill1 hw) a).reg = a.reg.filter (· ∉ l) ∧ (dying = true → (l.foldl (AReg.kill1 hw) a).keep = true) := by
  induction l generalizing s a with
  | nil => exact ⟨s, rfl, h, by simp, by simp, hd⟩
  | cons x l ih =>
    obtain ⟨hx, hl'⟩ := List.nodup_cons.1 hl
    obtain ⟨s1, h1, h2⟩ := cDestroy_rel h (ha x (by simp)) dying (fun e => by rw [hd e]; simp)
    obtain ⟨e1, e2⟩ := images_kill1 (hw := hw) (a := a) (id := x)
    obtain ⟨s', i1, i2, i3, i4, i5⟩ := ih hl' h2 (fun id hid => by
      rw [e1, Function.update_of_ne (show id ≠ x by rintro rfl; exact hx hid)]
      exact ha id (by simp [hid])) (fun hd' => kill1_keep (hd hd'))
    refine ⟨s', by rw [List.foldlM_cons, h1]; exact i1, i2, ?_, ?_, i5⟩
    · intro id
      show (l.foldl (AReg.kill1 hw) (a.kill1 hw x)).live id = _
      rw [i3, e1]
      by_cases hxi : id = x
      · subst hxi
        simp
      · rw [Function.update_of_ne hxi]
        simp [hxi]
    · show (l.foldl (AReg.kill1 hw) (a.kill1 hw x)).reg = _
      rw [i4, e2, List.filter_filter]
      congr 1
      funext y
      simp only [List.mem_cons, not_or, ne_eq, decide_not, Bool.decide_and]
      exact Bool.and_comm _ _

theorem cGet_some (hw : CHw) (s : CSt) (I : CInst) : cGet hw ⟨s.obj, some I⟩ = I := rfl

theorem CRel.congr_live {hw : CHw} {s : CSt} {a : AReg} (h : CRel hw s a) {id : Nat} {o : String × Nat} (ho : a.live id = some o) (c : String) (z : Nat)
    (hc : o.1 = "Image" ↔ c = "Image") :
    CRel hw ⟨Function.update s.obj id (some ⟨c, decide (id ∈ a.reg), z⟩), s.inst⟩ { a with live := Function.update a.live id (some (c, z)) } := by
  refine ⟨?_, h.nodup, ?_, h.objects, ?_, h.keep, h.threads⟩
  · intro id'
    by_cases e : id' = id
    · subst e; simp
    · simp only [Function.update_of_ne e]
      exact h.obj id'
  · intro id' hid'
    by_cases e : id' = id
    · subst e; simp
    · simp only [Function.update_of_ne e]
      exact h.alive id' hid'
  · show (cGet hw s).images = _
    rw [h.images]
    unfold AReg.images
    refine List.filter_congr fun x _ => ?_
    unfold AReg.isImage
    by_cases e : x = id
    · subst e
      simp [ho, hc]
    · simp only [Function.update_of_ne e]

theorem cStep_rel {hw : CHw} {s : CSt} {a : AReg} (h : CRel hw s a) (op : COp) (hl : a.Legal op) : ∃ s', cStep hw s op = some s' ∧ CRel hw s' (a.step hw op) := by
  cases op with
  | construct id c r z => exact cConstruct_rel h hl c r z
  | copy id src r z =>
    obtain ⟨h1, h2⟩ := hl
    obtain ⟨c, z', ho, hs⟩ := h.live_of h2
    simp only [cStep, cCopy, AReg.step]
    rw [hs]
    simp only [Option.bind_some, ho]
    exact cConstruct_rel h h1 c r z
  | destroy id => exact cDestroy_rel h hl false (by simp)
  | register id => exact cRegister_rel h hl
  | unregister id => exact cUnregister_rel h hl false (by simp)
  | rename id c =>
    obtain ⟨o, ho, hc⟩ := hl
    have hs : s.obj id = some ⟨o.1, decide (id ∈ a.reg), o.2⟩ := by rw [h.obj, ho]; rfl
    simp only [cStep, cRename, AReg.step]
    rw [hs]
    simp only [Option.map_some, ho]
    exact ⟨_, rfl, h.congr_live ho c o.2 hc⟩
  | resize id z =>
    obtain ⟨c, z', ho, hs⟩ := h.live_of hl
    simp only [cStep, cResize, AReg.step]
    rw [hs]
    simp only [Option.map_some, ho]
    exact ⟨_, rfl, h.congr_live ho c z Iff.rfl⟩
  | keepAlive b => exact ⟨_, rfl, ⟨h.obj, h.nodup, h.alive, h.objects, h.images, rfl, h.threads⟩⟩
  | threads n =>
    refine ⟨_, rfl, ?_⟩
    unfold cSetThreads AReg.step
    by_cases hn : n ≤ hw.logical
    · rw [if_pos hn]
      simp only [if_pos hn]
      exact ⟨h.obj, h.nodup, h.alive, h.objects, h.images, h.keep, rfl⟩
    · rw [if_neg hn]
      simp only [if_neg hn]
      exact ⟨h.obj, h.nodup, h.alive, h.objects, h.images, h.keep, h.threads⟩
  | resetThreads => exact ⟨_, rfl, ⟨h.obj, h.nodup, h.alive, h.objects, h.images, h.keep, rfl⟩⟩
  | deleteAllImages =>
    have h' : CRel hw ⟨s.obj, some (cGet hw s)⟩ a := ⟨h.obj, h.nodup, h.alive, h.objects, h.images, h.keep, h.threads⟩
    obtain ⟨s', h1, h2, -⟩ := destroyAll_rel false a.images (h.nodup.filter _) h' (fun id hid => h.alive id (List.mem_filter.1 hid).1) (by simp)
    refine ⟨s', ?_, h2⟩
    show (cGet hw s).images.foldlM _ _ = _
    rw [h.images]
    exact h1
  | kill =>
    have hk : a.keep = true ∨ a.reg = [] := hl
    simp only [cStep, cKill, AReg.step]
    cases hi : s.inst with
    | none =>
      have hr : a.reg = [] := by rw [← h.objects]; unfold cGet; rw [hi]; rfl
      refine ⟨s, rfl, ⟨?_, List.nodup_nil, by simp, ?_, ?_, ?_, ?_⟩⟩
      · intro id
        rw [h.obj, hr]; simp
      all_goals unfold cGet; rw [hi]; rfl
    | some I =>
      have hI : cGet hw s = I := by unfold cGet; rw [hi]; rfl
      have ho : I.objects = a.reg := by rw [← hI]; exact h.objects
      simp only [ho]
      rcases hk with hk | hk
      · obtain ⟨s', h1, h2, h3, h4, -⟩ := destroyAll_rel true a.reg h.nodup h (fun id hid => h.alive id hid) (fun _ => hk)
        rw [h1]
        refine ⟨_, rfl, ⟨?_, List.nodup_nil, by simp, rfl, rfl, rfl, rfl⟩⟩
        intro id
        show s'.obj id = _
        rw [h2.obj, h3, h4]
        have : (id ∈ a.reg.filter (· ∉ a.reg)) ↔ False := by simp
        simp only [this, List.not_mem_nil]
      · rw [hk]
        refine ⟨_, rfl, ⟨?_, List.nodup_nil, by simp, rfl, rfl, rfl, rfl⟩⟩
        intro id
        show s.obj id = _
        rw [h.obj, hk]; simp

theorem cRun_rel {hw : CHw} (ops : List COp) {s : CSt} {a : AReg} (h : CRel hw s a) (hl : a.LegalRun hw ops) :
    ∃ s', ops.foldlM (cStep hw) s = some s' ∧ CRel hw s' (ops.foldl (AReg.step hw) a) := by
  induction ops generalizing s a with
  | nil => exact ⟨s, rfl, h⟩
  | cons op ops ih =>
    obtain ⟨h1, h2⟩ := hl
    obtain ⟨s1, e1, r1⟩ := cStep_rel h op h1
    obtain ⟨s', e2, r2⟩ := ih r1 h2
    exact ⟨s', by rw [List.foldlM_cons, e1]; exact e2, r2⟩

theorem crel_start (hw : CHw) : CRel hw ⟨fun _ => none, none⟩ (AReg.start hw) :=
  ⟨fun _ => rfl, List.nodup_nil, by simp [AReg.start], rfl, rfl, rfl, rfl⟩

theorem cMemory_spec {hw : CHw} {s : CSt} {a : AReg} (h : CRel hw s a) :
    cMemory hw s = some ((a.images.map fun id => ((a.live id).map (·.2)).getD 0).sum) := by
  unfold cMemory
  rw [h.images]
  have : ∀ l : List Nat, (∀ id ∈ l, (a.live id).isSome) → (l.mapM fun id => (s.obj id).map (·.size)) = some (l.map fun id => ((a.live id).map (·.2)).getD 0) := by
    intro l
    induction l with
    | nil => intro _; rfl
    | cons x l ih =>
      intro hx
      obtain ⟨c, z, ho, hs⟩ := h.live_of (hx x (by simp))
      rw [List.mapM_cons, hs, ih fun id hid => hx id (by simp [hid])]
      simp [ho]
  rw [this a.images fun id hid => h.alive id (List.mem_filter.1 hid).1]
  rfl

theorem cImageIndex_spec {hw : CHw} {s : CSt} {a : AReg} (h : CRel hw s a) (id : Nat) :
    (id ∉ a.images → cImageIndex hw s id = -1) ∧ ∀ k : Nat, a.images[k]? = some id → cImageIndex hw s id = k := by
  unfold cImageIndex
  rw [h.images]
  constructor
  · intro hn
    simp only
    rw [if_pos (List.idxOf_eq_length hn)]
  · intro k hk
    obtain ⟨hlt, e⟩ := List.getElem?_eq_some_iff.1 hk
    have hnd : a.images.Nodup := h.nodup.filter _
    have : a.images.idxOf id = k := by
      rw [← e]
      exact hnd.idxOf_getElem k hlt
    simp only [this]
    rw [if_neg (by omega)]

/-- **C107**: for every legal program the code runs without undefined behaviour, the objects in memory are those which have been made and not destroyed, the list of the objects holds the registered
ones, each once, in the order of their registration, the list of the images those among them which are images, the index of an image is its place in this list, the memory is the sum of the sizes of
the images, and the settings are those last asked for. -/
theorem C107_registry (hw : CHw) (ops : List COp) (hl : (AReg.start hw).LegalRun hw ops) :
    ∃ s, cRun hw ops = some s ∧
      let a := ops.foldl (AReg.step hw) (AReg.start hw)
      (∀ id, (s.obj id).map (fun o => (o.cls, o.size)) = a.live id) ∧
      (cGet hw s).objects = a.reg ∧ a.reg.Nodup ∧ (∀ id ∈ a.reg, (a.live id).isSome) ∧
      (cGet hw s).images = a.reg.filter (fun id => (a.live id).map (·.1) = some "Image") ∧
      cMemory hw s = some (((a.reg.filter fun id => (a.live id).map (·.1) = some "Image").map fun id => ((a.live id).map (·.2)).getD 0).sum) ∧
      (∀ id, (id ∉ a.images → cImageIndex hw s id = -1) ∧ ∀ k : Nat, a.images[k]? = some id → cImageIndex hw s id = k) ∧
      cThreads hw s = a.threads := by
  obtain ⟨s, h1, h2⟩ := cRun_rel ops (crel_start hw) hl
  refine ⟨s, h1, ?_, h2.objects, h2.nodup, h2.alive, h2.images, cMemory_spec h2, cImageIndex_spec h2, h2.threads⟩
  intro id
  rw [h2.obj]
  cases (ops.foldl (AReg.step hw) (AReg.start hw)).live id <;> rfl

/-- **C107**: `deleteAllImages` destroys the registered images and nothing else. -/
theorem C107_delete_all (hw : CHw) (ops : List COp) (hl : (AReg.start hw).LegalRun hw ops) :
    let a := ops.foldl (AReg.step hw) (AReg.start hw)
    ∃ s, cRun hw (ops ++ [.deleteAllImages]) = some s ∧
      (∀ id, (s.obj id).map (fun o => (o.cls, o.size)) = if id ∈ a.reg ∧ (a.live id).map (·.1) = some "Image" then none else a.live id) ∧
      (cGet hw s).objects = a.reg.filter (fun id => (a.live id).map (·.1) ≠ some "Image") ∧ (cGet hw s).images = [] := by
  intro a
  obtain ⟨s0, h1, h2⟩ := cRun_rel ops (crel_start hw) hl
  obtain ⟨s, h3, h4⟩ := cStep_rel h2 .deleteAllImages trivial
  have h' : CRel hw ⟨s0.obj, some (cGet hw s0)⟩ a := ⟨h2.obj, h2.nodup, h2.alive, h2.objects, h2.images, h2.keep, h2.threads⟩
  obtain ⟨s', -, -, h5, h6, -⟩ := destroyAll_rel false a.images (h2.nodup.filter _) h' (fun id hid => h2.alive id (List.mem_filter.1 hid).1) (by simp)
  have hreg : (a.step hw .deleteAllImages).reg = a.reg.filter (fun id => (a.live id).map (·.1) ≠ some "Image") := by
    show (a.images.foldl (AReg.kill1 hw) a).reg = _
    rw [h6]
    refine List.filter_congr fun x hx => ?_
    unfold AReg.images AReg.isImage
    simp [List.mem_filter, hx]
  refine ⟨s, ?_, ?_, ?_, ?_⟩
  · unfold cRun
    rw [List.foldlM_append, h1]
    show (cStep hw s0 .deleteAllImages >>= pure) = _
    rw [h3]; rfl
  · intro id
    rw [h4.obj]
    show ((((a.images.foldl (AReg.kill1 hw) a).live id).map fun o => (⟨o.1, _, o.2⟩ : CObj)).map _) = _
    rw [h5]
    have : id ∈ a.images ↔ (id ∈ a.reg ∧ (a.live id).map (·.1) = some "Image") := by
      unfold AReg.images AReg.isImage
      simp [List.mem_filter]
    simp only [this]
    by_cases hc : id ∈ a.reg ∧ (a.live id).map (·.1) = some "Image"
    · simp only [if_pos hc]; rfl
    · simp only [if_neg hc]
      cases a.live id <;> rfl
  · rw [h4.objects]
    exact hreg
  · rw [h4.images]
    unfold AReg.images
    rw [List.filter_eq_nil_iff]
    intro x hx
    have hx' : x ∈ (a.images.foldl (AReg.kill1 hw) a).reg := hx
    rw [h6] at hx'
    obtain ⟨hx1, hx2⟩ := List.mem_filter.1 hx'
    have hx3 : x ∉ a.images := by simpa using hx2
    show ¬ ((a.images.foldl (AReg.kill1 hw) a).isImage x) = true
    unfold AReg.isImage
    rw [h5, if_neg hx3]
    intro hc
    exact hx3 (List.mem_filter.2 ⟨hx1, hc⟩)

/-- **C107**: the number of threads never exceeds what the machine has (the machine has at least as many logical processors as cores); larger numbers are refused with -100. -/
theorem C107_threads (hw : CHw) (hhw : hw.cores ≤ hw.logical) (ops : List COp) (hl : (AReg.start hw).LegalRun hw ops) :
    ∃ s, cRun hw ops = some s ∧ cThreads hw s ≤ hw.logical ∧
      ∀ n, (n ≤ hw.logical → (cSetThreads hw s n).2 = 1 ∧ cThreads hw (cSetThreads hw s n).1 = n) ∧
        (hw.logical < n → (cSetThreads hw s n).2 = -100 ∧ cThreads hw (cSetThreads hw s n).1 = cThreads hw s) := by
  obtain ⟨s, h1, h2⟩ := cRun_rel ops (crel_start hw) hl
  refine ⟨s, h1, ?_, ?_⟩
  · unfold cThreads
    rw [h2.threads]
    clear h1 h2 hl
    have hk1 : ∀ a : AReg, ∀ id, a.threads ≤ hw.logical → (a.kill1 hw id).threads ≤ hw.logical := by
      intro a id ha
      unfold AReg.kill1 AReg.drop
      split_ifs <;> first | exact ha | exact hhw
    have hm : ∀ a : AReg, ∀ id c r z, a.threads ≤ hw.logical → (a.make id c r z).threads ≤ hw.logical := by
      intro a id c r z ha
      unfold AReg.make AReg.enter
      simp only
      split_ifs <;> exact ha
    have hs : ∀ a : AReg, ∀ op, a.threads ≤ hw.logical → (a.step hw op).threads ≤ hw.logical := by
      intro a op ha
      cases op with
      | construct => exact hm _ _ _ _ _ ha
      | copy id src r z =>
        simp only [AReg.step]
        cases h : a.live src with
        | none => exact ha
        | some o => exact hm _ _ _ _ _ ha
      | destroy => exact hk1 _ _ ha
      | register id => unfold AReg.step AReg.enter; simp only; split_ifs <;> exact ha
      | unregister id => unfold AReg.step AReg.drop; simp only; split_ifs <;> first | exact ha | exact hhw
      | rename => exact ha
      | resize => exact ha
      | keepAlive => exact ha
      | threads n => unfold AReg.step; simp only; split_ifs with h <;> [exact h; exact ha]
      | resetThreads => exact le_rfl
      | deleteAllImages =>
        show (a.images.foldl (AReg.kill1 hw) a).threads ≤ _
        generalize a.images = l
        induction l generalizing a with
        | nil => exact ha
        | cons x l ih => exact ih _ (hk1 _ _ ha)
      | kill => exact hhw
    have : ∀ (ops : List COp) (a : AReg), a.threads ≤ hw.logical → (ops.foldl (AReg.step hw) a).threads ≤ hw.logical := by
      intro ops
      induction ops with
      | nil => exact fun a ha => ha
      | cons op ops ih => exact fun a ha => ih _ (hs a op ha)
    exact this ops _ hhw
  · intro n
    unfold cSetThreads cThreads
    constructor
    · intro hn; rw [if_pos hn]; exact ⟨rfl, rfl⟩
    · intro hn; rw [if_neg (by omega)]; exact ⟨rfl, rfl⟩

/-- The hypotheses are met: images, a graph, a copy, changes of settings, a structuring element which changes its name. -/
def exProg : List COp :=
  [.construct 10 "Image" true 100, .construct 11 "Graph" true 8, .construct 12 "StrElt" true 4, .rename 12 "HexSE", .copy 13 10 true 50, .threads 3, .destroy 11, .resize 13 70,
    .construct 11 "Image" false 9, .keepAlive false]

example : (AReg.start ⟨8, 4⟩).LegalRun ⟨8, 4⟩ exProg ∧
    ((cRun ⟨8, 4⟩ exProg).map fun s => ((cGet ⟨8, 4⟩ s).objects, (cGet ⟨8, 4⟩ s).images, cThreads ⟨8, 4⟩ s)) = some ([10, 12, 13], [10, 13], 3) ∧
    (cRun ⟨8, 4⟩ exProg).bind (cMemory ⟨8, 4⟩) = some 170 := by
  refine ⟨⟨rfl, rfl, rfl, ⟨("StrElt", 4), rfl, by decide⟩, ⟨rfl, rfl⟩, trivial, rfl, rfl, rfl, trivial, trivial⟩, by decide +kernel, by decide +kernel⟩

theorem cDestroy_none {hw : CHw} {d : Bool} {s s' : CSt} {x id : Nat} (h : cDestroy hw d s x = some s') (hn : s.obj id = none) : s'.obj id = none := by
  unfold cDestroy at h
  cases ho : s.obj x with
  | none => rw [ho] at h; cases h
  | some o =>
    have hx : id ≠ x := by rintro rfl; rw [hn] at ho; cases ho
    rw [ho] at h
    simp only at h
    rw [Option.map_eq_some_iff] at h
    obtain ⟨s1, h1, rfl⟩ := h
    simp only [Function.update_of_ne hx]
    split_ifs at h1
    · unfold cUnregister at h1
      rw [ho] at h1
      simp only at h1
      split_ifs at h1 with hr
      · obtain rfl := Option.some.inj h1; exact hn
      all_goals
        rw [Option.bind_eq_some_iff] at h1
        obtain ⟨l, -, h1⟩ := h1
        rw [Option.bind_eq_some_iff] at h1
        obtain ⟨m, -, h1⟩ := h1
        split_ifs at h1
        all_goals
          obtain rfl := Option.some.inj h1
          simp only [Function.update_of_ne hx]
          exact hn
    · obtain rfl := Option.some.inj h1; exact hn

theorem destroy_dead {hw : CHw} {d : Bool} (l : List Nat) {s : CSt} {id : Nat} (hid : id ∈ l) (hn : s.obj id = none) : l.foldlM (cDestroy hw d) s = none := by
  induction l generalizing s with
  | nil => cases hid
  | cons x l ih =>
    rw [List.foldlM_cons]
    by_cases hx : id = x
    · subst hx
      have : cDestroy hw d s id = none := by unfold cDestroy; rw [hn]
      rw [this]; rfl
    · cases h : cDestroy hw d s x with
      | none => rfl
      | some s' => exact ih ((List.mem_cons.1 hid).resolve_left hx) (cDestroy_none h hn)

theorem memory_dead {hw : CHw} {s : CSt} {id : Nat} (hid : id ∈ (cGet hw s).images) (hn : s.obj id = none) : cMemory hw s = none := by
  unfold cMemory
  generalize (cGet hw s).images = l at hid
  have : (l.mapM fun id => (s.obj id).map (·.size)) = none := by
    induction l with
    | nil => cases hid
    | cons x l ih =>
      rw [List.mapM_cons]
      by_cases hx : id = x
      · subst hx; rw [hn]; rfl
      · cases h : s.obj x with
        | none => rfl
        | some o =>
          rw [ih ((List.mem_cons.1 hid).resolve_left hx)]
          rfl
  rw [this]; rfl

/-- A shared image is registered as an image by the constructor of `Image`, takes the name "SharedImage" afterwards and is therefore left in the list of the images by its destructor: from then on, after
any program, the list holds a dead object and both `getAllocatedMemory` and `deleteAllImages` are undefined. -/
theorem C107_shared_bug (hw : CHw) (ops : List COp) (hl : (AReg.start hw).LegalRun hw ops) (hk : (ops.foldl (AReg.step hw) (AReg.start hw)).keep = true)
    (id : Nat) (hid : (ops.foldl (AReg.step hw) (AReg.start hw)).live id = none) (size : Nat) :
    ∃ s, cRun hw (ops ++ [.construct id "Image" true size, .rename id "SharedImage", .destroy id]) = some s ∧ s.obj id = none ∧
      id ∈ (cGet hw s).images ∧ cMemory hw s = none ∧ cDeleteAllImages hw s = none := by
  obtain ⟨s0, h1, h2⟩ := cRun_rel ops (crel_start hw) hl
  obtain ⟨s1, h3, h4⟩ := cConstruct_rel h2 hid "Image" true size
  generalize hb : (ops.foldl (AReg.step hw) (AReg.start hw)) = b at *
  have hn : id ∉ b.reg := fun e => by have := h2.alive id e; rw [hid] at this; cases this
  have ha : b.make id "Image" true size = ⟨Function.update b.live id (some ("Image", size)), b.reg ++ [id], b.keep, b.threads⟩ := by
    unfold AReg.make AReg.enter
    simp only [if_true]
    rw [if_neg hn]
  rw [ha] at h4
  have ho : s1.obj id = some ⟨"Image", true, size⟩ := by rw [h4.obj]; simp
  have hobj : (cGet hw s1).objects = b.reg ++ [id] := h4.objects
  have him : id ∈ (cGet hw s1).images := by
    rw [h4.images]
    refine List.mem_filter.2 ⟨by simp, ?_⟩
    unfold AReg.isImage
    simp
  have hkeep : (cGet hw s1).keepAlive = true := by rw [h4.keep]; exact hk
  let s2 : CSt := ⟨Function.update s1.obj id (some ⟨"SharedImage", true, size⟩), s1.inst⟩
  have hr : cRename s1 id "SharedImage" = some s2 := by unfold cRename; rw [ho]; rfl
  let s3 : CSt := ⟨Function.update (Function.update s2.obj id (some ⟨"SharedImage", false, size⟩)) id none,
    some { cGet hw s1 with objects := (b.reg ++ [id]).filter (· ≠ id), keepAlive := true }⟩
  have hdst : cDestroy hw false s2 id = some s3 := by
    have ho2 : s2.obj id = some ⟨"SharedImage", true, size⟩ := by simp [s2]
    have hg : cGet hw s2 = cGet hw s1 := rfl
    unfold cDestroy
    rw [ho2]
    simp only [if_true]
    unfold cUnregister
    rw [ho2]
    simp only [hg, hobj, hkeep]
    rw [if_neg (by simp), eraseRemove_nodup (by
      have := h4.nodup
      exact this) (by simp), if_neg (show ¬ "SharedImage" = "Image" by decide)]
    simp only [Option.bind_some]
    rw [if_neg (by simp)]
    rfl
  have hs3 : s3.obj id = none := by simp [s3]
  have hi3 : id ∈ (cGet hw s3).images := him
  refine ⟨s3, ?_, hs3, hi3, memory_dead hi3 hs3, ?_⟩
  · unfold cRun
    rw [List.foldlM_append, h1]
    show (cStep hw s0 (.construct id "Image" true size) >>= fun s => List.foldlM (cStep hw) s [.rename id "SharedImage", .destroy id]) = _
    rw [show cStep hw s0 (.construct id "Image" true size) = some s1 from h3]
    show (cStep hw s1 (.rename id "SharedImage") >>= fun s => List.foldlM (cStep hw) s [.destroy id]) = _
    rw [show cStep hw s1 (.rename id "SharedImage") = some s2 from hr]
    show (cStep hw s2 (.destroy id) >>= pure) = _
    rw [show cStep hw s2 (.destroy id) = some s3 from hdst]
    rfl
  · unfold cDeleteAllImages
    exact destroy_dead _ hi3 hs3

example : (AReg.start ⟨8, 4⟩).LegalRun ⟨8, 4⟩ (exProg.take 9) ∧ ((exProg.take 9).foldl (AReg.step ⟨8, 4⟩) (AReg.start ⟨8, 4⟩)).keep = true ∧
    ((exProg.take 9).foldl (AReg.step ⟨8, 4⟩) (AReg.start ⟨8, 4⟩)).live 14 = none :=
  ⟨⟨rfl, rfl, rfl, ⟨("StrElt", 4), rfl, by decide⟩, ⟨rfl, rfl⟩, trivial, rfl, rfl, rfl, trivial⟩, by decide +kernel, by decide +kernel⟩

/-- The copy of a shared image takes its name and is missing in the list of the images. -/
theorem C107_copy_shared_bug :
    ((cRun ⟨8, 4⟩ [.construct 0 "Image" true 5, .rename 0 "SharedImage", .copy 1 0 true 7]).map fun s => ((cGet ⟨8, 4⟩ s).objects, (cGet ⟨8, 4⟩ s).images)) =
      some ([0, 1], [0]) := by decide +kernel

/-- `kill` with objects in the registry of a library which is not kept alive deletes the instance twice: the destructor of the last object calls `kill` again. -/
theorem C107_kill_bug (hw : CHw) (ops : List COp) (hl : (AReg.start hw).LegalRun hw ops) (hk : (ops.foldl (AReg.step hw) (AReg.start hw)).keep = false)
    (hne : (ops.foldl (AReg.step hw) (AReg.start hw)).reg ≠ []) : cRun hw (ops ++ [.kill]) = none := by
  obtain ⟨s0, h1, h2⟩ := cRun_rel ops (crel_start hw) hl
  have key : ∀ (l : List Nat) (s : CSt) (a : AReg), CRel hw s a → a.keep = false → a.reg = l → l ≠ [] → l.foldlM (cDestroy hw true) s = none := by
    intro l
    induction l with
    | nil => exact fun _ _ _ _ _ h => absurd rfl h
    | cons x l ih =>
      intro s a hs hka hr _
      have hnd : (x :: l).Nodup := hr ▸ hs.nodup
      have hf : a.reg.filter (· ≠ x) = l := by
        rw [hr, List.filter_cons_of_neg (by simp), List.filter_eq_self]
        intro y hy
        have : y ≠ x := by rintro rfl; exact (List.nodup_cons.1 hnd).1 hy
        simpa using this
      have hxr : x ∈ a.reg := by rw [hr]; simp
      have hlive := hs.alive x hxr
      by_cases hl : l = []
      · obtain ⟨c, z, ho, hso⟩ := hs.live_of hlive
        have : cDestroy hw true s x = none := by
          unfold cDestroy
          rw [hso]
          simp only [hxr, decide_true, if_true]
          unfold cUnregister
          rw [hso]
          simp only [hxr, decide_true, hs.objects, hs.keep, hka, eraseRemove_nodup hs.nodup hxr, hf, hl]
          rw [if_neg (by simp)]
          simp only [Option.bind_some, and_self, if_true]
          split_ifs
          · cases eraseRemove (cGet hw s).images x <;> rfl
          · rfl
        rw [List.foldlM_cons, this]; rfl
      · obtain ⟨s', e1, e2⟩ := cDestroy_rel hs hlive true (fun _ => by rw [hf]; exact fun h => hl h.2)
        rw [List.foldlM_cons, e1]
        refine ih s' _ e2 ?_ (by rw [images_kill1.2, hf]) hl
        unfold AReg.kill1 AReg.drop
        rw [if_pos hxr, if_neg (by rw [hf]; exact fun h => hl h.2)]
        exact hka
  unfold cRun
  rw [List.foldlM_append, h1]
  show (cStep hw s0 .kill >>= pure) = _
  have : cStep hw s0 .kill = none := by
    show cKill hw s0 = none
    unfold cKill
    cases hi : s0.inst with
    | none =>
      exfalso
      apply hne
      rw [← h2.objects]; unfold cGet; rw [hi]; rfl
    | some I =>
      have hI : I.objects = (ops.foldl (AReg.step hw) (AReg.start hw)).reg := by rw [← h2.objects]; unfold cGet; rw [hi]; rfl
      simp only
      rw [hI, key _ s0 _ h2 hk rfl hne]
      rfl
  rw [this]; rfl

example : (exProg.foldl (AReg.step ⟨8, 4⟩) (AReg.start ⟨8, 4⟩)).keep = false ∧ (exProg.foldl (AReg.step ⟨8, 4⟩) (AReg.start ⟨8, 4⟩)).reg ≠ [] := by decide +kernel

/-- `getNumberOfCores` gives the number of threads; no threads at all are accepted; the reset does not bring back the number of threads at the start. -/
theorem C107_threads_bug (hw : CHw) (s : CSt) :
    (∀ n ≤ hw.logical, cCores hw (cSetThreads hw s n).1 = n) ∧ (cSetThreads hw s 0).2 = 1 ∧ cThreads hw (cSetThreads hw s 0).1 = 0 ∧
      cThreads hw ⟨s.obj, none⟩ = hw.cores ∧ cThreads hw (cResetThreads hw s) = hw.logical := by
  refine ⟨fun n hn => ?_, ?_, ?_, rfl, rfl⟩
  · unfold cSetThreads; rw [if_pos hn]; rfl
  · unfold cSetThreads; rw [if_pos (Nat.zero_le _)]
  · unfold cSetThreads; rw [if_pos (Nat.zero_le _)]; rfl

end Smil
