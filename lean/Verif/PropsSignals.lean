import Verif.Signals

/-!
# C04: signals and slots

The specification is the list of established connections, in order.
-/

namespace Smil
open SigState

/-- Specification state: live objects and the connections in the order they were made. -/
structure Conns where
  liveSig : Nat → Bool
  liveSlot : Nat → Bool
  conns : List (Nat × Nat)

/-- Specification of an operation (`none`: the program uses an object that does not exist). -/
def Conns.step (a : Conns) : Op → Option Conns
  | .newSignal s => if a.liveSig s then none
      else some { a with liveSig := Function.update a.liveSig s true }
  | .newSlot p => if a.liveSlot p then none
      else some { a with liveSlot := Function.update a.liveSlot p true }
  | .connect s p => if a.liveSig s && a.liveSlot p then
      some (if (s, p) ∈ a.conns then a else { a with conns := a.conns ++ [(s, p)] }) else none
  | .disconnect s p => if a.liveSig s && a.liveSlot p then
      some { a with conns := a.conns.filter (· ≠ (s, p)) } else none
  | .disconnectAll s => if a.liveSig s then
      some { a with conns := a.conns.filter (·.1 ≠ s) } else none
  | .destroySignal s => if a.liveSig s then
      some { a with conns := a.conns.filter (·.1 ≠ s),
                    liveSig := Function.update a.liveSig s false } else none
  | .destroySlot p => if a.liveSlot p then
      some { a with conns := a.conns.filter (·.2 ≠ p),
                    liveSlot := Function.update a.liveSlot p false } else none

/-- Specification of a history. -/
def Conns.run (a : Conns) : List Op → Option Conns
  | [] => some a
  | m :: ms => (a.step m).bind fun a' => a'.run ms

/-- Slots connected to `s`, in connection order. -/
def Conns.slotsOf (a : Conns) (s : Nat) : List Nat := (a.conns.filter (·.1 = s)).map (·.2)

/-- Signals to which `p` is connected, in connection order. -/
def Conns.sigsOf (a : Conns) (p : Nat) : List Nat := (a.conns.filter (·.2 = p)).map (·.1)

/-- The concrete lists are those of the connections. -/
structure Rel (c : SigState) (a : Conns) : Prop where
  sigs : ∀ s, c.sigs s = if a.liveSig s then some (a.slotsOf s) else none
  slots : ∀ p, c.slots p = if a.liveSlot p then some (a.sigsOf p) else none
  nodup : a.conns.Nodup
  live : ∀ q ∈ a.conns, a.liveSig q.1 = true ∧ a.liveSlot q.2 = true

theorem mem_slotsOf {a : Conns} {s p : Nat} : p ∈ a.slotsOf s ↔ (s, p) ∈ a.conns := by
  simp only [Conns.slotsOf, List.mem_map, List.mem_filter, decide_eq_true_eq]
  constructor
  · rintro ⟨⟨x, y⟩, ⟨h, rfl⟩, rfl⟩; exact h
  · intro h; exact ⟨(s, p), ⟨h, rfl⟩, rfl⟩

theorem mem_sigsOf {a : Conns} {s p : Nat} : s ∈ a.sigsOf p ↔ (s, p) ∈ a.conns := by
  simp only [Conns.sigsOf, List.mem_map, List.mem_filter, decide_eq_true_eq]
  constructor
  · rintro ⟨⟨x, y⟩, ⟨h, rfl⟩, rfl⟩; exact h
  · intro h; exact ⟨(s, p), ⟨h, rfl⟩, rfl⟩

theorem nodup_slotsOf {a : Conns} (h : a.conns.Nodup) (s : Nat) : (a.slotsOf s).Nodup := by
  unfold Conns.slotsOf
  refine List.Nodup.map_on ?_ (h.filter _)
  rintro ⟨x, y⟩ hx ⟨x', y'⟩ hx' rfl
  simp only [List.mem_filter, decide_eq_true_eq] at hx hx'
  rw [hx.2, hx'.2]

theorem nodup_sigsOf {a : Conns} (h : a.conns.Nodup) (p : Nat) : (a.sigsOf p).Nodup := by
  unfold Conns.sigsOf
  refine List.Nodup.map_on ?_ (h.filter _)
  rintro ⟨x, y⟩ hx ⟨x', y'⟩ hx' rfl
  simp only [List.mem_filter, decide_eq_true_eq] at hx hx'
  rw [hx.2, hx'.2]

theorem filter_conn_slotsOf (l : List (Nat × Nat)) (s p s' : Nat) :
    ((l.filter (· ≠ (s, p))).filter (·.1 = s')).map (·.2)
      = if s' = s then ((l.filter (·.1 = s')).map (·.2)).filter (· ≠ p)
        else (l.filter (·.1 = s')).map (·.2) := by
  induction l with
  | nil => simp
  | cons q l ih =>
      obtain ⟨x, y⟩ := q
      by_cases h1 : x = s' <;> by_cases h2 : s' = s <;> by_cases h3 : y = p <;>
        by_cases h4 : x = s <;> simp_all

theorem filter_conn_sigsOf (l : List (Nat × Nat)) (s p p' : Nat) :
    ((l.filter (· ≠ (s, p))).filter (·.2 = p')).map (·.1)
      = if p' = p then ((l.filter (·.2 = p')).map (·.1)).filter (· ≠ s)
        else (l.filter (·.2 = p')).map (·.1) := by
  induction l with
  | nil => simp
  | cons q l ih =>
      obtain ⟨x, y⟩ := q
      by_cases h1 : y = p' <;> by_cases h2 : p' = p <;> by_cases h3 : x = s <;>
        by_cases h4 : y = p <;> simp_all

theorem filter_sig_slotsOf (l : List (Nat × Nat)) (s s' : Nat) :
    ((l.filter (·.1 ≠ s)).filter (·.1 = s')).map (·.2)
      = if s' = s then [] else (l.filter (·.1 = s')).map (·.2) := by
  induction l with
  | nil => simp
  | cons q l ih =>
      obtain ⟨x, y⟩ := q
      by_cases h1 : x = s' <;> by_cases h2 : s' = s <;> by_cases h3 : x = s <;>
        simp_all

theorem filter_sig_sigsOf (l : List (Nat × Nat)) (s p : Nat) :
    ((l.filter (·.1 ≠ s)).filter (·.2 = p)).map (·.1)
      = ((l.filter (·.2 = p)).map (·.1)).filter (· ≠ s) := by
  induction l with
  | nil => simp
  | cons q l ih =>
      obtain ⟨x, y⟩ := q
      by_cases h1 : y = p <;> by_cases h3 : x = s <;>
        simp_all

theorem filter_slot_sigsOf (l : List (Nat × Nat)) (p p' : Nat) :
    ((l.filter (·.2 ≠ p)).filter (·.2 = p')).map (·.1)
      = if p' = p then [] else (l.filter (·.2 = p')).map (·.1) := by
  induction l with
  | nil => simp
  | cons q l ih =>
      obtain ⟨x, y⟩ := q
      by_cases h1 : y = p' <;> by_cases h2 : p' = p <;> by_cases h3 : y = p <;>
        simp_all

theorem filter_slot_slotsOf (l : List (Nat × Nat)) (s p : Nat) :
    ((l.filter (·.2 ≠ p)).filter (·.1 = s)).map (·.2)
      = ((l.filter (·.1 = s)).map (·.2)).filter (· ≠ p) := by
  induction l with
  | nil => simp
  | cons q l ih =>
      obtain ⟨x, y⟩ := q
      by_cases h1 : x = s <;> by_cases h3 : y = p <;>
        simp_all

theorem erase_eq_filter_ne {l : List Nat} (h : l.Nodup) (x : Nat) :
    l.erase x = l.filter (· ≠ x) := by
  rw [h.erase_eq_filter x]
  apply List.filter_congr
  intro y _
  by_cases e : y = x <;> simp [e]

theorem filter_ne_of_not_mem {l : List Nat} {x : Nat} (h : x ∉ l) : l.filter (· ≠ x) = l := by
  rw [List.filter_eq_self]
  intro y hy
  simp only [decide_eq_true_eq]
  rintro rfl
  exact h hy

/-- Unregistering one signal from a list of live slots. -/
theorem foldlM_unregister (s : Nat) (l : List Nat) (c : SigState)
    (hl : ∀ p ∈ l, (c.slots p).isSome) (hnd : l.Nodup) :
    l.foldlM (fun c p => c.unregisterSignal p s) c
      = some { c with slots := fun p => if p ∈ l then (c.slots p).map (·.erase s) else c.slots p } := by
  induction l generalizing c with
  | nil => simp
  | cons p l ih =>
      rw [List.nodup_cons] at hnd
      obtain ⟨q, hq⟩ := Option.isSome_iff_exists.mp (hl p (by simp))
      have e : c.unregisterSignal p s
          = some { c with slots := Function.update c.slots p (some (q.erase s)) } := by
        simp [unregisterSignal, hq]
      rw [List.foldlM_cons, e]
      simp only [Option.bind_eq_bind, Option.bind_some]
      rw [ih _ ?_ hnd.2]
      · simp only [Option.some.injEq, SigState.mk.injEq, true_and]
        funext p'
        by_cases h1 : p' = p
        · subst h1
          simp [hnd.1, hq]
        · simp [h1]
      · intro p' hp'
        have : p' ≠ p := by rintro rfl; exact hnd.1 hp'
        simp [this, hl p' (by simp [hp'])]

/-- Removing one slot from a list of live signals which contain it. -/
theorem foldlM_disconnect (p : Nat) (l : List Nat) (c : SigState)
    (hl : ∀ s ∈ l, ∃ q, c.sigs s = some q ∧ p ∈ q) (hnd : l.Nodup) :
    l.foldlM (fun c s => c.disconnect s p false) c
      = some { c with sigs := fun s => if s ∈ l then (c.sigs s).map (·.erase p) else c.sigs s } := by
  induction l generalizing c with
  | nil => simp
  | cons s l ih =>
      rw [List.nodup_cons] at hnd
      obtain ⟨q, hq, hp⟩ := hl s (by simp)
      have e : c.disconnect s p false
          = some { c with sigs := Function.update c.sigs s (some (q.erase p)) } := by
        simp [disconnect, hq, hp]
      rw [List.foldlM_cons, e]
      simp only [Option.bind_eq_bind, Option.bind_some]
      rw [ih _ ?_ hnd.2]
      · simp only [Option.some.injEq, SigState.mk.injEq, and_true]
        funext s'
        by_cases h1 : s' = s
        · subst h1
          simp [hnd.1, hq]
        · simp [h1]
      · intro s' hs'
        have : s' ≠ s := by rintro rfl; exact hnd.1 hs'
        simp [this, hl s' (by simp [hs'])]

/-- Operations that respect the specification: all but `disconnectAll` called directly. -/
def Op.Sound : Op → Prop
  | .disconnectAll _ => False
  | _ => True

theorem Rel.step {c : SigState} {a : Conns} (h : Rel c a) (m : Op) (hm : Op.Sound m) (a' : Conns)
    (ha : a.step m = some a') : ∃ c', c.step m = some c' ∧ Rel c' a' := by
  cases m with
  | newSignal s =>
      simp only [Conns.step] at ha
      split_ifs at ha with h1
      obtain rfl := Option.some.inj ha
      have hs := h.sigs s
      rw [if_neg h1] at hs
      refine ⟨{ c with sigs := Function.update c.sigs s (some []) },
        by simp only [SigState.step, hs], ?_, h.slots, h.nodup, ?_⟩
      · intro s'
        by_cases e : s' = s
        · subst e
          have : a.slotsOf s' = [] := by
            rw [List.eq_nil_iff_forall_not_mem]
            intro p hp
            exact h1 (h.live _ (mem_slotsOf.mp hp)).1
          simp only [Function.update_self, if_true]
          exact congrArg some this.symm
        · simp [e, h.sigs s', Conns.slotsOf]
      · intro q hq
        refine ⟨?_, (h.live q hq).2⟩
        by_cases e : q.1 = s
        · simp [e]
        · simp [e, (h.live q hq).1]
  | newSlot p =>
      simp only [Conns.step] at ha
      split_ifs at ha with h1
      obtain rfl := Option.some.inj ha
      have hs := h.slots p
      rw [if_neg h1] at hs
      refine ⟨{ c with slots := Function.update c.slots p (some []) },
        by simp only [SigState.step, hs], h.sigs, ?_, h.nodup, ?_⟩
      · intro p'
        by_cases e : p' = p
        · subst e
          have : a.sigsOf p' = [] := by
            rw [List.eq_nil_iff_forall_not_mem]
            intro s hs
            exact h1 (h.live _ (mem_sigsOf.mp hs)).2
          simp only [Function.update_self, if_true]
          exact congrArg some this.symm
        · simp [e, h.slots p', Conns.sigsOf]
      · intro q hq
        refine ⟨(h.live q hq).1, ?_⟩
        by_cases e : q.2 = p
        · simp [e]
        · simp [e, (h.live q hq).2]
  | connect s p =>
      simp only [Conns.step] at ha
      split_ifs at ha with h1 h2
      · obtain rfl := Option.some.inj ha
        rw [Bool.and_eq_true] at h1
        refine ⟨c, ?_, h⟩
        simp [SigState.step, SigState.connect, h.sigs s, h1.1, mem_slotsOf, h2]
      · obtain rfl := Option.some.inj ha
        rw [Bool.and_eq_true] at h1
        refine ⟨⟨Function.update c.sigs s (some (a.slotsOf s ++ [p])),
          Function.update c.slots p (some (a.sigsOf p ++ [s]))⟩, ?_, ?_, ?_, ?_, ?_⟩
        · simp [SigState.step, SigState.connect, h.sigs s, h1.1, mem_slotsOf, h2,
            registerSignal, h.slots p, h1.2, mem_sigsOf]
        · intro s'
          by_cases e : s' = s
          · subst e
            simp [h1.1, Conns.slotsOf, List.filter_append]
          · simp [e, h.sigs s', Conns.slotsOf, List.filter_append, Ne.symm e]
        · intro p'
          by_cases e : p' = p
          · subst e
            simp [h1.2, Conns.sigsOf, List.filter_append]
          · simp [e, h.slots p', Conns.sigsOf, List.filter_append, Ne.symm e]
        · simp only
          rw [List.nodup_append]
          refine ⟨h.nodup, by simp, ?_⟩
          intro x hx y hy
          simp only [List.mem_singleton] at hy
          rintro rfl
          exact h2 (hy ▸ hx)
        · intro q hq
          simp only [List.mem_append, List.mem_singleton] at hq
          rcases hq with hq | rfl
          · exact h.live q hq
          · exact h1
  | disconnect s p =>
      simp only [Conns.step] at ha
      split_ifs at ha with h1
      obtain rfl := Option.some.inj ha
      rw [Bool.and_eq_true] at h1
      have hlive : ∀ q ∈ a.conns.filter (· ≠ (s, p)), a.liveSig q.1 = true ∧ a.liveSlot q.2 = true :=
        fun q hq => h.live q (List.mem_of_mem_filter hq)
      by_cases h2 : (s, p) ∈ a.conns
      · refine ⟨⟨Function.update c.sigs s (some ((a.slotsOf s).erase p)),
          Function.update c.slots p (some ((a.sigsOf p).erase s))⟩, ?_, ?_, ?_, h.nodup.filter _, hlive⟩
        · simp [SigState.step, SigState.disconnect, h.sigs s, h1.1, mem_slotsOf, h2,
            unregisterSignal, h.slots p, h1.2]
        · intro s'
          simp only [Conns.slotsOf]
          rw [filter_conn_slotsOf]
          by_cases e : s' = s
          · subst e
            simp only [Function.update_self, h1.1, if_true]
            exact congrArg some (erase_eq_filter_ne (nodup_slotsOf h.nodup s') p)
          · simp [e, h.sigs s', Conns.slotsOf]
        · intro p'
          simp only [Conns.sigsOf]
          rw [filter_conn_sigsOf]
          by_cases e : p' = p
          · subst e
            simp only [Function.update_self, h1.2, if_true]
            exact congrArg some (erase_eq_filter_ne (nodup_sigsOf h.nodup p') s)
          · simp [e, h.slots p', Conns.sigsOf]
      · have hf : a.conns.filter (· ≠ (s, p)) = a.conns := by
          rw [List.filter_eq_self]
          intro q hq
          simp only [decide_eq_true_eq]
          rintro rfl
          exact h2 hq
        refine ⟨c, ?_, ?_⟩
        · simp [SigState.step, SigState.disconnect, h.sigs s, h1.1, mem_slotsOf, h2]
        · rw [hf]; exact h
  | disconnectAll s => exact absurd hm (by simp [Op.Sound])
  | destroySignal s =>
      simp only [Conns.step] at ha
      split_ifs at ha with h1
      obtain rfl := Option.some.inj ha
      have hsl : ∀ p ∈ a.slotsOf s, (c.slots p).isSome := by
        intro p hp
        rw [h.slots p, if_pos (h.live _ (mem_slotsOf.mp hp)).2]
        rfl
      have e := foldlM_unregister s (a.slotsOf s) c hsl (nodup_slotsOf h.nodup s)
      refine ⟨_, by
        simp only [SigState.step, SigState.disconnectAll, h.sigs s, h1, if_true,
          Option.bind_eq_bind, Option.bind_some, e]; rfl, ?_, ?_, h.nodup.filter _, ?_⟩
      · intro s'
        simp only [Conns.slotsOf]
        rw [filter_sig_slotsOf]
        by_cases es : s' = s
        · simp [es]
        · simp [es, h.sigs s', Conns.slotsOf]
      · intro p
        simp only [Conns.sigsOf]
        rw [filter_sig_sigsOf, h.slots p]
        by_cases hp : a.liveSlot p = true
        · simp only [hp, if_true]
          by_cases hm : p ∈ a.slotsOf s
          · rw [if_pos hm, Option.map_some]
            exact congrArg some (erase_eq_filter_ne (nodup_sigsOf h.nodup p) s)
          · rw [if_neg hm, ← Conns.sigsOf, filter_ne_of_not_mem]
            rw [mem_sigsOf, ← mem_slotsOf]
            exact hm
        · simp [hp]
      · intro q hq
        have hq' := List.mem_of_mem_filter hq
        have hne : q.1 ≠ s := by simpa using List.of_mem_filter hq
        simp [hne, h.live q hq']
  | destroySlot p =>
      simp only [Conns.step] at ha
      split_ifs at ha with h1
      obtain rfl := Option.some.inj ha
      have hsl : ∀ s ∈ a.sigsOf p, ∃ q, c.sigs s = some q ∧ p ∈ q := by
        intro s hs
        have hc := mem_sigsOf.mp hs
        exact ⟨a.slotsOf s, by rw [h.sigs s, if_pos (h.live _ hc).1], mem_slotsOf.mpr hc⟩
      have e := foldlM_disconnect p (a.sigsOf p) c hsl (nodup_sigsOf h.nodup p)
      refine ⟨_, by
        simp only [SigState.step, SigState.unregisterAll, h.slots p, h1, if_true,
          Option.bind_eq_bind, Option.bind_some, e]; rfl, ?_, ?_, h.nodup.filter _, ?_⟩
      · intro s
        simp only [Conns.slotsOf]
        rw [filter_slot_slotsOf, h.sigs s]
        by_cases hs : a.liveSig s = true
        · simp only [hs, if_true]
          by_cases hm : s ∈ a.sigsOf p
          · rw [if_pos hm, Option.map_some]
            exact congrArg some (erase_eq_filter_ne (nodup_slotsOf h.nodup s) p)
          · rw [if_neg hm, ← Conns.slotsOf, filter_ne_of_not_mem]
            rw [mem_slotsOf, ← mem_sigsOf]
            exact hm
        · simp [hs]
      · intro p'
        simp only [Conns.sigsOf]
        rw [filter_slot_sigsOf]
        by_cases ep : p' = p
        · simp [ep]
        · simp [ep, h.slots p', Conns.sigsOf]
      · intro q hq
        have hq' := List.mem_of_mem_filter hq
        have hne : q.2 ≠ p := by simpa using List.of_mem_filter hq
        simp [hne, h.live q hq']

/-- No objects, no connections. -/
def Conns.init : Conns := ⟨fun _ => false, fun _ => false, []⟩

theorem Rel.init : Rel SigState.init Conns.init :=
  ⟨fun _ => rfl, fun _ => rfl, by simp [Conns.init], by simp [Conns.init]⟩

theorem Rel.run {c : SigState} {a : Conns} (h : Rel c a) (ms : List Op)
    (hm : ∀ m ∈ ms, Op.Sound m) (a' : Conns) (ha : a.run ms = some a') :
    ∃ c', c.run ms = some c' ∧ Rel c' a' := by
  induction ms generalizing c a with
  | nil => obtain rfl := Option.some.inj ha; exact ⟨c, rfl, h⟩
  | cons m ms ih =>
      simp only [Conns.run] at ha
      cases hs : a.step m with
      | none => rw [hs] at ha; exact absurd ha (by simp)
      | some a1 =>
          rw [hs] at ha
          obtain ⟨c1, e1, h1⟩ := h.step m (hm m (by simp)) a1 hs
          obtain ⟨c', e', h'⟩ := ih h1 (fun m' hm' => hm m' (by simp [hm'])) ha
          exact ⟨c', by simp [SigState.run, e1, e'], h'⟩

/-- **C04, partial**: in any history of creations, connections, disconnections and destructions
on existing objects (without a direct `disconnectAll`) nothing undefined happens; a slot is listed
by a signal exactly when the signal is listed by the slot, namely when they are connected; a
trigger runs exactly the connected slots, each once, in connection order, all of them alive.
Missing: `disconnectAll`, see `C04_disconnectAll_bug`. -/
theorem C04_registration_partial (ms : List Op) (hm : ∀ m ∈ ms, Op.Sound m) (a : Conns)
    (ha : Conns.init.run ms = some a) :
    ∃ c, SigState.init.run ms = some c ∧
      (∀ s l, c.sigs s = some l → ∀ p, p ∈ l ↔ ∃ l', c.slots p = some l' ∧ s ∈ l') ∧
      (∀ s, a.liveSig s = true → c.trigger s = some (a.slotsOf s) ∧ (a.slotsOf s).Nodup ∧
        (∀ p ∈ a.slotsOf s, a.liveSlot p = true) ∧
        ∀ p, p ∈ a.slotsOf s ↔ (s, p) ∈ a.conns) ∧
      (∀ s, a.liveSig s = false → c.sigs s = none) := by
  obtain ⟨c, e, h⟩ := Rel.init.run ms hm a ha
  refine ⟨c, e, ?_, ?_, ?_⟩
  · intro s l hl p
    rw [h.sigs s] at hl
    split_ifs at hl with h1
    obtain rfl := Option.some.inj hl
    rw [mem_slotsOf]
    constructor
    · intro hc
      exact ⟨a.sigsOf p, by rw [h.slots p, if_pos (h.live _ hc).2], mem_sigsOf.mpr hc⟩
    · rintro ⟨l', hl', hs⟩
      rw [h.slots p] at hl'
      split_ifs at hl' with h2
      obtain rfl := Option.some.inj hl'
      exact mem_sigsOf.mp hs
  · intro s hs
    have hlive : ∀ p ∈ a.slotsOf s, a.liveSlot p = true :=
      fun p hp => (h.live _ (mem_slotsOf.mp hp)).2
    refine ⟨?_, nodup_slotsOf h.nodup s, hlive, fun p => mem_slotsOf⟩
    have : (a.slotsOf s).all (fun p => (c.slots p).isSome) = true := by
      rw [List.all_eq_true]
      intro p hp
      rw [h.slots p, if_pos (hlive p hp)]
      rfl
    simp only [trigger, h.sigs s, hs, if_true, Option.bind_eq_bind, Option.bind_some, this]
    rfl
  · intro s hs
    rw [h.sigs s]
    simp [hs]

/-- After `disconnectAll` the slot is still run by the signal although it does not list it. -/
theorem C04_disconnectAll_bug :
    ((SigState.init.run [.newSignal 0, .newSlot 1, .connect 0 1, .disconnectAll 0]).bind
      fun c => (c.trigger 0).map fun r => (r, c.slots 1)) = some ([1], some []) := by decide

/-- After `disconnectAll` and destruction of the slot, a trigger runs a destroyed slot. -/
theorem C04_dangling_bug :
    ((SigState.init.run [.newSignal 0, .newSlot 1, .connect 0 1, .disconnectAll 0,
      .destroySlot 1]).isSome = true) ∧
    ((SigState.init.run [.newSignal 0, .newSlot 1, .connect 0 1, .disconnectAll 0,
      .destroySlot 1]).bind fun c => c.trigger 0) = none := by decide

example : (SigState.init.run [.newSignal 0, .newSignal 7, .newSlot 1, .newSlot 2, .newSlot 3,
    .connect 0 3, .connect 0 1, .connect 0 2, .connect 7 1, .connect 0 3, .disconnect 0 1,
    .connect 0 1, .destroySlot 2]).bind (fun c => c.trigger 0) = some [3, 1] := by decide

end Smil
