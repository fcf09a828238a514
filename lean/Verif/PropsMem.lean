import Verif.ImageMemLemmas
import Verif.PropsCoords

/-!
# C03: image memory life cycle
-/

namespace Smil

variable {α : Type}

theorem SysInv.step {sz : Nat} {s s' : Sys α} (h : SysInv sz s) (m : MOp)
    (hs : s.step sz m = some s') : SysInv sz s' := by
  cases m with
  | create i =>
      simp only [Sys.step] at hs
      cases hi : s.objs i with
      | some o => rw [hi] at hs; exact absurd hs (by simp)
      | none =>
          rw [hi] at hs
          obtain rfl := Option.some.inj hs
          have hni : i ∉ s.reg := by rw [h.reg.2, hi]; simp
          refine ⟨?_, h.fresh, ⟨?_, ?_⟩, ?_, ?_⟩
          · intro j q hj
            simp only [Sys.put] at hj
            split_ifs at hj with hji
            · obtain rfl := Option.some.inj hj
              exact ⟨rfl, rfl, rfl, by simp, by simp⟩
            · exact h.objs j q hj
          · simp only
            rw [List.nodup_append]
            refine ⟨h.reg.1, by simp, ?_⟩
            intro a ha b hb
            simp only [List.mem_singleton] at hb
            rintro rfl
            exact hni (hb ▸ ha)
          · intro j
            simp only [Sys.put, List.mem_append, List.mem_singleton]
            rw [h.reg.2]
            split_ifs with hji
            · simp [hji]
            · simp [hji]
          · intro j k q r hjk hj hk b hb
            simp only [Sys.put] at hj hk
            split_ifs at hj hk with h1 h2 h2
            · omega
            · obtain rfl := Option.some.inj hj
              simp [Obj.blocks] at hb
            · obtain rfl := Option.some.inj hk
              simp [Obj.blocks]
            · exact h.disj j k q r hjk hj hk b hb
          · intro b hb
            obtain ⟨j, q, hj, hq⟩ := h.noleak b hb
            have hji : j ≠ i := by rintro rfl; rw [hi] at hj; exact absurd hj (by simp)
            exact ⟨j, q, by simp [Sys.put, hji, hj], hq⟩
  | destroy i =>
      simp only [Sys.step] at hs
      cases hi : s.objs i with
      | none => rw [hi] at hs; exact absurd hs (by simp)
      | some o =>
          rw [hi] at hs
          obtain ⟨H1, o1, e1, s1, a1, -, -, -, b1⟩ := deallocate_spec (h.pre hi)
          simp only [Option.bind_eq_bind, Option.bind_some, e1] at hs
          obtain rfl := Option.some.inj hs
          have h' := h.put hi s1
          refine ⟨?_, s1.fresh, ⟨h.reg.1.filter _, ?_⟩, ?_, ?_⟩
          · intro j q hj
            simp only [Sys.put] at hj
            split_ifs at hj with hji
            exact h'.objs j q (by simp [Sys.put, hji, hj])
          · intro j
            simp only [Sys.put, List.mem_filter]
            rw [h.reg.2]
            split_ifs with hji
            · simp [hji]
            · simp [hji]
          · intro j k q r hjk hj hk b hb
            simp only [Sys.put] at hj hk
            split_ifs at hj hk with h1 h2
            exact h.disj j k q r hjk hj hk b hb
          · intro b hb
            obtain ⟨j, q, hj, hq⟩ := h'.noleak b hb
            have hji : j ≠ i := by
              rintro rfl
              simp only [Sys.put, if_true] at hj
              obtain rfl := Option.some.inj hj
              rw [b1] at hq
              simp at hq
            simp only [Sys.put, hji, if_false] at hj
            exact ⟨j, q, by simp [Sys.put, hji, hj], hq⟩
  | setSize i w hh d al =>
      simp only [Sys.step] at hs
      cases hi : s.objs i with
      | none => rw [hi] at hs; exact absurd hs (by simp)
      | some o =>
          rw [hi] at hs
          obtain ⟨H1, o1, e1, s1, -⟩ := setSize_spec (h.pre hi) w hh d al
          simp only [Option.bind_eq_bind, Option.bind_some, e1] at hs
          obtain rfl := Option.some.inj hs
          exact h.put hi s1
  | allocate i =>
      simp only [Sys.step] at hs
      cases hi : s.objs i with
      | none => rw [hi] at hs; exact absurd hs (by simp)
      | some o =>
          rw [hi] at hs
          cases ha : o.allocated with
          | true =>
              simp only [Option.bind_eq_bind, Option.bind_some, Obj.allocate, ha, if_true] at hs
              obtain rfl := Option.some.inj hs
              exact h.put hi (StepOK.refl (h.pre hi))
          | false =>
              obtain ⟨H1, o1, e1, s1, -⟩ := allocate_spec (h.pre hi) ha
              simp only [Option.bind_eq_bind, Option.bind_some, e1] at hs
              obtain rfl := Option.some.inj hs
              exact h.put hi s1
  | deallocate i =>
      simp only [Sys.step] at hs
      cases hi : s.objs i with
      | none => rw [hi] at hs; exact absurd hs (by simp)
      | some o =>
          rw [hi] at hs
          obtain ⟨H1, o1, e1, s1, -⟩ := deallocate_spec (h.pre hi)
          simp only [Option.bind_eq_bind, Option.bind_some, e1] at hs
          obtain rfl := Option.some.inj hs
          exact h.put hi s1
  | clone i j =>
      simp only [Sys.step] at hs
      cases hi : s.objs i with
      | none => rw [hi] at hs; exact absurd hs (by simp)
      | some o =>
          cases hj : s.objs j with
          | none => rw [hi, hj] at hs; exact absurd hs (by simp)
          | some src =>
              rw [hi, hj] at hs
              by_cases hg : src.allocated = true ∧ o.allocated = false ∧
                  src.w = o.w ∧ src.h = o.h ∧ src.d = o.d
              · exfalso
                obtain ⟨g1, g2, g3⟩ := hg
                obtain ⟨np, -⟩ := (h.objs i o hi).no g2
                simp [Obj.clone, Obj.setSize, g1, g3, np] at hs
              · obtain ⟨H1, o1, e1, s1, -⟩ := clone_spec h hi hj hg
                simp only [Option.bind_eq_bind, Option.bind_some, e1] at hs
                obtain rfl := Option.some.inj hs
                exact h.put hi s1

theorem SysInv.run {sz : Nat} (ms : List MOp) {s s' : Sys α} (h : SysInv sz s)
    (hs : s.run sz ms = some s') : SysInv sz s' := by
  induction ms generalizing s with
  | nil => obtain rfl := Option.some.inj hs; exact h
  | cons m ms ih =>
      simp only [Sys.run] at hs
      cases hm : s.step sz m with
      | none => rw [hm] at hs; exact absurd hs (by simp)
      | some s1 => rw [hm] at hs; exact ih (h.step m hm) hs

theorem lineTab_eq (w h d : Nat) :
    ((List.range d).flatMap fun k => (List.range h).map fun j => k * (w * h) + j * w)
      = (List.range (d * h)).map fun i => i * w := by
  induction d with
  | zero => simp
  | succ d ih =>
      rw [List.range_succ, List.flatMap_append, ih, Nat.succ_mul, List.range_add,
        List.map_append]
      congr 1
      simp only [List.flatMap_cons, List.flatMap_nil, List.append_nil, List.map_map]
      apply List.map_congr_left
      intro j _
      simp only [Function.comp]
      ring

/-- **C03 (allocated images)**: after any history, an allocated image owns a live buffer of
exactly `w*h*d` pixels, and row `j` of slice `k` is addressed at the raster position of its first
pixel; rows lie inside the buffer and do not overlap; a non-allocated one owns nothing. -/
theorem C03_allocated (sz : Nat) (ms : List MOp) (s : Sys α)
    (hs : (Sys.init α).run sz ms = some s) (i : Nat) (o : Obj) (hi : s.objs i = some o) :
    (o.allocated = true →
      (∃ p c, o.pixels = some p ∧ s.heap.mem p = some c ∧ c.length = o.w * o.h * o.d) ∧
      o.lineTab.length = o.d * o.h ∧
      (∀ j k, j < o.h → k < o.d →
        o.sliceTab[k]? = some (k * o.h) ∧
        o.lineTab[k * o.h + j]? = some (rasterIndex o.w o.h 0 j k)) ∧
      (∀ (a : Nat) (x : Nat), o.lineTab[a]? = some x → x + o.w ≤ o.w * o.h * o.d) ∧
      (∀ (a b x y : Nat), a < b → o.lineTab[a]? = some x → o.lineTab[b]? = some y →
        x + o.w ≤ y)) ∧
    (o.allocated = false → o.pixels = none ∧ o.lines = none ∧ o.slices = none ∧
      o.allocatedSize = 0) := by
  have hinv : SysInv sz s := (SysInv.init sz).run ms hs
  have ok := hinv.objs i o hi
  refine ⟨fun ha => ?_, fun ha => ?_⟩
  · obtain ⟨p, l, t, c, hp, -, -, -, -, -, mp, cl, -, -, r1, r2, -⟩ := ok.yes ha
    have hl : o.lineTab = (List.range (o.d * o.h)).map fun i => i * o.w := by
      rw [r1]; exact lineTab_eq _ _ _
    refine ⟨⟨p, c, hp, mp, ?_⟩, ?_, ?_, ?_, ?_⟩
    · rw [cl, ok.pc]; ring
    · rw [hl]; simp
    · intro j k hj hk
      have hlt : k * o.h + j < o.d * o.h := by
        have : k * o.h + o.h ≤ o.d * o.h := by
          rw [← Nat.succ_mul]; exact Nat.mul_le_mul_right _ hk
        omega
      refine ⟨by rw [r2]; simp [Obj.mkSliceTab, hk], ?_⟩
      rw [hl]
      simp [hlt, rasterIndex]
      ring
    · intro a x hx
      rw [hl] at hx
      simp only [List.getElem?_map, Option.map_eq_some_iff] at hx
      obtain ⟨a', ha', rfl⟩ := hx
      have hlt : a' < o.d * o.h := by
        have := List.mem_of_getElem? ha'
        simpa using this
      have : (a' + 1) * o.w ≤ o.d * o.h * o.w := Nat.mul_le_mul_right _ hlt
      have e : o.w * o.h * o.d = o.d * o.h * o.w := by ring
      rw [Nat.succ_mul] at this
      omega
    · intro a b x y hab hx hy
      rw [hl] at hx hy
      simp only [List.getElem?_map, Option.map_eq_some_iff] at hx hy
      obtain ⟨a', ha', rfl⟩ := hx
      obtain ⟨b', hb', rfl⟩ := hy
      have ea : a' = a := by
        rw [List.getElem?_eq_some_iff] at ha'
        obtain ⟨_, e⟩ := ha'
        simpa using e.symm
      have eb : b' = b := by
        rw [List.getElem?_eq_some_iff] at hb'
        obtain ⟨_, e⟩ := hb'
        simpa using e.symm
      subst ea eb
      rw [← Nat.succ_mul]
      exact Nat.mul_le_mul_right _ hab
  · obtain ⟨a, b, c, -, -, e⟩ := ok.no ha
    exact ⟨a, b, c, e⟩

/-- **C03 (ownership)**: after any history no two images share a block, no live block is
unowned (no leak), and the registry lists each live image once. -/
theorem C03_ownership (sz : Nat) (ms : List MOp) (s : Sys α)
    (hs : (Sys.init α).run sz ms = some s) :
    (∀ i j o o' p, i ≠ j → s.objs i = some o → s.objs j = some o' → o.pixels = some p →
      o'.pixels ≠ some p) ∧
    (∀ b, s.heap.mem b ≠ none → ∃ i o, s.objs i = some o ∧
      (o.pixels = some b ∨ o.lines = some b ∨ o.slices = some b)) ∧
    s.reg.Nodup ∧ ∀ i, i ∈ s.reg ↔ s.objs i ≠ none := by
  have hinv : SysInv sz s := (SysInv.init sz).run ms hs
  refine ⟨?_, ?_, hinv.reg.1, ?_⟩
  · intro i j o o' p hij hi hj hp hp'
    exact hinv.disj i j o o' hij hi hj p (by simp [Obj.blocks, hp]) (by simp [Obj.blocks, hp'])
  · intro b hb
    obtain ⟨i, o, hi, hbo⟩ := hinv.noleak b hb
    refine ⟨i, o, hi, ?_⟩
    simpa [Obj.blocks] using hbo
  · intro i
    rw [hinv.reg.2, Option.isSome_iff_ne_none]

/-- Specification: bytes used by one image. -/
def bytesOf (sz : Nat) (o : Option Obj) : Nat :=
  match o with
  | some o => if o.allocated then o.w * o.h * o.d * sz else 0
  | none => 0

/-- **C03 (reported memory)**: the memory reported by the core is the sum over live images of
the size of their pixel buffers. -/
theorem C03_reported (sz : Nat) (ms : List MOp) (s : Sys α)
    (hs : (Sys.init α).run sz ms = some s) :
    s.getAllocatedMemory = (s.reg.map fun i => bytesOf sz (s.objs i)).sum := by
  have hinv : SysInv sz s := (SysInv.init sz).run ms hs
  unfold Sys.getAllocatedMemory
  congr 1
  apply List.map_congr_left
  intro i _
  cases hi : s.objs i with
  | none => rfl
  | some o =>
      have ok := hinv.objs i o hi
      simp only [bytesOf]
      cases ha : o.allocated with
      | false => simpa using (ok.no ha).2.2.2.2.2
      | true =>
          obtain ⟨p, l, t, c, -, -, -, -, -, -, -, -, -, -, -, -, r3⟩ := ok.yes ha
          rw [r3, ok.pc]
          simp only [if_true]
          ring

/-- **C03 (no undefined behaviour)**: in a reachable state, an operation on existing objects
(or creation of a new one) is undefined exactly for `clone` from an allocated image into a
non-allocated image that already has the same dimensions. -/
theorem C03_defined (sz : Nat) (ms : List MOp) (s : Sys α)
    (hs : (Sys.init α).run sz ms = some s) (m : MOp) :
    s.step sz m = none ↔
      match m with
      | .create i => s.objs i ≠ none
      | .destroy i | .setSize i _ _ _ _ | .allocate i | .deallocate i => s.objs i = none
      | .clone i j => match s.objs i, s.objs j with
          | some o, some src => src.allocated = true ∧ o.allocated = false ∧
              src.w = o.w ∧ src.h = o.h ∧ src.d = o.d
          | _, _ => True := by
  have h : SysInv sz s := (SysInv.init sz).run ms hs
  cases m with
  | create i => cases hi : s.objs i <;> simp [Sys.step, hi]
  | destroy i =>
      cases hi : s.objs i with
      | none => simp [Sys.step, hi]
      | some o =>
          obtain ⟨H1, o1, e1, -⟩ := deallocate_spec (h.pre hi)
          simp [Sys.step, hi, e1]
  | setSize i w hh d al =>
      cases hi : s.objs i with
      | none => simp [Sys.step, hi]
      | some o =>
          obtain ⟨H1, o1, e1, -⟩ := setSize_spec (h.pre hi) w hh d al
          simp [Sys.step, hi, e1]
  | allocate i =>
      cases hi : s.objs i with
      | none => simp [Sys.step, hi]
      | some o =>
          cases ha : o.allocated with
          | true => simp [Sys.step, hi, Obj.allocate, ha]
          | false =>
              obtain ⟨H1, o1, e1, -⟩ := allocate_spec (h.pre hi) ha
              simp [Sys.step, hi, e1]
  | deallocate i =>
      cases hi : s.objs i with
      | none => simp [Sys.step, hi]
      | some o =>
          obtain ⟨H1, o1, e1, -⟩ := deallocate_spec (h.pre hi)
          simp [Sys.step, hi, e1]
  | clone i j =>
      cases hi : s.objs i with
      | none => simp [Sys.step, hi]
      | some o =>
          cases hj : s.objs j with
          | none => simp [Sys.step, hi, hj]
          | some src =>
              simp only [hi, hj]
              constructor
              · intro hn
                by_contra hg
                obtain ⟨H1, o1, e1, -⟩ := clone_spec h hi hj hg
                simp [Sys.step, hi, hj, e1] at hn
              · rintro ⟨g1, g2, g3⟩
                obtain ⟨np, -⟩ := (h.objs i o hi).no g2
                simp [Sys.step, hi, hj, Obj.clone, Obj.setSize, g1, g3, np]

/-- **C03 (setSize), partial**: `setSize` with allocation leaves the image allocated at that size
if the image was allocated before, or if the size changes.  Missing: a non-allocated image of
that very size, see `C03_setSize_bug`. -/
theorem C03_setSize_partial (sz : Nat) (ms : List MOp) (s : Sys α)
    (hs : (Sys.init α).run sz ms = some s) (i : Nat) (o : Obj) (hi : s.objs i = some o)
    (w h d : Nat) (hg : o.allocated = true ∨ ¬ (w = o.w ∧ h = o.h ∧ d = o.d)) :
    ∃ s' o', s.step sz (.setSize i w h d true) = some s' ∧ s'.objs i = some o' ∧
      o'.allocated = true ∧ o'.w = w ∧ o'.h = h ∧ o'.d = d ∧
      ∀ j, j ≠ i → s'.objs j = s.objs j := by
  have hinv : SysInv sz s := (SysInv.init sz).run ms hs
  obtain ⟨H1, o1, e1, s1, w1, h1, d1, same, diff⟩ := setSize_spec (hinv.pre hi) w h d true
  refine ⟨s.put i H1 (some o1), o1, by simp [Sys.step, hi, e1], by simp [Sys.put], ?_, w1, h1, d1,
    fun j hj => by simp [Sys.put, hj]⟩
  by_cases hc : w = o.w ∧ h = o.h ∧ d = o.d
  · rw [(same hc).1]
    rcases hg with hg | hg
    · exact hg
    · exact absurd hc hg
  · exact diff hc

/-- A `setSize(4,3,1,true)` after `setSize(4,3,1,false)` reports success and leaves the image
unallocated. -/
theorem C03_setSize_bug :
    ((Sys.init Nat).run 1 [.create 0, .setSize 0 4 3 1 false, .setSize 0 4 3 1 true]).map
      (fun s => (s.objs 0).map (fun o => (o.w, o.h, o.d, o.allocated)))
      = some (some (4, 3, 1, false)) := by decide

/-- Cloning an allocated image into an image of the same size which is not allocated copies to a
null pointer. -/
theorem C03_clone_ub :
    ((Sys.init Nat).run 1 [.create 0, .create 1, .setSize 0 4 3 1 false, .setSize 1 4 3 1 true]
      ).isSome = true ∧
    ((Sys.init Nat).run 1 [.create 0, .create 1, .setSize 0 4 3 1 false, .setSize 1 4 3 1 true,
      .clone 0 1]).isNone = true := by decide

/-- **C03 (clone)**: a defined clone of an allocated image has its dimensions, its pixel values
and its own buffer. -/
theorem C03_clone (sz : Nat) (ms : List MOp) (s s' : Sys α)
    (hs : (Sys.init α).run sz ms = some s) (i j : Nat) (src : Obj)
    (hj : s.objs j = some src) (ha : src.allocated = true)
    (hc : s.step sz (.clone i j) = some s') :
    ∃ o' p q, s'.objs i = some o' ∧ o'.allocated = true ∧
      o'.w = src.w ∧ o'.h = src.h ∧ o'.d = src.d ∧
      o'.pixels = some p ∧ src.pixels = some q ∧ (i ≠ j → p ≠ q) ∧
      s'.heap.mem p = s.heap.mem q ∧ s'.heap.mem q = s.heap.mem q := by
  have h : SysInv sz s := (SysInv.init sz).run ms hs
  cases hi : s.objs i with
  | none => simp [Sys.step, hi] at hc
  | some o =>
      by_cases hg : src.allocated = true ∧ o.allocated = false ∧
          src.w = o.w ∧ src.h = o.h ∧ src.d = o.d
      · exfalso
        have := (C03_defined sz ms s hs (.clone i j)).mpr (by simpa [hi, hj] using hg)
        rw [this] at hc; simp at hc
      · obtain ⟨H1, o1, e1, s1, w1, h1, d1, r⟩ := clone_spec h hi hj hg
        simp only [Sys.step, hi, hj, Option.bind_eq_bind, Option.bind_some, e1] at hc
        obtain rfl := Option.some.inj hc
        obtain ⟨a1, p, q, hp, hq, e, ne⟩ := r ha
        refine ⟨o1, p, q, by simp [Sys.put], a1, w1, h1, d1, hp, hq, ne, e, ?_⟩
        by_cases hij : j = i
        · subst hij
          rw [hi] at hj
          obtain rfl := Option.some.inj hj
          -- self clone: same buffer
          have : p = q := by
            have hset : Obj.setSize sz o.w o.h o.d o.allocated s.heap o
                = some (true, s.heap, o) := by simp [Obj.setSize]
            have e1' := e1
            unfold Obj.clone at e1'
            rw [hset] at e1'
            obtain ⟨q', _, _, c', hq', _, _, _, _, _, mq', _⟩ := (h.objs j o hi).yes ha
            simp [ha, hq', mq'] at e1'
            rw [← e1'.2, hq'] at hp
            rw [hq'] at hq
            exact (Option.some.inj hp).symm.trans (Option.some.inj hq)
          subst this
          exact e
        · exact (frame_others h hi hj hij s1).1 q (by simp [Obj.blocks, hq])

/-- `drain` without deleting the source leaves the source with pointers to tables owned by the
target; reallocating the source then frees them, and destroying the target frees them again. -/
theorem C03_drain_bug :
    (do
      let s ← (Sys.init Nat).run 1 [.create 0, .create 1, .setSize 1 2 2 1 true]
      let o ← s.objs 0
      let src ← s.objs 1
      let (H, o, src) ← o.drain src s.heap
      let (_, H, _) ← src.setSize 1 3 3 1 true H
      pure ((o.deallocate H).isNone)) = some true := by decide

example : ((Sys.init Nat).run 2 [.create 0, .create 1, .setSize 0 4 3 2 true, .clone 1 0,
    .setSize 0 5 5 1 true, .deallocate 0, .allocate 0]).map
      (fun s => (s.getAllocatedMemory, (s.objs 1).map (·.lineTab)))
    = some (2 * (24 + 25), some [0, 4, 8, 12, 16, 20]) := by decide

end Smil
