import Verif.ImageMem

/-! Helper lemmas for the image memory model. -/

namespace Smil

variable {α : Type}

/-- Blocks owned by an object. -/
def Obj.blocks (o : Obj) : List Nat := o.pixels.toList ++ o.lines.toList ++ o.slices.toList

/-- The object is in one of its two legal situations. -/
structure ObjOK (sz : Nat) (H : Heap α) (o : Obj) : Prop where
  sc : o.sliceCount = o.d
  lc : o.lineCount = o.d * o.h
  pc : o.pixelCount = o.d * o.h * o.w
  yes : o.allocated = true → ∃ p l s c, o.pixels = some p ∧ o.lines = some l ∧ o.slices = some s ∧
      p ≠ l ∧ p ≠ s ∧ l ≠ s ∧ H.mem p = some c ∧ c.length = o.pixelCount ∧
      (H.mem l).isSome ∧ (H.mem s).isSome ∧
      o.lineTab = o.mkLineTab ∧ o.sliceTab = o.mkSliceTab ∧ o.allocatedSize = o.pixelCount * sz
  no : o.allocated = false → o.pixels = none ∧ o.lines = none ∧ o.slices = none ∧
      o.lineTab = [] ∧ o.sliceTab = [] ∧ o.allocatedSize = 0

structure StepOK (sz : Nat) (H : Heap α) (o : Obj) (H' : Heap α) (o' : Obj) : Prop where
  ok : ObjOK sz H' o'
  next : H.next ≤ H'.next
  fresh : ∀ b, H'.next ≤ b → H'.mem b = none
  frame : ∀ b, b ∉ o.blocks → b < H.next → H'.mem b = H.mem b
  new : ∀ b ∈ o'.blocks, b ∈ o.blocks ∨ H.next ≤ b
  noleak : ∀ b, H'.mem b ≠ none → b ∈ o'.blocks ∨ (b ∉ o.blocks ∧ b < H.next)

/-- What is needed of the heap before a step on `o`. -/
structure PreOK (sz : Nat) (H : Heap α) (o : Obj) : Prop where
  ok : ObjOK sz H o
  fresh : ∀ b, H.next ≤ b → H.mem b = none

theorem StepOK.pre {sz : Nat} {H H' : Heap α} {o o' : Obj} (h : StepOK sz H o H' o') :
    PreOK sz H' o' := ⟨h.ok, h.fresh⟩

theorem StepOK.refl {sz : Nat} {H : Heap α} {o : Obj} (h : PreOK sz H o) : StepOK sz H o H o := by
  refine ⟨h.ok, le_rfl, h.fresh, fun _ _ _ => rfl, fun b hb => Or.inl hb, fun b hb => ?_⟩
  by_cases hb' : b ∈ o.blocks
  · exact Or.inl hb'
  · refine Or.inr ⟨hb', ?_⟩
    by_contra hc
    exact hb (h.fresh b (by omega))

theorem StepOK.trans {sz : Nat} {H H1 H2 : Heap α} {o o1 o2 : Obj}
    (h1 : StepOK sz H o H1 o1) (h2 : StepOK sz H1 o1 H2 o2) : StepOK sz H o H2 o2 := by
  have hfr : ∀ b, b ∉ o.blocks → b < H.next → b ∉ o1.blocks := by
    intro b hb hn hc
    rcases h1.new b hc with h | h
    · exact hb h
    · omega
  refine ⟨h2.ok, le_trans h1.next h2.next, h2.fresh, ?_, ?_, ?_⟩
  · intro b hb hn
    rw [h2.frame b (hfr b hb hn) (lt_of_lt_of_le hn h1.next), h1.frame b hb hn]
  · intro b hb
    rcases h2.new b hb with h | h
    · exact h1.new b h
    · exact Or.inr (le_trans h1.next h)
  · intro b hb
    rcases h2.noleak b hb with h | ⟨h, hn⟩
    · exact Or.inl h
    · rw [h2.frame b h hn] at hb
      rcases h1.noleak b hb with h' | h'
      · exact absurd h' h
      · exact Or.inr h'

theorem Heap.free_some {H : Heap α} {b : Nat} (h : (H.mem b).isSome) :
    H.free b = some ⟨fun c => if c = b then none else H.mem c, H.next⟩ := by
  unfold Heap.free
  obtain ⟨x, hx⟩ := Option.isSome_iff_exists.mp h
  rw [hx]

theorem mem_lt_next {sz : Nat} {H : Heap α} {o : Obj} (h : PreOK sz H o) {b : Nat}
    (hb : (H.mem b).isSome) : b < H.next := by
  by_contra hc
  rw [h.fresh b (by omega)] at hb
  simp at hb

/-- `deallocate` succeeds and leaves an unallocated object of the same size. -/
theorem deallocate_spec {sz : Nat} {H : Heap α} {o : Obj} (h : PreOK sz H o) :
    ∃ H' o', o.deallocate H = some (H', o') ∧ StepOK sz H o H' o' ∧ o'.allocated = false ∧
      o'.w = o.w ∧ o'.h = o.h ∧ o'.d = o.d ∧ o'.blocks = [] := by
  unfold Obj.deallocate
  cases ha : o.allocated with
  | false =>
      refine ⟨H, o, by simp, StepOK.refl h, ha, rfl, rfl, rfl, ?_⟩
      obtain ⟨a, b, c, -⟩ := h.ok.no ha
      simp [Obj.blocks, a, b, c]
  | true =>
      obtain ⟨p, l, s, c, hp, hl, hs, npl, nps, nls, mp, cl, ml, ms, t1, t2, t3⟩ := h.ok.yes ha
      refine ⟨⟨fun b => if b = p then none else if b = l then none else if b = s then none
        else H.mem b, H.next⟩, 
        { o with slices := none, lines := none, pixels := none, lineTab := [],
                 sliceTab := [], allocated := false, allocatedSize := 0 }, ?_, ?_, rfl, rfl, rfl, rfl, ?_⟩
      · simp only [Bool.not_true, Bool.false_eq_true, if_false, hp, hl, hs, Heap.freePtr]
        rw [Heap.free_some ms]
        simp only [Option.bind_eq_bind, Option.bind_some]
        rw [Heap.free_some (by simp [nls, ml])]
        simp only [Option.bind_some]
        rw [Heap.free_some (by simp [npl, nps, mp])]
        rfl
      · have hbl : ∀ b, b ∈ o.blocks ↔ b = p ∨ b = l ∨ b = s := by
          intro b; simp [Obj.blocks, hp, hl, hs]; 
        refine ⟨⟨h.ok.sc, h.ok.lc, h.ok.pc, by simp, by simp⟩, le_rfl, ?_, ?_, ?_, ?_⟩
        · intro b hb
          simp only
          split_ifs <;> first | rfl | exact h.fresh b hb
        · intro b hb _
          rw [hbl] at hb
          push Not at hb
          simp [hb.1, hb.2.1, hb.2.2]
        · simp [Obj.blocks]
        · intro b hb
          right
          simp only at hb
          split_ifs at hb with h1 h2 h3
          · exact absurd rfl hb
          · exact absurd rfl hb
          · exact absurd rfl hb
          · refine ⟨by rw [hbl]; tauto, ?_⟩
            by_contra hc
            exact hb (h.fresh b (by omega))
      · simp [Obj.blocks]

/-- `allocate` on an unallocated object gives an allocated one with an uninitialised buffer. -/
theorem allocate_spec {sz : Nat} {H : Heap α} {o : Obj} (h : PreOK sz H o)
    (ha : o.allocated = false) :
    ∃ H' o', o.allocate sz H = some (true, H', o') ∧ StepOK sz H o H' o' ∧ o'.allocated = true ∧
      o'.w = o.w ∧ o'.h = o.h ∧ o'.d = o.d := by
  obtain ⟨hp, hl, hs, t1, t2, t3⟩ := h.ok.no ha
  have e : o.allocate sz H = some (true,
      ⟨fun b => if b = H.next + 1 + 1 then some (List.replicate o.sliceCount none)
        else if b = H.next + 1 then some (List.replicate o.lineCount none)
        else if b = H.next then some (List.replicate o.pixelCount none) else H.mem b,
        H.next + 1 + 1 + 1⟩,
      { o with pixels := some H.next, allocated := true, allocatedSize := o.pixelCount * sz,
               lines := some (H.next + 1), slices := some (H.next + 1 + 1),
               lineTab := o.mkLineTab, sliceTab := o.mkSliceTab }) := by
    unfold Obj.allocate
    rw [ha]
    simp [Obj.restruct, hl, hs, Heap.freePtr, Heap.alloc]
    exact ⟨rfl, rfl⟩
  refine ⟨_, _, e, ?_, rfl, rfl, rfl, rfl⟩
  refine ⟨⟨h.ok.sc, h.ok.lc, h.ok.pc, ?_, by simp⟩, by simp only; omega, ?_, ?_, ?_, ?_⟩
  · intro _
    exact ⟨H.next, H.next + 1, H.next + 1 + 1, List.replicate o.pixelCount none,
      rfl, rfl, rfl, by omega, by omega, by omega, by simp; omega, by simp, by simp, by simp,
      rfl, rfl, rfl⟩
  · intro b hb
    simp only at hb ⊢
    rw [if_neg (by omega), if_neg (by omega), if_neg (by omega)]
    exact h.fresh b (by omega)
  · intro b _ hn
    simp only
    rw [if_neg (by omega), if_neg (by omega), if_neg (by omega)]
  · intro b hb
    simp [Obj.blocks] at hb
    right; omega
  · intro b hb
    simp only at hb
    by_cases h1 : b < H.next
    · right
      refine ⟨by simp [Obj.blocks, hp, hl, hs], h1⟩
    · left
      simp only [Obj.blocks, Option.toList_some, List.mem_append, List.mem_singleton]
      by_contra hc
      rw [if_neg (by tauto), if_neg (by tauto), if_neg (by tauto)] at hb
      exact hb (h.fresh b (by omega))

theorem setSize_spec {sz : Nat} {H : Heap α} {o : Obj} (h : PreOK sz H o) (w hh d : Nat)
    (al : Bool) :
    ∃ H' o', o.setSize sz w hh d al H = some (true, H', o') ∧ StepOK sz H o H' o' ∧
      o'.w = w ∧ o'.h = hh ∧ o'.d = d ∧
      ((w = o.w ∧ hh = o.h ∧ d = o.d → o' = o ∧ H' = H) ∧
       (¬ (w = o.w ∧ hh = o.h ∧ d = o.d) → o'.allocated = al)) := by
  unfold Obj.setSize
  by_cases hc : w = o.w ∧ hh = o.h ∧ d = o.d
  · rw [if_pos hc]
    exact ⟨H, o, rfl, StepOK.refl h, hc.1.symm, hc.2.1.symm, hc.2.2.symm,
      fun _ => ⟨rfl, rfl⟩, fun hn => absurd hc hn⟩
  · rw [if_neg hc]
    obtain ⟨H1, o1, e1, s1, a1, -, -, -, b1⟩ := deallocate_spec h
    have e1' : o.deallocateIf H = some (H1, o1) := by
      unfold Obj.deallocateIf
      cases ha : o.allocated with
      | true => simpa using e1
      | false =>
          have : o.deallocate H = some (H, o) := by simp [Obj.deallocate, ha]
          rw [this] at e1
          simpa using e1
    rw [e1']
    simp only [Option.bind_eq_bind, Option.bind_some]
    obtain ⟨n1, n2, n3, n4, n5, n6⟩ := s1.ok.no a1
    let o2 : Obj := { o1 with w := w, h := hh, d := d, sliceCount := d, lineCount := d * hh,
                              pixelCount := d * hh * w }
    have s2 : StepOK sz H1 o1 H1 o2 := by
      refine ⟨⟨rfl, rfl, rfl, ?_, ?_⟩, le_rfl, s1.fresh, fun _ _ _ => rfl, ?_, ?_⟩
      · intro hq; exact absurd (show o1.allocated = true from hq) (by simp [a1])
      · intro _; exact ⟨n1, n2, n3, n4, n5, n6⟩
      · intro b hb; exact Or.inl hb
      · intro b hb
        right
        refine ⟨by simp [b1], ?_⟩
        by_contra hcc
        exact hb (s1.fresh b (by omega))
    cases al with
    | false =>
        exact ⟨H1, o2, rfl, s1.trans s2, rfl, rfl, rfl, fun hn => absurd hn hc, fun _ => a1⟩
    | true =>
        obtain ⟨H3, o3, e3, s3, a3, w3, h3, d3⟩ := allocate_spec (sz := sz) (H := H1) (o := o2)
          s2.pre a1
        refine ⟨H3, o3, ?_, (s1.trans s2).trans s3, w3, h3, d3, fun hn => absurd hn hc,
          fun _ => a3⟩
        rw [if_pos rfl]
        exact e3

/-- Global invariant. -/
structure SysInv (sz : Nat) (s : Sys α) : Prop where
  objs : ∀ i o, s.objs i = some o → ObjOK sz s.heap o
  fresh : ∀ b, s.heap.next ≤ b → s.heap.mem b = none
  reg : s.reg.Nodup ∧ ∀ i, i ∈ s.reg ↔ (s.objs i).isSome
  disj : ∀ i j o o', i ≠ j → s.objs i = some o → s.objs j = some o' →
    ∀ b ∈ o.blocks, b ∉ o'.blocks
  noleak : ∀ b, s.heap.mem b ≠ none → ∃ i o, s.objs i = some o ∧ b ∈ o.blocks

theorem SysInv.pre {sz : Nat} {s : Sys α} (h : SysInv sz s) {i : Nat} {o : Obj}
    (hi : s.objs i = some o) : PreOK sz s.heap o := ⟨h.objs i o hi, h.fresh⟩

theorem ObjOK.live {sz : Nat} {H : Heap α} {o : Obj} (h : ObjOK sz H o) :
    ∀ b ∈ o.blocks, (H.mem b).isSome := by
  intro b hb
  cases ha : o.allocated with
  | false =>
      obtain ⟨a, b', c, -⟩ := h.no ha
      simp [Obj.blocks, a, b', c] at hb
  | true =>
      obtain ⟨p, l, s, c, hp, hl, hs, -, -, -, mp, -, ml, ms, -⟩ := h.yes ha
      simp [Obj.blocks, hp, hl, hs] at hb
      rcases hb with rfl | rfl | rfl
      · simp [mp]
      · exact ml
      · exact ms

theorem ObjOK.congr {sz : Nat} {H H' : Heap α} {o : Obj} (h : ObjOK sz H o)
    (e : ∀ b ∈ o.blocks, H'.mem b = H.mem b) : ObjOK sz H' o := by
  refine ⟨h.sc, h.lc, h.pc, ?_, h.no⟩
  intro ha
  obtain ⟨p, l, s, c, hp, hl, hs, h1, h2, h3, mp, cl, ml, ms, r⟩ := h.yes ha
  refine ⟨p, l, s, c, hp, hl, hs, h1, h2, h3, ?_, cl, ?_, ?_, r⟩
  · rw [e p (by simp [Obj.blocks, hp])]; exact mp
  · rw [e l (by simp [Obj.blocks, hl])]; exact ml
  · rw [e s (by simp [Obj.blocks, hs])]; exact ms

/-- Other objects do not notice a step on `o`. -/
theorem frame_others {sz : Nat} {s : Sys α} (h : SysInv sz s) {i j : Nat} {o o' q : Obj}
    {H' : Heap α} (hi : s.objs i = some o) (hj : s.objs j = some q) (hij : j ≠ i)
    (st : StepOK sz s.heap o H' o') :
    (∀ b ∈ q.blocks, H'.mem b = s.heap.mem b) ∧ (∀ b ∈ q.blocks, b ∉ o'.blocks) := by
  have key : ∀ b ∈ q.blocks, b ∉ o.blocks ∧ b < s.heap.next := by
    intro b hb
    refine ⟨h.disj j i q o hij hj hi b hb, ?_⟩
    exact mem_lt_next (h.pre hj) ((h.objs j q hj).live b hb)
  refine ⟨fun b hb => st.frame b (key b hb).1 (key b hb).2, fun b hb hc => ?_⟩
  rcases st.new b hc with h1 | h1
  · exact (key b hb).1 h1
  · have := (key b hb).2; omega

theorem SysInv.put {sz : Nat} {s : Sys α} (h : SysInv sz s) {i : Nat} {o o' : Obj} {H' : Heap α}
    (hi : s.objs i = some o) (st : StepOK sz s.heap o H' o') :
    SysInv sz (s.put i H' (some o')) := by
  have fr := fun j q hj hij => frame_others (j := j) (q := q) h hi hj hij st
  refine ⟨?_, st.fresh, ⟨h.reg.1, ?_⟩, ?_, ?_⟩
  · intro j q hj
    simp only [Sys.put] at hj
    split_ifs at hj with hji
    · obtain rfl := Option.some.inj hj
      exact st.ok
    · exact (h.objs j q hj).congr (fr j q hj hji).1
  · intro j
    simp only [Sys.put]
    rw [h.reg.2 j]
    split_ifs with hji
    · subst hji; simp [hi]
    · rfl
  · intro j k q r hjk hj hk b hb
    simp only [Sys.put] at hj hk
    split_ifs at hj hk with h1 h2 h2
    · omega
    · obtain rfl := Option.some.inj hj
      intro hc
      exact (fr k r hk h2).2 b hc hb
    · obtain rfl := Option.some.inj hk
      exact (fr j q hj h1).2 b hb
    · exact h.disj j k q r hjk hj hk b hb
  · intro b hb
    rcases st.noleak b hb with h1 | ⟨h1, h2⟩
    · exact ⟨i, o', by simp [Sys.put], h1⟩
    · simp only [Sys.put] at hb
      rw [st.frame b h1 h2] at hb
      obtain ⟨j, q, hj, hq⟩ := h.noleak b hb
      have hji : j ≠ i := by
        rintro rfl
        rw [hi] at hj
        obtain rfl := Option.some.inj hj
        exact h1 hq
      exact ⟨j, q, by simp [Sys.put, hji, hj], hq⟩

theorem SysInv.init (sz : Nat) : SysInv sz (Sys.init α) := by
  refine ⟨?_, ?_, ?_, ?_, ?_⟩ <;> simp [Sys.init]

theorem clone_spec {sz : Nat} {s : Sys α} (h : SysInv sz s) {i j : Nat} {o src : Obj}
    (hi : s.objs i = some o) (hj : s.objs j = some src)
    (hg : ¬ (src.allocated = true ∧ o.allocated = false ∧
      src.w = o.w ∧ src.h = o.h ∧ src.d = o.d)) :
    ∃ H' o', o.clone sz src s.heap = some (H', o') ∧ StepOK sz s.heap o H' o' ∧
      o'.w = src.w ∧ o'.h = src.h ∧ o'.d = src.d ∧
      (src.allocated = true → o'.allocated = true ∧ ∃ p q, o'.pixels = some p ∧
        src.pixels = some q ∧ H'.mem p = s.heap.mem q ∧ (i ≠ j → p ≠ q)) := by
  obtain ⟨H1, o1, e1, s1, w1, h1, d1, same, diff⟩ :=
    setSize_spec (h.pre hi) src.w src.h src.d src.allocated
  unfold Obj.clone
  rw [e1]
  simp only [Option.bind_eq_bind, Option.bind_some]
  cases hs : src.allocated with
  | false =>
      exact ⟨H1, o1, by simp, s1, w1, h1, d1, by simp⟩
  | true =>
      have ha1 : o1.allocated = true := by
        by_cases hc : src.w = o.w ∧ src.h = o.h ∧ src.d = o.d
        · rw [(same hc).1]
          cases ho : o.allocated with
          | true => rfl
          | false => exact absurd ⟨hs, ho, hc⟩ hg
        · rw [diff hc, hs]
      obtain ⟨p, l, t, c, hp, hl, ht, npl, npt, nlt, mp, cl, ml, mt, r1, r2, r3⟩ :=
        s1.ok.yes ha1
      obtain ⟨q, l', t', c', hq, hl', ht', -, -, -, mq, cl', -, -, -⟩ := (h.objs j src hj).yes hs
      -- the source buffer is unchanged by `setSize`
      have mq1 : H1.mem q = some c' := by
        by_cases hij : j = i
        · subst hij
          rw [hi] at hj
          obtain rfl := Option.some.inj hj
          rw [(same ⟨rfl, rfl, rfl⟩).2]
          exact mq
        · rw [(frame_others h hi hj hij s1).1 q (by simp [Obj.blocks, hq])]
          exact mq
      have hpc : src.pixelCount = o1.pixelCount := by
        rw [(h.objs j src hj).pc, s1.ok.pc, w1, h1, d1]
      refine ⟨⟨fun b => if b = p then some c' else H1.mem b, H1.next⟩, o1, ?_, ?_, w1, h1, d1, ?_⟩
      · simp [hp, hq, mp, mq1]
      · refine s1.trans ⟨?_, le_rfl, ?_, ?_, fun b hb => Or.inl hb, ?_⟩
        · refine ⟨s1.ok.sc, s1.ok.lc, s1.ok.pc, ?_, s1.ok.no⟩
          intro _
          refine ⟨p, l, t, c', hp, hl, ht, npl, npt, nlt, by simp, by omega, ?_, ?_, r1, r2, r3⟩
          · simp only; split_ifs <;> simp [ml]
          · simp only; split_ifs <;> simp [mt]
        · intro b hb
          have hpn := mem_lt_next s1.pre (b := p) (by simp [mp])
          simp only at hb ⊢
          rw [if_neg (by omega)]
          exact s1.fresh b hb
        · intro b hb _
          have : b ≠ p := by rintro rfl; exact hb (by simp [Obj.blocks, hp])
          simp [this]
        · intro b hb
          by_cases hbp : b ∈ o1.blocks
          · exact Or.inl hbp
          · right
            refine ⟨hbp, ?_⟩
            have : b ≠ p := by rintro rfl; exact hbp (by simp [Obj.blocks, hp])
            simp only [this, if_false] at hb
            by_contra hcc
            exact hb (s1.fresh b (by omega))
      · intro _
        refine ⟨ha1, p, q, hp, hq, by simp [mq], ?_⟩
        intro hij hpq
        have := (frame_others h hi hj (Ne.symm hij) s1).2 q (by simp [Obj.blocks, hq])
        exact this (by simp [Obj.blocks, hp, hpq])

end Smil
