import Verif.SharedIm
import Verif.ImageMemLemmas
import Mathlib.Tactic.Ring

/-!
# Lemmas on the views
-/

namespace Smil
namespace View
variable {α : Type}

/-- The blocks that belong to a view. -/
def own (v : View) : List Nat := v.slices.toList ++ v.lines.toList

/-- What a view that is not between two statements looks like. -/
structure OK (H : Heap α) (v : View) : Prop where
  nodup : v.own.Nodup
  live : ∀ b ∈ v.own, H.mem b ≠ none
  att : v.attached = true → v.allocated = true ∧ v.pixels ≠ none ∧ v.lines ≠ none ∧ v.slices ≠ none ∧ v.lineTab = v.mkLineTab ∧
    v.sliceTab = v.mkSliceTab ∧ v.sliceCount = v.d ∧ v.lineCount = v.d * v.h ∧ v.pixelCount = v.d * v.h * v.w
  det : v.attached = false → v.allocated = false ∧ v.pixels = none ∧ v.lines = none ∧ v.slices = none ∧ v.w = 0 ∧ v.h = 0 ∧ v.d = 0

theorem OK.new (H : Heap α) : OK H ({} : View) := ⟨by simp [own], by simp [own], by simp, by simp⟩

end View

/-- The heap without some blocks. -/
def Heap.dropBlocks {α : Type} (H : Heap α) (bs : List Nat) : Heap α := ⟨fun b => if b ∈ bs then none else H.mem b, H.next⟩

namespace View
variable {α : Type}

theorem free_eq {H : Heap α} {b : Nat} (h : H.mem b ≠ none) : H.free b = some (H.dropBlocks [b]) := by
  unfold Heap.free Heap.dropBlocks
  split
  · contradiction
  · simp

theorem freePtr_eq {H : Heap α} {p : Option Nat} (h : ∀ b ∈ p.toList, H.mem b ≠ none) : H.freePtr p = some (H.dropBlocks p.toList) := by
  cases p with
  | none => simp [Heap.freePtr, Heap.dropBlocks]
  | some b => exact free_eq (h b (by simp))

theorem drop_drop (H : Heap α) (a b : List Nat) : (H.dropBlocks a).dropBlocks b = H.dropBlocks (a ++ b) := by
  unfold Heap.dropBlocks
  congr 1
  funext x
  by_cases h1 : x ∈ b <;> by_cases h2 : x ∈ a <;> simp [h1, h2]

theorem freeTabs_eq {H : Heap α} {v : View} (hn : v.own.Nodup) (hl : ∀ b ∈ v.own, H.mem b ≠ none) : v.freeTabs H = some (H.dropBlocks v.own) := by
  unfold freeTabs
  rw [freePtr_eq fun b hb => hl b (by simp [own] at hb ⊢; exact .inl hb), Option.bind_some, freePtr_eq, drop_drop]
  · rfl
  · intro b hb
    have h1 : b ∉ v.slices.toList := fun h => (List.nodup_append.mp hn).2.2 b h b hb rfl
    unfold Heap.dropBlocks
    simp only [h1, if_false]
    exact hl b (by unfold own; exact List.mem_append_right _ hb)

/-- The effect of an operation of a view on the heap. -/
structure Step (H : Heap α) (v : View) (H' : Heap α) (v' : View) : Prop where
  ok : OK H' v'
  frame : ∀ b, b ∉ v.own → H.mem b ≠ none → H'.mem b = H.mem b
  fresh : ∀ b ∈ v'.own, b ∈ v.own ∨ H.next ≤ b
  leak : ∀ b, H'.mem b ≠ none → b ∈ v'.own ∨ (H.mem b ≠ none ∧ b ∉ v.own)
  next : H.next ≤ H'.next
  bound : ∀ b, H'.mem b ≠ none → b < H'.next

theorem Step.refl {H : Heap α} {v : View} (h : OK H v) (hb : ∀ b, H.mem b ≠ none → b < H.next) : Step H v H v :=
  ⟨h, fun _ _ _ => rfl, fun _ h => .inl h, fun b hl => by
    by_cases hbo : b ∈ v.own
    · exact .inl hbo
    · exact .inr ⟨hl, hbo⟩, le_refl _, hb⟩

theorem detach_step {H : Heap α} {v : View} (h : OK H v) (hb : ∀ b, H.mem b ≠ none → b < H.next) :
    ∃ H' v', v.detach H = some (H', v') ∧ Step H v H' v' ∧ v'.attached = false := by
  unfold detach
  cases ha : v.attached with
  | false => exact ⟨H, v, by simp, .refl h hb, ha⟩
  | true =>
    simp only [Bool.not_true, Bool.false_eq_true, if_false]
    rw [freeTabs_eq h.nodup h.live]
    refine ⟨_, _, rfl, ⟨⟨by simp [own], by simp [own], by simp, by simp⟩, fun b hb' _ => ?_, by simp [own], fun b hl => ?_, le_refl _, fun b hl => ?_⟩, rfl⟩
    · simp [Heap.dropBlocks, hb']
    · right
      unfold Heap.dropBlocks at hl
      by_cases hbo : b ∈ v.own
      · simp [hbo] at hl
      · simp only [hbo, if_false] at hl
        exact ⟨hl, hbo⟩
    · unfold Heap.dropBlocks at hl ⊢
      by_cases hbo : b ∈ v.own
      · simp [hbo] at hl
      · simp only [hbo, if_false] at hl
        exact hb b hl

/-- `restruct` and the two marks. -/
theorem restruct_step {H : Heap α} {v : View} (hn : v.own.Nodup) (hl : ∀ b ∈ v.own, H.mem b ≠ none) (hb : ∀ b, H.mem b ≠ none → b < H.next)
    (q : Nat × Nat) (w h d : Nat) :
    ∃ H' u, restruct H (setSize w h d { v with pixels := some q }) = some (H', u) ∧
      u = { setSize w h d { v with pixels := some q } with
            lines := some H.next, slices := some (H.next + 1),
            lineTab := (setSize w h d { v with pixels := some q }).mkLineTab,
            sliceTab := (setSize w h d { v with pixels := some q }).mkSliceTab } ∧
      Step H v H' { u with attached := true, allocated := true } := by
  have hown : (setSize w h d { v with pixels := some q }).own = v.own := rfl
  unfold restruct
  rw [freeTabs_eq (by rw [hown]; exact hn) (by rw [hown]; exact hl), hown]
  refine ⟨_, _, rfl, rfl, ⟨by simp [own, Heap.alloc, Heap.dropBlocks], fun b hbo => ?_, fun _ => ?_, by simp⟩, fun b hbo hlb => ?_, fun b hbo => ?_, fun b hlb => ?_, ?_, fun b hlb => ?_⟩
  · simp only [own, Heap.alloc, Heap.dropBlocks, setSize, Option.toList_some, List.cons_append, List.nil_append, List.mem_cons, List.not_mem_nil, or_false] at hbo ⊢
    rcases hbo with rfl | rfl <;> simp
  · refine ⟨rfl, by simp [setSize], by simp, by simp, rfl, rfl, rfl, rfl, rfl⟩
  · have := hb b hlb
    simp only [Heap.alloc, Heap.dropBlocks, hbo, if_false]
    rw [if_neg (by omega), if_neg (by omega)]
  · right
    simp only [own, Heap.alloc, Heap.dropBlocks, Option.toList_some, List.cons_append, List.nil_append, List.mem_cons, List.not_mem_nil, or_false] at hbo
    omega
  · simp only [Heap.alloc, Heap.dropBlocks] at hlb ⊢
    by_cases h1 : b = H.next + 1
    · exact .inl (by simp [own, h1])
    · by_cases h2 : b = H.next
      · exact .inl (by simp [own, h2])
      · simp only [h1, h2, if_false] at hlb
        by_cases hbo : b ∈ v.own
        · simp [hbo] at hlb
        · simp only [hbo, if_false] at hlb
          exact .inr ⟨hlb, hbo⟩
  · simp only [Heap.alloc, Heap.dropBlocks]
    omega
  · simp only [Heap.alloc, Heap.dropBlocks] at hlb ⊢
    by_cases h1 : b = H.next + 1
    · omega
    · by_cases h2 : b = H.next
      · omega
      · simp only [h1, h2, if_false] at hlb
        by_cases hbo : b ∈ v.own
        · simp [hbo] at hlb
        · simp only [hbo, if_false] at hlb
          have := hb b hlb
          omega

theorem Step.trans {H H1 H2 : Heap α} {v v1 v2 : View} (h : Step H v H1 v1) (h' : Step H1 v1 H2 v2) (ho : ∀ b, H.mem b ≠ none → b < H.next) : Step H v H2 v2 := by
  have hnot : ∀ b, b ∉ v.own → H.mem b ≠ none → b ∉ v1.own := by
    intro b h1 h2 h3
    rcases h.fresh b h3 with h4 | h4
    · exact h1 h4
    · have := ho b h2; omega
  refine ⟨h'.ok, fun b h1 h2 => ?_, fun b hb => ?_, fun b hb => ?_, le_trans h.next h'.next, h'.bound⟩
  · rw [h'.frame b (hnot b h1 h2) (by rw [h.frame b h1 h2]; exact h2), h.frame b h1 h2]
  · rcases h'.fresh b hb with h1 | h1
    · exact h.fresh b h1
    · exact .inr (le_trans h.next h1)
  · rcases h'.leak b hb with h1 | ⟨h1, h2⟩
    · exact .inl h1
    · rcases h.leak b h1 with h3 | h3
      · exact absurd h3 h2
      · exact .inr h3

/-- `attach` of data to a view. -/
theorem attach_step {H : Heap α} {v : View} (h : OK H v) (hb : ∀ b, H.mem b ≠ none → b < H.next) (p : Option (Nat × Nat)) (w hh d : Nat) :
    ∃ r H' v', attach p w hh d H v = some (r, H', v') ∧ Step H v H' v' ∧
      (p = none → r = false ∧ H' = H ∧ v' = v) ∧
      ∀ q, p = some q → r = true ∧ v'.attached = true ∧ v'.pixels = some q ∧ v'.w = w ∧ v'.h = hh ∧ v'.d = d := by
  unfold attach
  cases p with
  | none => exact ⟨false, H, v, rfl, .refl h hb, fun _ => ⟨rfl, rfl, rfl⟩, by simp⟩
  | some q =>
    simp only
    by_cases hs : v.pixels = some q ∧ w = v.w ∧ hh = v.h ∧ d = v.d
    · rw [if_pos hs]
      refine ⟨true, H, v, rfl, .refl h hb, by simp, fun q' hq => ?_⟩
      cases hq
      refine ⟨rfl, ?_, hs.1, hs.2.1.symm, hs.2.2.1.symm, hs.2.2.2.symm⟩
      cases ha : v.attached with
      | true => rfl
      | false =>
        have := (h.det ha).2.1
        rw [this] at hs
        exact absurd hs.1 (by simp)
    · rw [if_neg hs]
      obtain ⟨H1, v1, e1, s1, -⟩ := detach_step h hb
      have e1' : v.detachIf H = some (H1, v1) := by
        unfold detachIf
        cases ha : v.attached with
        | true => simpa using e1
        | false =>
          unfold detach at e1
          simpa [ha] using e1
      rw [e1', Option.bind_some]
      obtain ⟨H2, u, e2, hu, s2⟩ := restruct_step s1.ok.nodup s1.ok.live s1.bound q w hh d
      rw [e2]
      refine ⟨true, H2, _, rfl, s1.trans s2 hb, by simp, fun q' hq => ?_⟩
      cases hq
      rw [hu]
      exact ⟨rfl, rfl, rfl, rfl, rfl, rfl⟩

/-- The assignment from a view with other data or another size. -/
theorem assign_step {H : Heap α} {v u : View} (h : OK H v) (hb : ∀ b, H.mem b ≠ none → b < H.next)
    (hg : v.attached = true → u.pixels ≠ none ∧ ¬ (v.pixels = u.pixels ∧ u.w = v.w ∧ u.h = v.h ∧ u.d = v.d)) :
    ∃ r H' v', assign u H v = some (r, H', v') ∧ Step H v H' v' ∧
      (u.pixels = none → H' = H ∧ v' = v) ∧
      ∀ q, u.pixels = some q → v'.attached = true ∧ v'.pixels = some q ∧ v'.w = u.w ∧ v'.h = u.h ∧ v'.d = u.d := by
  cases ha : v.attached with
  | false =>
    have e : ({ v with attached := false } : View) = v := by
      cases v; simp at ha ⊢; exact ha
    unfold assign
    rw [e]
    obtain ⟨r, H', v', e1, s1, h1, h2⟩ := attach_step h hb u.pixels u.w u.h u.d
    exact ⟨r, H', v', e1, s1, fun hq => (h1 hq).2, fun q hq => (h2 q hq).2⟩
  | true =>
    obtain ⟨g1, g2⟩ := hg ha
    obtain ⟨q, hq⟩ := Option.ne_none_iff_exists'.mp g1
    unfold assign attach
    rw [hq]
    simp only
    rw [if_neg (by rw [← hq]; exact g2)]
    unfold detachIf
    simp only [Bool.false_eq_true, if_false, Option.bind_some]
    obtain ⟨H2, u', e2, hu, s2⟩ := restruct_step (v := { v with attached := false }) h.nodup h.live hb q u.w u.h u.d
    rw [e2]
    refine ⟨true, H2, _, rfl, ⟨s2.ok, s2.frame, s2.fresh, s2.leak, s2.next, s2.bound⟩, by simp, fun q' hq' => ?_⟩
    cases hq'
    rw [hu]
    exact ⟨rfl, rfl, rfl, rfl, rfl⟩

theorem destroy_step {H : Heap α} {v : View} (h : OK H v) (hb : ∀ b, H.mem b ≠ none → b < H.next) :
    ∃ H', v.destroy H = some H' ∧ Step H v H' {} := by
  obtain ⟨H1, v1, e1, s1, ha⟩ := detach_step h hb
  obtain ⟨d1, -, d3, d4, -⟩ := s1.ok.det ha
  have ho : v1.own = [] := by simp [own, d3, d4]
  unfold destroy
  rw [e1, Option.bind_some]
  simp only [d1, Bool.not_false, if_true]
  refine ⟨H1, rfl, .new _, s1.frame, by simp [own], fun b hb' => ?_, s1.next, s1.bound⟩
  have := s1.leak b hb'
  rw [ho] at this
  simpa [own] using this

end View

variable {α : Type}

/-- The invariant. -/
structure ViewInv (s : VSys α) : Prop where
  ok : ∀ i v, s.views i = some v → v.OK s.heap
  disj : ∀ i j v u, i ≠ j → s.views i = some v → s.views j = some u → ∀ b ∈ v.own, b ∉ u.own
  notExt : ∀ i v, s.views i = some v → ∀ b ∈ v.own, b ∉ s.ext
  extLive : ∀ b ∈ s.ext, s.heap.mem b ≠ none
  noleak : ∀ b, s.heap.mem b ≠ none → b ∈ s.ext ∨ ∃ i v, s.views i = some v ∧ b ∈ v.own
  bound : ∀ b, s.heap.mem b ≠ none → b < s.heap.next

theorem ViewInv.init (α : Type) : ViewInv (VSys.init α) :=
  ⟨by simp [VSys.init], by simp [VSys.init], by simp [VSys.init], by simp [VSys.init], by simp [VSys.init], by simp [VSys.init]⟩

/-- An operation on the view `i`, or its creation, or its end. -/
theorem ViewInv.put {s : VSys α} (h : ViewInv s) {i : Nat} {v v' : View} {H' : Heap α} {o : Option View}
    (hv : s.views i = some v ∨ s.views i = none ∧ v.own = []) (hs : View.Step s.heap v H' v') (ho : o = some v' ∨ o = none ∧ v'.own = []) :
    ViewInv (s.put i H' o) ∧ ∀ b ∈ s.ext, H'.mem b = s.heap.mem b := by
  have hown : ∀ j u, j ≠ i → s.views j = some u → ∀ b ∈ u.own, b ∉ v.own ∧ s.heap.mem b ≠ none := by
    intro j u hji hu b hb
    refine ⟨fun hbv => ?_, (h.ok j u hu).live b hb⟩
    rcases hv with hv | ⟨_, hv⟩
    · exact h.disj j i u v hji hu hv b hb hbv
    · rw [hv] at hbv; simp at hbv
  have hext : ∀ b ∈ s.ext, b ∉ v.own := by
    intro b hb hbv
    rcases hv with hv | ⟨_, hv⟩
    · exact h.notExt i v hv b hbv hb
    · rw [hv] at hbv; simp at hbv
  have hnew : ∀ b ∈ v'.own, (b ∈ v.own ∧ s.views i = some v) ∨ s.heap.next ≤ b := by
    intro b hb
    rcases hs.fresh b hb with h1 | h1
    · left
      refine ⟨h1, ?_⟩
      rcases hv with hv | ⟨_, hv⟩
      · exact hv
      · rw [hv] at h1; simp at h1
    · exact .inr h1
  have hopt : ∀ u, o = some u → u = v' ∨ u.own = [] ∧ False := by
    intro u hu
    rcases ho with ho | ⟨ho, -⟩
    · rw [ho] at hu; cases hu; exact .inl rfl
    · rw [ho] at hu; cases hu
  have hframe : ∀ b ∈ s.ext, H'.mem b = s.heap.mem b := fun b hb => hs.frame b (hext b hb) (h.extLive b hb)
  refine ⟨⟨fun j u hu => ?_, fun j k u u' hjk hu hu' b hb => ?_, fun j u hu b hb => ?_, fun b hb => ?_, fun b hb => ?_, hs.bound⟩, hframe⟩
  · simp only [VSys.put] at hu ⊢
    by_cases hj : j = i
    · rw [if_pos hj] at hu
      rcases hopt u hu with rfl | ⟨_, hf⟩
      · exact hs.ok
      · exact hf.elim
    · rw [if_neg hj] at hu
      have hok := h.ok j u hu
      refine ⟨hok.nodup, fun b hb => ?_, hok.att, hok.det⟩
      obtain ⟨h1, h2⟩ := hown j u hj hu b hb
      rw [hs.frame b h1 h2]
      exact h2
  · simp only [VSys.put] at hu hu'
    have key : ∀ j u, j ≠ i → s.views j = some u → ∀ b ∈ v'.own, b ∉ u.own := by
      intro j u hji hu b hb hbu
      obtain ⟨h1, h2⟩ := hown j u hji hu b hbu
      rcases hnew b hb with ⟨h3, -⟩ | h3
      · exact h1 h3
      · have := h.bound b h2; omega
    by_cases hj : j = i
    · have hk : k ≠ i := fun hk => hjk (hj.trans hk.symm)
      rw [if_pos hj] at hu
      rw [if_neg hk] at hu'
      rcases hopt u hu with rfl | ⟨_, hf⟩
      · exact key k u' hk hu' b hb
      · exact hf.elim
    · rw [if_neg hj] at hu
      by_cases hk : k = i
      · rw [if_pos hk] at hu'
        rcases hopt u' hu' with rfl | ⟨_, hf⟩
        · exact fun hbu => key j u hj hu b hbu hb
        · exact hf.elim
      · rw [if_neg hk] at hu'
        exact h.disj j k u u' hjk hu hu' b hb
  · simp only [VSys.put] at hu ⊢
    by_cases hj : j = i
    · rw [if_pos hj] at hu
      rcases hopt u hu with rfl | ⟨_, hf⟩
      · intro hbe
        rcases hnew b hb with ⟨h1, -⟩ | h1
        · exact hext b hbe h1
        · have := h.bound b (h.extLive b hbe); omega
      · exact hf.elim
    · rw [if_neg hj] at hu
      exact h.notExt j u hu b hb
  · simp only [VSys.put] at hb ⊢
    rw [hframe b hb]
    exact h.extLive b hb
  · simp only [VSys.put] at hb ⊢
    rcases hs.leak b hb with h1 | ⟨h1, h2⟩
    · rcases ho with ho | ⟨_, ho⟩
      · exact .inr ⟨i, v', by simp [ho], h1⟩
      · rw [ho] at h1; simp at h1
    · rcases h.noleak b h1 with h3 | ⟨j, u, hu, hbu⟩
      · exact .inl h3
      · right
        have hj : j ≠ i := by
          rintro rfl
          rcases hv with hv | ⟨hv, _⟩
          · rw [hv] at hu; cases hu; exact h2 hbu
          · rw [hv] at hu; cases hu
        exact ⟨j, u, by rw [if_neg hj]; exact hu, hbu⟩

end Smil
