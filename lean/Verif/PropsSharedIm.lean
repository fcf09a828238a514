import Verif.SharedImLemmas
import Verif.PropsMem

/-!
# C96: images that share the data of others
-/

namespace Smil
variable {α : Type}

/-! ### Specification -/

/-- The operations that do not break the views: no `setSize` nor `clone` through a reference to `Image<T>`, and no assignment to a view
with data from one without data or of the same data and size. -/
def SafeOp (s : VSys α) : VOp → Prop
  | .setSize _ _ _ _ => False
  | .cloneImage _ _ _ _ _ => False
  | .assign i j => ∀ v u, s.views i = some v → s.views j = some u → v.attached = true →
      u.pixels ≠ none ∧ ¬ (v.pixels = u.pixels ∧ u.w = v.w ∧ u.h = v.h ∧ u.d = v.d)
  | _ => True

/-- A history in which every operation is safe in its state. -/
def SafeHist (s : VSys α) : List VOp → Prop
  | [] => True
  | m :: ms => SafeOp s m ∧ ∀ s', s.step m = some s' → SafeHist s' ms

/-- The operation is one of the owner of the data. -/
def VOp.isExt : VOp → Bool
  | .extNew _ => true
  | .extFree _ => true
  | _ => false

theorem lineTab_getElem {w h d y z : Nat} (hy : y < h) (hz : z < d) :
    (Obj.mkLineTab { w := w, h := h, d := d })[z * h + y]? = some (rasterIndex w h 0 y z) := by
  unfold Obj.mkLineTab
  simp only
  rw [lineTab_eq]
  have hlt : z * h + y < d * h := by
    have : z * h + h ≤ d * h := by
      rw [← Nat.succ_mul]; exact Nat.mul_le_mul_right _ hz
    omega
  simp [hlt, rasterIndex]
  ring

/-! ### One operation -/

theorem step_safe {s : VSys α} (h : ViewInv s) (m : VOp) (hm : SafeOp s m) {s' : VSys α} (e : s.step m = some s') :
    ViewInv s' ∧ (m.isExt = false → s'.ext = s.ext ∧ ∀ b ∈ s.ext, s'.heap.mem b = s.heap.mem b) := by
  have fin : ∀ {i : Nat} {v v' : View} {H' : Heap α} {o : Option View},
      (s.views i = some v ∨ s.views i = none ∧ v.own = []) → View.Step s.heap v H' v' → (o = some v' ∨ o = none ∧ v'.own = []) → s.put i H' o = s' →
      ViewInv s' ∧ (m.isExt = false → s'.ext = s.ext ∧ ∀ b ∈ s.ext, s'.heap.mem b = s.heap.mem b) := by
    intro i v v' H' o h1 h2 h3 h4
    obtain ⟨k1, k2⟩ := h.put h1 h2 h3
    rw [← h4]
    exact ⟨k1, fun _ => ⟨rfl, k2⟩⟩
  cases m with
  | extNew n =>
    simp only [VSys.step, Option.some.injEq] at e
    subst e
    have hne : ∀ b, s.heap.mem b ≠ none → b ≠ s.heap.next := fun b hb e => by have := h.bound b hb; omega
    refine ⟨⟨fun i v hv => ?_, h.disj, fun i v hv b hb => ?_, fun b hb => ?_, fun b hb => ?_, fun b hb => ?_⟩, by simp [VOp.isExt]⟩
    · have := h.ok i v hv
      refine ⟨this.nodup, fun b hb => ?_, this.att, this.det⟩
      have hl := this.live b hb
      simp only [Heap.alloc]
      rw [if_neg (hne b hl)]
      exact hl
    · have hl := (h.ok i v hv).live b hb
      simp only [Heap.alloc, List.mem_cons, not_or]
      exact ⟨hne b hl, h.notExt i v hv b hb⟩
    · simp only [Heap.alloc, List.mem_cons] at hb ⊢
      rcases hb with rfl | hb
      · simp
      · have hl := h.extLive b hb
        rw [if_neg (hne b hl)]
        exact hl
    · simp only [Heap.alloc, List.mem_cons] at hb ⊢
      by_cases hbn : b = s.heap.next
      · exact .inl (.inl hbn)
      · rw [if_neg hbn] at hb
        rcases h.noleak b hb with h1 | h1
        · exact .inl (.inr h1)
        · exact .inr h1
    · simp only [Heap.alloc] at hb ⊢
      by_cases hbn : b = s.heap.next
      · omega
      · rw [if_neg hbn] at hb
        have := h.bound b hb
        omega
  | extFree c =>
    simp only [VSys.step] at e
    by_cases hc : c ∈ s.ext
    · rw [if_pos hc, View.free_eq (h.extLive c hc)] at e
      simp only [Option.map_some, Option.some.injEq] at e
      subst e
      refine ⟨⟨fun i v hv => ?_, h.disj, fun i v hv b hb => ?_, fun b hb => ?_, fun b hb => ?_, fun b hb => ?_⟩, by simp [VOp.isExt]⟩
      · have := h.ok i v hv
        refine ⟨this.nodup, fun b hb => ?_, this.att, this.det⟩
        have hn : b ≠ c := fun e => h.notExt i v hv b hb (e ▸ hc)
        simp only [Heap.dropBlocks, List.mem_singleton, hn, if_false]
        exact this.live b hb
      · have := h.notExt i v hv b hb
        simp [this]
      · simp only [List.mem_filter, decide_eq_true_eq] at hb
        simp only [Heap.dropBlocks, List.mem_singleton, hb.2, if_false]
        exact h.extLive b hb.1
      · simp only [Heap.dropBlocks, List.mem_singleton] at hb
        by_cases hbc : b = c
        · simp [hbc] at hb
        · simp only [hbc, if_false] at hb
          rcases h.noleak b hb with h1 | h1
          · exact .inl (by simp [h1, hbc])
          · exact .inr h1
      · simp only [Heap.dropBlocks, List.mem_singleton] at hb ⊢
        by_cases hbc : b = c
        · simp [hbc] at hb
        · simp only [hbc, if_false] at hb
          exact h.bound b hb
    · rw [if_neg hc] at e
      cases e
  | create i =>
    simp only [VSys.step] at e
    cases hi : s.views i with
    | some v => rw [hi] at e; cases e
    | none =>
      rw [hi] at e
      exact fin (.inr ⟨hi, by simp [View.own]⟩) (.refl (.new _) h.bound) (.inl rfl) (Option.some.inj e)
  | createOn i p w hh d =>
    simp only [VSys.step] at e
    cases hi : s.views i with
    | some v => rw [hi] at e; cases e
    | none =>
      rw [hi] at e
      obtain ⟨r, H', v', e1, s1, -⟩ := View.attach_step (.new s.heap) h.bound p w hh d
      rw [e1] at e
      exact fin (.inr ⟨hi, by simp [View.own]⟩) s1 (.inl rfl) (Option.some.inj e)
  | copy i j =>
    simp only [VSys.step] at e
    cases hi : s.views i with
    | some v => rw [hi] at e; cases e
    | none =>
      cases hj : s.views j with
      | none => rw [hi, hj] at e; cases e
      | some u =>
        rw [hi, hj] at e
        obtain ⟨r, H', v', e1, s1, -⟩ := View.attach_step (.new s.heap) h.bound u.pixels u.w u.h u.d
        simp only [e1] at e
        exact fin (.inr ⟨hi, by simp [View.own]⟩) s1 (.inl rfl) (Option.some.inj e)
  | destroy i =>
    simp only [VSys.step] at e
    cases hi : s.views i with
    | none => rw [hi] at e; cases e
    | some v =>
      obtain ⟨H', e1, s1⟩ := View.destroy_step (h.ok i v hi) h.bound
      rw [hi, Option.bind_some, e1] at e
      exact fin (.inl hi) s1 (.inr ⟨rfl, by simp [View.own]⟩) (Option.some.inj e)
  | attach i p w hh d =>
    simp only [VSys.step] at e
    cases hi : s.views i with
    | none => rw [hi] at e; cases e
    | some v =>
      obtain ⟨r, H', v', e1, s1, -⟩ := View.attach_step (h.ok i v hi) h.bound p w hh d
      rw [hi, Option.bind_some, e1] at e
      exact fin (.inl hi) s1 (.inl rfl) (Option.some.inj e)
  | attachSame i p =>
    simp only [VSys.step] at e
    cases hi : s.views i with
    | none => rw [hi] at e; cases e
    | some v =>
      obtain ⟨r, H', v', e1, s1, -⟩ := View.attach_step (h.ok i v hi) h.bound p v.w v.h v.d
      rw [hi, Option.bind_some, e1] at e
      exact fin (.inl hi) s1 (.inl rfl) (Option.some.inj e)
  | detach i =>
    simp only [VSys.step] at e
    cases hi : s.views i with
    | none => rw [hi] at e; cases e
    | some v =>
      obtain ⟨H', v', e1, s1, -⟩ := View.detach_step (h.ok i v hi) h.bound
      rw [hi, Option.bind_some, e1] at e
      exact fin (.inl hi) s1 (.inl rfl) (Option.some.inj e)
  | clone i j =>
    simp only [VSys.step] at e
    cases hi : s.views i with
    | none => rw [hi] at e; cases e
    | some v =>
      cases hj : s.views j with
      | none => rw [hi, hj] at e; cases e
      | some u =>
        obtain ⟨r, H', v', e1, s1, -⟩ := View.attach_step (h.ok i v hi) h.bound u.pixels u.w u.h u.d
        rw [hi, hj, Option.bind_some, Option.bind_some, e1] at e
        exact fin (.inl hi) s1 (.inl rfl) (Option.some.inj e)
  | assign i j =>
    simp only [VSys.step] at e
    cases hi : s.views i with
    | none => rw [hi] at e; cases e
    | some v =>
      cases hj : s.views j with
      | none => rw [hi, hj] at e; cases e
      | some u =>
        obtain ⟨r, H', v', e1, s1, -⟩ := View.assign_step (u := u) (h.ok i v hi) h.bound (hm v u hi hj)
        rw [hi, hj, Option.bind_some, Option.bind_some, e1] at e
        exact fin (.inl hi) s1 (.inl rfl) (Option.some.inj e)
  | allocate i =>
    simp only [VSys.step] at e
    cases hi : s.views i with
    | none => rw [hi] at e; cases e
    | some v =>
      rw [hi] at e
      cases Option.some.inj e
      exact ⟨h, fun _ => ⟨rfl, fun _ _ => rfl⟩⟩
  | deallocate i =>
    simp only [VSys.step] at e
    cases hi : s.views i with
    | none => rw [hi] at e; cases e
    | some v =>
      rw [hi] at e
      cases Option.some.inj e
      exact ⟨h, fun _ => ⟨rfl, fun _ _ => rfl⟩⟩
  | setSize => exact hm.elim
  | cloneImage => exact hm.elim

theorem run_safe : ∀ (ms : List VOp) {s : VSys α}, ViewInv s → SafeHist s ms → ∀ {s' : VSys α}, s.run ms = some s' → ViewInv s'
  | [], s, h, _, s', e => by simp only [VSys.run, Option.some.injEq] at e; exact e ▸ h
  | m :: ms, s, h, hs, s', e => by
    rw [VSys.run] at e
    cases e1 : s.step m with
    | none => rw [e1] at e; cases e
    | some s1 =>
      rw [e1, Option.bind_some] at e
      exact run_safe ms (step_safe h m hs.1 e1).1 (hs.2 s1 e1) e

/-! ### Theorems -/

/-- After every safe history: the tables of a view are its own, are live and are not data of others; every live block is data of others or a table of a
view; a view with data has tables of its size, one without data has no pointer and no size. -/
theorem C96_views_partial (ms : List VOp) (hs : SafeHist (VSys.init α) ms) (s : VSys α) (e : (VSys.init α).run ms = some s) :
    (∀ i v, s.views i = some v → v.attached = true →
      v.pixels ≠ none ∧ v.allocated = true ∧ v.pixelCount = v.d * v.h * v.w ∧
      (∃ l k, v.lines = some l ∧ v.slices = some k ∧ l ≠ k ∧ s.heap.mem l ≠ none ∧ s.heap.mem k ≠ none ∧ l ∉ s.ext ∧ k ∉ s.ext ∧
        ∀ j u, j ≠ i → s.views j = some u → u.lines ≠ some l ∧ u.lines ≠ some k ∧ u.slices ≠ some l ∧ u.slices ≠ some k) ∧
      ∀ y z, y < v.h → z < v.d → v.sliceTab[z]? = some (z * v.h) ∧ v.lineTab[z * v.h + y]? = some (rasterIndex v.w v.h 0 y z)) ∧
    (∀ i v, s.views i = some v → v.attached = false →
      v.allocated = false ∧ v.pixels = none ∧ v.lines = none ∧ v.slices = none ∧ v.w = 0 ∧ v.h = 0 ∧ v.d = 0) ∧
    (∀ b ∈ s.ext, s.heap.mem b ≠ none) ∧
    (∀ b, s.heap.mem b ≠ none → b ∈ s.ext ∨ ∃ i v, s.views i = some v ∧ (v.lines = some b ∨ v.slices = some b)) := by
  have h := run_safe ms (ViewInv.init α) hs e
  refine ⟨fun i v hv ha => ?_, fun i v hv ha => (h.ok i v hv).det ha, h.extLive, fun b hb => ?_⟩
  · have hok := h.ok i v hv
    obtain ⟨a1, a2, a3, a4, a5, a6, -, -, a9⟩ := hok.att ha
    obtain ⟨l, hl⟩ := Option.ne_none_iff_exists'.mp a3
    obtain ⟨k, hk⟩ := Option.ne_none_iff_exists'.mp a4
    have hown : v.own = [k, l] := by simp [View.own, hl, hk]
    have hnd := hok.nodup
    rw [hown] at hnd
    refine ⟨a2, a1, a9, ⟨l, k, hl, hk, ?_, hok.live l (by simp [hown]), hok.live k (by simp [hown]), h.notExt i v hv l (by simp [hown]),
      h.notExt i v hv k (by simp [hown]), fun j u hji hu => ?_⟩, fun y z hy hz => ?_⟩
    · simp at hnd
      exact fun e => hnd e.symm
    · have d1 := h.disj i j v u hji.symm hv hu l (by simp [hown])
      have d2 := h.disj i j v u hji.symm hv hu k (by simp [hown])
      simp only [View.own, List.mem_append, Option.mem_toList, not_or] at d1 d2
      exact ⟨d1.2, d2.2, d1.1, d2.1⟩
    · rw [a5, a6]
      have e1 : v.mkLineTab = Obj.mkLineTab { w := v.w, h := v.h, d := v.d } := rfl
      refine ⟨?_, ?_⟩
      · unfold View.mkSliceTab
        rw [List.getElem?_map, List.getElem?_range hz]
        rfl
      · rw [e1]
        exact lineTab_getElem hy hz
  · rcases h.noleak b hb with h1 | ⟨i, v, hv, hb⟩
    · exact .inl h1
    · refine .inr ⟨i, v, hv, ?_⟩
      simp only [View.own, List.mem_append, Option.mem_toList] at hb
      exact hb.symm

/-- The data of others are neither freed nor changed by any safe operation but that of their owners. -/
theorem C96_data (ms : List VOp) (hs : SafeHist (VSys.init α) ms) (s : VSys α) (e : (VSys.init α).run ms = some s) (m : VOp) (hm : SafeOp s m)
    (hx : m.isExt = false) (s' : VSys α) (e' : s.step m = some s') : s'.ext = s.ext ∧ ∀ b ∈ s.ext, s'.heap.mem b = s.heap.mem b :=
  (step_safe (run_safe ms (ViewInv.init α) hs e) m hm e').2 hx

/-- When there is no view left, what is in memory are the data of others. -/
theorem C96_noleak (ms : List VOp) (hs : SafeHist (VSys.init α) ms) (s : VSys α) (e : (VSys.init α).run ms = some s) (hv : ∀ i, s.views i = none) (b : Nat) :
    s.heap.mem b ≠ none ↔ b ∈ s.ext := by
  have h := run_safe ms (ViewInv.init α) hs e
  refine ⟨fun hb => ?_, h.extLive b⟩
  rcases h.noleak b hb with h1 | ⟨i, v, hi, _⟩
  · exact h1
  · rw [hv i] at hi; cases hi

/-- A safe operation is undefined only on an object that does not exist, or exists already, and for data that the owner has not. -/
theorem C96_defined (ms : List VOp) (hs : SafeHist (VSys.init α) ms) (s : VSys α) (e : (VSys.init α).run ms = some s) (m : VOp) (hm : SafeOp s m) :
    s.step m = none ↔
      match m with
      | .extNew _ => False
      | .extFree b => b ∉ s.ext
      | .create i | .createOn i _ _ _ _ => s.views i ≠ none
      | .copy i j => s.views i ≠ none ∨ s.views j = none
      | .clone i j | .assign i j => s.views i = none ∨ s.views j = none
      | .destroy i | .attach i _ _ _ _ | .attachSame i _ | .detach i | .allocate i | .deallocate i | .setSize i _ _ _ | .cloneImage i _ _ _ _ =>
        s.views i = none := by
  have h := run_safe ms (ViewInv.init α) hs e
  cases m with
  | extNew n => simp [VSys.step]
  | extFree b =>
    simp only [VSys.step]
    by_cases hb : b ∈ s.ext
    · simp [hb, View.free_eq (h.extLive b hb)]
    · simp [hb]
  | create i => cases hi : s.views i <;> simp [VSys.step, hi]
  | createOn i p w hh d =>
    obtain ⟨r, H', v', e1, -⟩ := View.attach_step (.new s.heap) h.bound p w hh d
    cases hi : s.views i <;> simp [VSys.step, hi, e1]
  | copy i j =>
    cases hi : s.views i with
    | some v => simp [VSys.step, hi]
    | none =>
      cases hj : s.views j with
      | none => simp [VSys.step, hi, hj]
      | some u =>
        obtain ⟨r, H', v', e1, -⟩ := View.attach_step (.new s.heap) h.bound u.pixels u.w u.h u.d
        simp [VSys.step, hi, hj, e1]
  | destroy i =>
    cases hi : s.views i with
    | none => simp [VSys.step, hi]
    | some v =>
      obtain ⟨H', e1, -⟩ := View.destroy_step (h.ok i v hi) h.bound
      simp [VSys.step, hi, e1]
  | attach i p w hh d =>
    cases hi : s.views i with
    | none => simp [VSys.step, hi]
    | some v =>
      obtain ⟨r, H', v', e1, -⟩ := View.attach_step (h.ok i v hi) h.bound p w hh d
      simp [VSys.step, hi, e1]
  | attachSame i p =>
    cases hi : s.views i with
    | none => simp [VSys.step, hi]
    | some v =>
      obtain ⟨r, H', v', e1, -⟩ := View.attach_step (h.ok i v hi) h.bound p v.w v.h v.d
      simp [VSys.step, hi, e1]
  | detach i =>
    cases hi : s.views i with
    | none => simp [VSys.step, hi]
    | some v =>
      obtain ⟨H', v', e1, -⟩ := View.detach_step (h.ok i v hi) h.bound
      simp [VSys.step, hi, e1]
  | clone i j =>
    cases hi : s.views i with
    | none => simp [VSys.step, hi]
    | some v =>
      cases hj : s.views j with
      | none => simp [VSys.step, hi, hj]
      | some u =>
        obtain ⟨r, H', v', e1, -⟩ := View.attach_step (h.ok i v hi) h.bound u.pixels u.w u.h u.d
        simp [VSys.step, hi, hj, e1]
  | assign i j =>
    cases hi : s.views i with
    | none => simp [VSys.step, hi]
    | some v =>
      cases hj : s.views j with
      | none => simp [VSys.step, hi, hj]
      | some u =>
        obtain ⟨r, H', v', e1, -⟩ := View.assign_step (u := u) (h.ok i v hi) h.bound (hm v u hi hj)
        simp [VSys.step, hi, hj, e1]
  | allocate i => cases hi : s.views i <;> simp [VSys.step, hi]
  | deallocate i => cases hi : s.views i <;> simp [VSys.step, hi]
  | setSize => exact hm.elim
  | cloneImage => exact hm.elim

/-- A view reads the pixels of the data it was attached to, as long as the block is there and long enough. -/
theorem C96_pixels (ms : List VOp) (hs : SafeHist (VSys.init α) ms) (s : VSys α) (e : (VSys.init α).run ms = some s) (i : Nat) (b off w h d : Nat)
    (hi : s.views i ≠ none) :
    ∃ s' v, s.step (.attach i (some (b, off)) w h d) = some s' ∧ s'.views i = some v ∧ v.w = w ∧ v.h = h ∧ v.d = d ∧
      ∀ x y z, x < w → y < h → z < d → ∀ (H : Heap α) (c : List (Option α)), H.mem b = some c → off + d * h * w ≤ c.length →
        v.readLine H x y z = c[off + rasterIndex w h x y z]? ∧ v.readLine H x y z ≠ none := by
  have hI := run_safe ms (ViewInv.init α) hs e
  obtain ⟨v0, h0⟩ := Option.ne_none_iff_exists'.mp hi
  obtain ⟨r, H', v, e1, s1, -, h2⟩ := View.attach_step (hI.ok i v0 h0) hI.bound (some (b, off)) w h d
  obtain ⟨-, k1, k2, k3, k4, k5⟩ := h2 _ rfl
  obtain ⟨-, -, -, -, t1, -⟩ := s1.ok.att k1
  refine ⟨s.put i H' (some v), v, by simp [VSys.step, h0, e1], by simp [VSys.put], k3, k4, k5, fun x y z hx hy hz H c hc hl => ?_⟩
  have et : v.mkLineTab = Obj.mkLineTab { w := w, h := h, d := d } := by
    unfold View.mkLineTab Obj.mkLineTab
    rw [k3, k4, k5]
  have hr : v.readLine H x y z = c[off + rasterIndex w h x y z]? := by
    unfold View.readLine
    have hg : (Obj.mkLineTab { w := w, h := h, d := d })[z * h + y]? = some (rasterIndex w h 0 y z) := lineTab_getElem hy hz
    rw [k2, Option.bind_some, k4, t1, et, hg, Option.bind_some]
    simp only [hc, Option.bind_some]
    congr 1
    unfold rasterIndex
    omega
  refine ⟨hr, ?_⟩
  rw [hr]
  have := rasterIndex_lt hx hy hz
  rw [List.getElem?_eq_getElem (by omega)]
  simp

/-- The slice `k` of an image is a view of its pixels of third coordinate `k`; there is none beyond the depth. -/
theorem C96_slice (sz : Nat) (ms : List MOp) (s : Sys α) (hs : (Sys.init α).run sz ms = some s) (i : Nat) (o : Obj) (hi : s.objs i = some o)
    (ha : o.allocated = true) (k : Nat) :
    (o.d ≤ k → o.getSlice k = some none) ∧
    (k < o.d → 0 < o.h → ∃ p, o.pixels = some p ∧ o.getSlice k = some (some ((p, rasterIndex o.w o.h 0 0 k), o.w, o.h, 1)) ∧
      ∀ x y, x < o.w → y < o.h → rasterIndex o.w o.h 0 0 k + rasterIndex o.w o.h x y 0 = rasterIndex o.w o.h x y k) := by
  unfold Obj.getSlice
  constructor
  · intro h
    rw [if_pos h]
  · intro h hh
    obtain ⟨⟨p, c, hp, -⟩, -, ht, -⟩ := (C03_allocated sz ms s hs i o hi).1 ha
    obtain ⟨t1, t2⟩ := ht 0 k hh h
    refine ⟨p, hp, ?_, fun x y _ _ => by unfold rasterIndex; ring⟩
    rw [if_neg (by omega), hp, Option.bind_some, t1, Option.bind_some]
    rw [Nat.add_zero] at t2
    rw [t2]
    rfl

/-- Of an image of a size that is not allocated, the slice is read through a null pointer. -/
theorem C96_slice_ub : (do
      let s ← (Sys.init Nat).run 1 [.create 0, .setSize 0 4 3 2 false]
      let o ← s.objs 0
      pure (o.getSlice 1).isNone) = some true := by decide

/-- Assigning a view to itself, or to another view of the same data, makes the end of the view free the data of its owner, who still holds them. -/
theorem C96_assign_ub (ms : List VOp) (hs : SafeHist (VSys.init α) ms) (s : VSys α) (e : (VSys.init α).run ms = some s) (i j : Nat) (v u : View) (b : Nat)
    (hi : s.views i = some v) (hj : s.views j = some u) (hv : v.attached = true) (hb : b ∈ s.ext)
    (hp : v.pixels = some (b, 0)) (hq : u.pixels = none ∨ u.pixels = some (b, 0) ∧ u.w = v.w ∧ u.h = v.h ∧ u.d = v.d) :
    ∃ s' s'', s.step (.assign i j) = some s' ∧ s'.step (.destroy i) = some s'' ∧ b ∈ s''.ext ∧ s''.heap.mem b = none ∧
      s''.step (.extFree b) = none := by
  have h := run_safe ms (ViewInv.init α) hs e
  have hok := h.ok i v hi
  have e1 : View.assign u s.heap v = some (u.pixels.isSome, s.heap, { v with attached := false }) := by
    unfold View.assign View.attach
    rcases hq with hq | ⟨hq, h1, h2, h3⟩
    · rw [hq]; rfl
    · rw [hq]
      simp only [Option.isSome_some]
      rw [if_pos ⟨hp, h1, h2, h3⟩]
  have hbo : b ∉ v.own := fun hbo => h.notExt i v hi b hbo hb
  have hal := (hok.att hv).1
  have e2 : View.destroy s.heap { v with attached := false } = some ((s.heap.dropBlocks v.own).dropBlocks [b]) := by
    unfold View.destroy View.detach
    have ht := View.freeTabs_eq hok.nodup hok.live
    unfold View.freeTabs at ht ⊢
    simp only [Bool.not_false, if_true, Option.bind_some, hal, Bool.not_true, Bool.false_eq_true, if_false]
    rw [ht, Option.bind_some, hp, View.freePixels, if_pos rfl, View.free_eq]
    simp only [Heap.dropBlocks, hbo, if_false]
    exact h.extLive b hb
  refine ⟨s.put i s.heap (some { v with attached := false }), (s.put i s.heap (some { v with attached := false })).put i ((s.heap.dropBlocks v.own).dropBlocks [b]) none, ?_, ?_, ?_, ?_, ?_⟩
  · simp only [VSys.step, hi, hj, Option.bind_some, e1]
    rfl
  · have : (s.put i s.heap (some { v with attached := false })).views i = some { v with attached := false } := by simp [VSys.put]
    simp only [VSys.step]
    rw [this, Option.bind_some]
    have hh : (s.put i s.heap (some { v with attached := false })).heap = s.heap := rfl
    rw [hh, e2]
    rfl
  · exact hb
  · simp [VSys.put, Heap.dropBlocks]
  · have hb' : b ∈ s.ext := hb
    simp only [VSys.step, VSys.put, hb', if_true]
    simp [Heap.free, Heap.dropBlocks]

/-- `setSize` through `Image<T>&` changes the size of a view but neither its data nor its tables: the line 2 of a view of 4 lines is outside. -/
theorem C96_setSize_bug :
    ((VSys.init Nat).run [.extNew 8, .createOn 0 (some (0, 0)) 4 2 1, .setSize 0 4 4 1]).map
      (fun s => (s.views 0).map fun v => (v.h, v.pixelCount, v.readLine s.heap 0 2 0 == none, v.readLine s.heap 0 1 0 == none)) =
      some (some (4, 16, true, false)) := by decide

/-- Cloning an image into a view without data copies to a null pointer, into a view of fewer pixels behind its data. -/
theorem C96_clone_ub :
    ((VSys.init Nat).run [.extNew 8, .create 0, .cloneImage 0 0 4 2 1]).isNone = true ∧
    ((VSys.init Nat).run [.extNew 8, .extNew 4, .createOn 0 (some (1, 0)) 4 1 1, .cloneImage 0 0 4 2 1]).isNone = true := by decide

/-- The hypotheses are met: two views of one buffer, one attached again to a part of it, the other detached, and a copy. -/
example : ∃ s, (VSys.init Nat).run [.extNew 24, .createOn 0 (some (0, 0)) 4 3 2, .copy 1 0, .attach 1 (some (0, 12)) 4 3 1, .create 2, .assign 2 1,
      .detach 0, .destroy 1] = some s ∧ (s.views 2).map (fun v => (v.pixels, v.lineTab)) = some (some (0, 12), [0, 4, 8]) := by
  refine ⟨_, rfl, by decide⟩

example : SafeHist (VSys.init Nat) [.extNew 24, .createOn 0 (some (0, 0)) 4 3 2, .create 1, .assign 1 0, .destroy 0] := by
  refine ⟨trivial, ?_⟩
  intro s1 e1
  refine ⟨trivial, ?_⟩
  intro s2 e2
  refine ⟨trivial, ?_⟩
  intro s3 e3
  cases e1
  cases e2
  cases e3
  refine ⟨?_, fun _ _ => ⟨trivial, fun _ _ => trivial⟩⟩
  intro v u hv hu ha
  simp only [VSys.put] at hv
  cases hv
  cases ha

end Smil
