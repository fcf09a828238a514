import Verif.Transform
import Verif.Flood
import Verif.MorphoAlgebra
import Mathlib.Data.List.Nodup

/-!
# Lemmas on the loops of the transformations
-/

namespace Smil
variable {α β γ : Type}

theorem mem_loop3 (d h w : Nat) (c : Nat × Nat × Nat) :
    c ∈ loop3 d h w ↔ c.1 < d ∧ c.2.1 < h ∧ c.2.2 < w := by
  obtain ⟨k, j, i⟩ := c
  simp [loop3]

theorem nodup_loop3 (d h w : Nat) : (loop3 d h w).Nodup := by
  unfold loop3
  rw [List.nodup_flatMap]
  refine ⟨fun k _ => ?_, ?_⟩
  · rw [List.nodup_flatMap]
    refine ⟨fun j _ => ?_, ?_⟩
    · exact List.nodup_range.map fun a b h => by simpa using h
    · refine List.nodup_range.imp ?_
      intro a b hab c hc hc'
      simp only [List.mem_map] at hc hc'
      obtain ⟨i, -, rfl⟩ := hc
      obtain ⟨i', -, h⟩ := hc'
      simp at h
      exact hab h.1.symm
  · refine List.nodup_range.imp ?_
    intro a b hab c hc hc'
    simp only [List.mem_flatMap, List.mem_map] at hc hc'
    obtain ⟨i, -, j, -, rfl⟩ := hc
    obtain ⟨i', -, j', -, h⟩ := hc'
    simp at h
    exact hab h.1.symm

theorem mem_loop2 (d h : Nat) (c : Nat × Nat) : c ∈ loop2 d h ↔ c.1 < d ∧ c.2 < h := by
  obtain ⟨k, j⟩ := c
  simp [loop2]

theorem nodup_loop2 (d h : Nat) : (loop2 d h).Nodup := by
  unfold loop2
  rw [List.nodup_flatMap]
  refine ⟨fun k _ => List.nodup_range.map fun a b h => by simpa using h, ?_⟩
  refine List.nodup_range.imp ?_
  intro a b hab c hc hc'
  simp only [List.mem_map] at hc hc'
  obtain ⟨i, -, rfl⟩ := hc
  obtain ⟨i', -, h⟩ := hc'
  simp at h
  exact hab h.1.symm

theorem loop2_lt (d h : Nat) :
    (loop2 d h).Pairwise fun c c' => c.1 < c'.1 ∨ (c.1 = c'.1 ∧ c.2 < c'.2) := by
  unfold loop2
  rw [List.pairwise_flatMap]
  refine ⟨fun k _ => ?_, ?_⟩
  · rw [List.pairwise_map]
    exact List.pairwise_lt_range.imp fun h => Or.inr ⟨rfl, h⟩
  · refine List.pairwise_lt_range.imp ?_
    intro a b hab x hx y hy
    simp only [List.mem_map] at hx hy
    obtain ⟨j, -, rfl⟩ := hx
    obtain ⟨j', -, rfl⟩ := hy
    exact Or.inl hab

theorem checkSize_acc (E : Env α) (im out : Img α) (h : Accepts E im out) :
    ∃ o, checkSize E im out = .ok o ∧ o.dims = im.dims := by
  obtain ⟨h1, h2, h3⟩ := h
  unfold checkSize
  rw [if_neg (by rw [h1, h2]; simp)]
  by_cases hd : out.dims = im.dims
  · rw [if_pos hd]; exact ⟨out, rfl, hd⟩
  · rw [if_neg hd, if_pos (h3.resolve_left hd)]; exact ⟨_, rfl, rfl⟩

theorem accepts_of_checkSize (E : Env α) (im out o : Img α) (h : checkSize E im out = .ok o) :
    Accepts E im out := by
  unfold checkSize at h
  unfold Accepts
  cases h1 : im.alloc <;> cases h2 : out.alloc <;> simp only [h1, h2] at h ⊢ <;> try (simp at h; done)
  by_cases h3 : out.dims = im.dims
  · simp [h3]
  · cases h4 : E.auto
    · simp [h3, h4] at h
    · simp

theorem setSize_dims (raw : Nat → α) (D : Dims) (out : Img α) : (setSize raw D out).dims = D := by
  unfold setSize; split
  · assumption
  · rfl

/-- A loop each of whose iterations writes the cells `W c`, from the cells `R c`; the cells written are
distinct, and no iteration reads what was written before. `g` is the initial contents of the cells read. -/
theorem foldlM_cells' (l : List γ) (W R : γ → Nat → Prop) (val : γ → Nat → α) (g : Nat → α)
    (step : (Nat → α) → γ → Option (Nat → α))
    (hstep : ∀ c ∈ l, ∀ f, (∀ i, R c i → f i = g i) → ∃ f', step f c = some f' ∧
      (∀ i, W c i → f' i = val c i) ∧ ∀ i, ¬ W c i → f' i = f i)
    (hdis : l.Pairwise fun c c' => ∀ i, W c i → ¬ W c' i ∧ ¬ R c' i) (f0 : Nat → α)
    (h0 : ∀ c ∈ l, ∀ i, R c i → f0 i = g i) :
    ∃ f, l.foldlM step f0 = some f ∧ (∀ c ∈ l, ∀ i, W c i → f i = val c i) ∧
      ∀ i, (∀ c ∈ l, ¬ W c i) → f i = f0 i := by
  induction l generalizing f0 with
  | nil => exact ⟨f0, rfl, by simp, by simp⟩
  | cons a l ih =>
    obtain ⟨f1, s1, s2, s3⟩ := hstep a List.mem_cons_self f0 (h0 a List.mem_cons_self)
    obtain ⟨hd, ht⟩ := List.pairwise_cons.mp hdis
    obtain ⟨f, e1, e2, e3⟩ := ih (fun c hc => hstep c (List.mem_cons_of_mem _ hc)) ht f1
      (fun c hc i hi => by
        rw [s3 i fun hw => (hd c hc i hw).2 hi]
        exact h0 c (List.mem_cons_of_mem _ hc) i hi)
    refine ⟨f, by rw [List.foldlM_cons, s1]; exact e1, ?_, ?_⟩
    · intro c hc i hi
      rcases List.mem_cons.mp hc with rfl | hc
      · rw [e3 i fun c' hc' => (hd c' hc' i hi).1, s2 i hi]
      · exact e2 c hc i hi
    · intro i hi
      rw [e3 i fun c hc => hi c (List.mem_cons_of_mem _ hc), s3 i (hi a List.mem_cons_self)]

/-- The same when the iterations do not read the cells written. -/
theorem foldlM_cells (l : List γ) (W : γ → Nat → Prop) (val : γ → Nat → α)
    (step : (Nat → α) → γ → Option (Nat → α))
    (hstep : ∀ c ∈ l, ∀ f, ∃ f', step f c = some f' ∧ (∀ i, W c i → f' i = val c i) ∧
      ∀ i, ¬ W c i → f' i = f i)
    (hdis : l.Pairwise fun c c' => ∀ i, W c i → ¬ W c' i) (f0 : Nat → α) :
    ∃ f, l.foldlM step f0 = some f ∧ (∀ c ∈ l, ∀ i, W c i → f i = val c i) ∧
      ∀ i, (∀ c ∈ l, ¬ W c i) → f i = f0 i :=
  foldlM_cells' l W (fun _ _ => False) val f0 step (fun c hc f _ => hstep c hc f)
    (hdis.imp fun h i hi => ⟨h i hi, fun h => h⟩) f0 (fun _ _ _ h => h.elim)

theorem foldlM_none {σ : Type} (l : List γ) (step : σ → γ → Option σ) (a : γ) (ha : a ∈ l)
    (h : ∀ s, step s a = none) (s : σ) : l.foldlM step s = none := by
  induction l generalizing s with
  | nil => simp at ha
  | cons b l ih =>
    rw [List.foldlM_cons]
    rcases List.mem_cons.mp ha with rfl | ha
    · rw [h]; rfl
    · cases hb : step s b with
      | none => rfl
      | some s' => exact ih ha s'

/-- A loop each of whose iterations writes one point, the points being distinct. -/
theorem foldlM_points (D : Dims) (l : List γ) (tgt : γ → IntPoint) (val : γ → α)
    (step : (Nat → α) → γ → Option (Nat → α)) (hnd : l.Nodup) (hin : ∀ c ∈ l, Img.In D (tgt c))
    (hstep : ∀ c ∈ l, ∀ f, step f c = some (Function.update f (offOf D (tgt c)) (val c)))
    (hinj : ∀ c ∈ l, ∀ c' ∈ l, tgt c = tgt c' → c = c') (f0 : Nat → α) :
    ∃ f, l.foldlM step f0 = some f ∧ (∀ c ∈ l, (⟨D, f⟩ : Img α).at? (tgt c) = some (val c)) ∧
      ∀ p, (∀ c ∈ l, tgt c ≠ p) → (⟨D, f⟩ : Img α).at? p = (⟨D, f0⟩ : Img α).at? p := by
  obtain ⟨f, h1, h2, h3⟩ := foldlM_cells l (fun c i => i = offOf D (tgt c)) (fun c _ => val c) step
    (fun c hc f => ⟨_, hstep c hc f, by rintro i rfl; exact Function.update_self _ _ _,
      fun i hi => Function.update_of_ne hi _ _⟩)
    (by
      refine List.Pairwise.imp_of_mem ?_ hnd
      rintro c c' hc hc' hne i rfl he
      exact hne (hinj c hc c' hc' (offOf_inj (hin c hc) (hin c' hc') he))) f0
  refine ⟨f, h1, fun c hc => ?_, fun p hp => ?_⟩
  · rw [Img.buf_offOf (⟨D, f⟩ : Img α) _ (hin c hc)]
    exact congrArg some (h2 c hc _ rfl)
  · by_cases hpin : Img.In D p
    · rw [Img.buf_offOf (⟨D, f⟩ : Img α) _ hpin, Img.buf_offOf (⟨D, f0⟩ : Img α) _ hpin]
      refine congrArg some (h3 _ fun c hc he => hp c hc (offOf_inj (hin c hc) hpin he.symm))
    · rw [Img.at?_none _ _ hpin, Img.at?_none _ _ hpin]

theorem putAt_ok {n : Nat} {f : Nat → α} {i : Int} {v : α} {m : Nat} (h : i = m) (hm : m < n) :
    putAt n f i v = some (Function.update f m v) := by
  unfold putAt
  subst h
  rw [if_pos (by omega), Int.toNat_natCast]

theorem putAt_bad {n : Nat} {f : Nat → α} {i : Int} {v : α} (h : i < 0 ∨ (n : Int) ≤ i) :
    putAt n f i v = none := by
  unfold putAt
  rw [if_neg (by omega)]

/-- The pixel at natural coordinates as the value at a point. -/
theorem px_at (im : Img α) {x y z : Nat} (hx : x < im.dims.w) (hy : y < im.dims.h) (hz : z < im.dims.d) :
    im.at? ⟨x, y, z⟩ = some (im.px x y z) := by
  rw [Img.at?_some im ⟨x, y, z⟩ (by unfold Img.In; simp only; omega)]
  simp

theorem offOf_nat (D : Dims) (x y z : Nat) : offOf D ⟨x, y, z⟩ = rasterIndex D.w D.h x y z := by
  unfold offOf; simp

end Smil
