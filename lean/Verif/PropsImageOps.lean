import Verif.ImageOps
import Verif.PropsArith
import Mathlib.Data.List.Induction

/-!
# C11: pixelwise operations
-/

namespace Smil

variable {α : Type}

/-- Every parallel schedule of an `omp for` loop enumerates each pixel exactly once. -/
def IsSchedule (order : Nat → List Nat) : Prop := ∀ n, (order n).Perm (List.range n)

/-- Pixel `i` of image `a` in the store, if it has been written. -/
def pixelAt (S : Store α) (a i : Nat) : Option α := ((S a).buf[i]?).join

theorem mapM_of_map {β : Type} {f : β → Option α} {l : List β} {xs : List α}
    (h : l.map f = xs.map some) : l.mapM f = some xs := by
  induction l generalizing xs with
  | nil =>
      cases xs with
      | nil => rfl
      | cons => simp at h
  | cons a l ih =>
      cases xs with
      | nil => simp at h
      | cons x xs =>
          simp only [List.map_cons, List.cons.injEq] at h
          rw [List.mapM_cons, h.1, ih h.2]
          rfl

theorem pixExec_spec (k : List α → Option α) (ins : List Nat) (o : Nat) (S : Store α)
    (n : Nat) (hlen : n ≤ (S o).buf.length) (f : Nat → α)
    (hf : ∀ i < n, ∃ xs, ins.map (fun a => pixelAt S a i) = xs.map some ∧ k xs = some (f i))
    (order : List Nat) (hnd : order.Nodup) (hlt : ∀ i ∈ order, i < n) :
    ∃ S', pixExec k ins o order S = some S' ∧
      (∀ b, b ≠ o → S' b = S b) ∧ (S' o).dims = (S o).dims ∧ (S' o).allocated = (S o).allocated ∧
      (S' o).buf.length = (S o).buf.length ∧
      ∀ i, (S' o).buf[i]? = if i ∈ order then some (some (f i)) else (S o).buf[i]? := by
  induction order using List.reverseRecOn with
  | nil => exact ⟨S, rfl, fun _ _ => rfl, rfl, rfl, rfl, fun i => by simp⟩
  | append_singleton l i ih =>
      have hnd' := List.nodup_append.mp hnd
      have hil : i ∉ l := fun h => hnd'.2.2 i h i (by simp) rfl
      obtain ⟨S1, e1, h1, h2, h3, h4, h5⟩ := ih hnd'.1 (fun j hj => hlt j (by simp [hj]))
      have hin : i < n := hlt i (by simp)
      obtain ⟨xs, hx, hk⟩ := hf i hin
      have hrd : ∀ a, rd S1 a i = pixelAt S a i := by
        intro a
        unfold rd pixelAt
        by_cases hao : a = o
        · subst hao; rw [h5, if_neg hil]
        · rw [h1 a hao]
      have hmap : (ins.mapM fun a => rd S1 a i) = some xs := by
        rw [show (fun a => rd S1 a i) = fun a => pixelAt S a i from funext hrd]
        exact mapM_of_map hx
      refine ⟨fun b => if b = o then { S1 o with buf := (S1 o).buf.set i (some (f i)) } else S1 b,
        ?_, ?_, ?_, ?_, ?_, ?_⟩
      · unfold pixExec at e1 ⊢
        rw [List.foldlM_append, e1]
        simp only [Option.bind_eq_bind, Option.bind_some, List.foldlM_cons, List.foldlM_nil]
        unfold pixStep
        rw [hmap]
        simp only [Option.bind_eq_bind, Option.bind_some, hk]
        unfold wr
        rw [if_pos (by omega)]
        rfl
      · intro b hb; simp [hb, h1 b hb]
      · simp [h2]
      · simp [h3]
      · simp [h4]
      · intro j
        simp only [if_true, List.getElem?_set, h5, List.mem_append, List.mem_singleton]
        by_cases hij : i = j
        · subst hij
          simp; omega
        · simp [hij, Ne.symm hij]

/-- **C11 (same size)**: on allocated, initialised images of one size, whatever images coincide
and whatever the schedule, the operator succeeds, each output pixel is the scalar operation of
the input pixels *before the call* at its position, and nothing else changes. -/
theorem C11_pixelwise (auto : Bool) (k : List α → Option α) (first : Nat) (rest : List Nat)
    (o : Nat) (order : Nat → List Nat) (ho : IsSchedule order) (S : Store α) (hS : StoreOK S)
    (hal : ∀ a ∈ first :: rest ++ [o], (S a).allocated = true)
    (hsz : ∀ a ∈ rest ++ [o], (S a).dims = (S first).dims)
    (f : Nat → α)
    (hf : ∀ i < (S first).dims.count, ∃ xs,
      (first :: rest).map (fun a => pixelAt S a i) = xs.map some ∧ k xs = some (f i)) :
    ∃ S', pixOp auto k first rest o order S = some (.ok, S') ∧
      (∀ i < (S first).dims.count, pixelAt S' o i = some (f i)) ∧
      (S' o).dims = (S o).dims ∧ (S' o).allocated = true ∧ StoreOK S' ∧
      ∀ b, b ≠ o → S' b = S b := by
  have hio : o ∈ first :: rest ++ [o] := by simp
  have hlen : (S o).buf.length = (S first).dims.count := by
    rw [hS o (hal o hio), hsz o (by simp)]
  obtain ⟨S', e, h1, h2, h3, h4, h5⟩ := pixExec_spec k (first :: rest) o S
    (S first).dims.count hlen.ge f hf (order (S first).dims.count)
    ((ho _).nodup_iff.mpr List.nodup_range)
    (fun i hi => by simpa using (ho _).mem_iff.mp hi)
  have hall : areAllocated S (first :: rest ++ [o]) = true := by
    unfold areAllocated
    rw [List.all_eq_true]
    exact fun a ha => hal a ha
  have hset : setSameSize S (S first).dims (rest ++ [o]) = S := by
    have : ∀ l : List Nat, (∀ a ∈ l, (S a).dims = (S first).dims) →
        setSameSize S (S first).dims l = S := by
      intro l
      induction l with
      | nil => intro _; rfl
      | cons a l ih =>
          intro hl
          unfold setSameSize
          rw [if_pos (hl a (by simp))]
          exact ih fun b hb => hl b (by simp [hb])
    exact this _ hsz
  have hsame : haveSameSize S first (rest ++ [o]) = true := by
    unfold haveSameSize
    rw [Bool.and_eq_true, List.all_eq_true]
    refine ⟨hal first (by simp), fun a ha => ?_⟩
    rw [Bool.and_eq_true, beq_iff_eq]
    exact ⟨hal a (by simp only [List.cons_append, List.mem_cons]; exact Or.inr ha), hsz a ha⟩
  refine ⟨S', ?_, ?_, h2, by rw [h3]; exact hal o hio, ?_, h1⟩
  · unfold pixOp
    rw [hall]
    cases auto with
    | true => simp [hset, e]
    | false => simp [hsame, e]
  · intro i hi
    unfold pixelAt
    rw [h5, if_pos ((ho _).mem_iff.mpr (by simpa using hi))]
    rfl
  · intro b hb
    by_cases hbo : b = o
    · subst hbo
      rw [h4, h2, hS b (by rw [← h3]; exact hb)]
    · rw [h1 b hbo] at hb ⊢
      exact hS b hb

/-- **C11 (error branch)**: with an image that is not allocated, or (automatic resize off) with
different sizes, the operator reports the error and changes nothing. -/
theorem C11_errors (auto : Bool) (k : List α → Option α) (first : Nat) (rest : List Nat)
    (o : Nat) (order : Nat → List Nat) (S : Store α) :
    ((∃ a ∈ first :: rest ++ [o], (S a).allocated = false) →
      pixOp auto k first rest o order S = some (.badAllocation, S)) ∧
    ((∀ a ∈ first :: rest ++ [o], (S a).allocated = true) → auto = false →
      (∃ a ∈ rest ++ [o], (S a).dims ≠ (S first).dims) →
      pixOp auto k first rest o order S = some (.badSize, S)) := by
  constructor
  · rintro ⟨a, ha, hf⟩
    have : areAllocated S (first :: rest ++ [o]) = false := by
      unfold areAllocated
      rw [List.all_eq_false]
      exact ⟨a, ha, by simp [hf]⟩
    simp only [pixOp, this, Bool.not_false, if_true]
  · rintro hal rfl ⟨a, ha, hd⟩
    have h1 : areAllocated S (first :: rest ++ [o]) = true := by
      unfold areAllocated
      rw [List.all_eq_true]
      exact fun a ha => hal a ha
    have h2 : haveSameSize S first (rest ++ [o]) = false := by
      unfold haveSameSize
      rw [Bool.and_eq_false_iff]
      right
      rw [List.all_eq_false]
      exact ⟨a, ha, by simp [hd]⟩
    simp only [pixOp, h1, h2, Bool.not_true, Bool.false_eq_true, if_false]

/-- With automatic resizing (the default) a second *input* of another size is reallocated and
its contents are lost: the operation then reads uninitialised pixels, for every non empty first
image and every order. -/
theorem C11_autoresize_bug (k : α → α → Option α) (a b o : Nat) (hob : o ≠ b)
    (order : Nat → List Nat) (ho : IsSchedule order) (S : Store α)
    (hal : ∀ c ∈ [a, b, o], (S c).allocated = true) (hd : (S b).dims ≠ (S a).dims)
    (hpos : 0 < (S a).dims.count) :
    pixOp true (lift2 k) a [b] o order S = none := by
  have h1 : areAllocated S (a :: [b] ++ [o]) = true := by
    unfold areAllocated
    rw [List.all_eq_true]
    exact fun c hc => hal c (by simpa using hc)
  have hb : (setSameSize S (S a).dims ([b] ++ [o])) b
      = ⟨(S a).dims, true, List.replicate (S a).dims.count none⟩ := by
    simp only [List.cons_append, List.nil_append, setSameSize, hd, if_false]
    have hbo : b ≠ o := Ne.symm hob
    split_ifs <;> simp [hbo]
  have hne : order (S a).dims.count ≠ [] := by
    intro h
    have := (ho (S a).dims.count).length_eq
    rw [h] at this
    simp at this
    omega
  obtain ⟨i, l, hil⟩ := List.exists_cons_of_ne_nil hne
  simp only [pixOp, h1, Bool.not_true, Bool.false_eq_true, if_false, if_true]
  rw [Option.map_eq_none_iff]
  unfold pixExec
  rw [hil, List.foldlM_cons]
  have : pixStep (lift2 k) [a, b] o (setSameSize S (S a).dims ([b] ++ [o])) i = none := by
    unfold pixStep
    have hr : rd (setSameSize S (S a).dims ([b] ++ [o])) b i = none := by
      unfold rd
      rw [hb]
      simp only [List.getElem?_replicate]
      split_ifs <;> rfl
    rw [List.cons_append, List.nil_append] at hr
    simp [hr]
  rw [this]
  rfl

/-- `sub(im, value, out)` does not check sizes: with a smaller output it writes outside. -/
theorem C11_subConst_bug :
    let S : Store (Px UINT8) := fun a =>
      if a = 0 then ⟨⟨3, 1, 1⟩, true, List.replicate 3 (some ⟨7, by decide, by decide⟩)⟩
      else ⟨⟨2, 1, 1⟩, true, List.replicate 2 (some ⟨0, by decide, by decide⟩)⟩
    (imSubConst 0 ⟨1, by decide, by decide⟩ 1 List.range S).isNone = true := by decide

/-- **C11 for `add`** on unsigned images: the sum clamped, at each pixel, for every aliasing of
the three images, every schedule and every size. -/
theorem C11_add {t : PT} (ht : t.signed = false) (auto : Bool) (a b o : Nat)
    (order : Nat → List Nat) (ho : IsSchedule order) (S : Store (Px t)) (hS : StoreOK S)
    (hal : ∀ c ∈ [a, b, o], (S c).allocated = true)
    (hb : (S b).dims = (S a).dims) (hod : (S o).dims = (S a).dims)
    (fa fb : Nat → Px t) (n : Nat) (hn : n = (S a).dims.count)
    (hfa : ∀ i < n, pixelAt S a i = some (fa i)) (hfb : ∀ i < n, pixelAt S b i = some (fb i)) :
    ∃ S', imAdd auto a b o order S = some (.ok, S') ∧
      (∀ i < n, ∃ v, pixelAt S' o i = some v ∧
        v.val = clampSpec t.lo t.hi ((fa i).val + (fb i).val)) ∧
      ∀ c, c ≠ o → S' c = S c := by
  choose g hg hg' using fun i => C06_add_unsigned ht (fa i) (fb i)
  obtain ⟨S', e, h1, -, -, -, h2⟩ := C11_pixelwise auto (lift2 kAdd) a [b] o order ho S hS
    (fun c hc => hal c (by simpa using hc))
    (fun c hc => by
      simp only [List.cons_append, List.nil_append, List.mem_cons, List.not_mem_nil, or_false] at hc
      rcases hc with rfl | rfl
      · exact hb
      · exact hod) g
    (fun i hi => ⟨[fa i, fb i], by simp [hfa i (hn ▸ hi), hfb i (hn ▸ hi)], hg i⟩)
  exact ⟨S', e, fun i hi => ⟨g i, h1 i (hn ▸ hi), hg' i⟩, h2⟩

/-- In-place addition of an image to itself, processed backwards. -/
example :
    let S : Store (Px UINT8) := fun _ =>
      ⟨⟨3, 1, 1⟩, true, [some ⟨7, by decide, by decide⟩, some ⟨200, by decide, by decide⟩,
        some ⟨1, by decide, by decide⟩]⟩
    ((imAdd true 0 0 0 (fun n => (List.range n).reverse) S).map
      fun r => ((r.2 0).buf.map fun p => p.map Px.val)) = some [some 14, some 255, some 2] := by
  decide

end Smil
