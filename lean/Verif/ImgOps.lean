import Verif.MorphoAlgebra

/-!
# Pixelwise operations as functions on images

The effect of a pixelwise operation (DBaseImageOperations.hxx:92-420), as established by
`C11_pixelwise` for every order of execution: the scalar kernel is applied at every position.
`none`: the kernel is undefined on some pixel.
-/

namespace Smil
variable {α β γ : Type}

/-- Apply a unary kernel to every pixel. -/
def Img.mapK [Inhabited β] (k : α → Option β) (a : Img α) : Option (Img β) :=
  if ∀ i, i < a.dims.count → (k (a.buf i)).isSome then
    some ⟨a.dims, fun i => (k (a.buf i)).getD default⟩
  else none

/-- Apply a binary kernel to every pair of pixels of two images of the same size. -/
def Img.zipK [Inhabited γ] (k : α → β → Option γ) (a : Img α) (b : Img β) : Option (Img γ) :=
  if ∀ i, i < a.dims.count → (k (a.buf i) (b.buf i)).isSome then
    some ⟨a.dims, fun i => (k (a.buf i) (b.buf i)).getD default⟩
  else none

theorem Img.at?_buf (a : Img α) (p : IntPoint) (u : α) (h : a.at? p = some u) :
    ∃ i, i < a.dims.count ∧ a.buf i = u ∧
      i = rasterIndex a.dims.w a.dims.h p.x.toNat p.y.toNat p.z.toNat := by
  have hp := Img.at?_eq_some_in _ _ _ h
  rw [Img.at?_some a p hp] at h
  cases h
  unfold Img.In at hp
  exact ⟨_, rasterIndex_lt (by omega) (by omega) (by omega), rfl, rfl⟩

theorem Img.buf_at? (a : Img α) (i : Nat) (hi : i < a.dims.count) :
    ∃ p, a.at? p = some (a.buf i) ∧ rasterIndex a.dims.w a.dims.h p.x.toNat p.y.toNat p.z.toNat = i := by
  unfold Dims.count at hi
  have hw : 0 < a.dims.w := by
    rcases Nat.eq_zero_or_pos a.dims.w with h | h
    · rw [h] at hi; simp at hi
    · exact h
  have hh : 0 < a.dims.h := by
    rcases Nat.eq_zero_or_pos a.dims.h with h | h
    · rw [h] at hi; simp at hi
    · exact h
  have e : rasterIndex a.dims.w a.dims.h (i % a.dims.w) (i / a.dims.w % a.dims.h)
      (i / a.dims.w / a.dims.h) = i := by
    unfold rasterIndex
    have h1 := Nat.mod_add_div i a.dims.w
    have h2 := Nat.mod_add_div (i / a.dims.w) a.dims.h
    rw [h2, h1]
  refine ⟨Img.pt (i % a.dims.w) (i / a.dims.w % a.dims.h) (i / a.dims.w / a.dims.h), ?_, ?_⟩
  · rw [Img.at?_some]
    · simp only [Img.pt, Int.toNat_natCast, Img.px, e]
    · rw [Img.in_pt]
      refine ⟨Nat.mod_lt _ hw, Nat.mod_lt _ hh, ?_⟩
      rw [Nat.div_div_eq_div_mul, Nat.div_lt_iff_lt_mul (Nat.mul_pos hw hh)]
      rw [Nat.mul_comm a.dims.w, ← Nat.mul_assoc]
      exact hi
  · simp only [Img.pt, Int.toNat_natCast, e]

theorem Img.mapK_some [Inhabited β] (k : α → Option β) (a : Img α) (r : Img β)
    (h : a.mapK k = some r) : r.dims = a.dims ∧
      ∀ p u, a.at? p = some u → ∃ v, k u = some v ∧ r.at? p = some v := by
  unfold Img.mapK at h
  split at h <;> [rename_i hall; cases h]
  cases h
  refine ⟨rfl, fun p u hu => ?_⟩
  obtain ⟨i, hi, rfl, rfl⟩ := Img.at?_buf a p u hu
  obtain ⟨v, hv⟩ := Option.isSome_iff_exists.mp (hall _ hi)
  refine ⟨v, hv, ?_⟩
  have hin : Img.In a.dims p := Img.at?_eq_some_in _ _ _ hu
  unfold Img.at? Img.px
  rw [if_pos hin]
  simp only [hv]; rfl

theorem Img.mapK_total [Inhabited β] (k : α → Option β) (a : Img α)
    (h : ∀ p u, a.at? p = some u → (k u).isSome) : ∃ r, a.mapK k = some r := by
  unfold Img.mapK
  rw [if_pos]
  · exact ⟨_, rfl⟩
  · intro i hi
    obtain ⟨p, hp, _⟩ := Img.buf_at? a i hi
    exact h p _ hp

theorem Img.zipK_some [Inhabited γ] (k : α → β → Option γ) (a : Img α) (b : Img β) (r : Img γ)
    (hd : b.dims = a.dims) (h : Img.zipK k a b = some r) : r.dims = a.dims ∧
      ∀ p u v, a.at? p = some u → b.at? p = some v → ∃ w, k u v = some w ∧ r.at? p = some w := by
  unfold Img.zipK at h
  split at h <;> [rename_i hall; cases h]
  cases h
  refine ⟨rfl, fun p u v hu hv => ?_⟩
  obtain ⟨i, hi, rfl, rfl⟩ := Img.at?_buf a p u hu
  obtain ⟨j, hj, rfl, ej⟩ := Img.at?_buf b p v hv
  rw [hd] at ej
  obtain ⟨w, hw⟩ := Option.isSome_iff_exists.mp (hall _ hi)
  rw [ej]
  refine ⟨w, hw, ?_⟩
  have hin : Img.In a.dims p := Img.at?_eq_some_in _ _ _ hu
  unfold Img.at? Img.px
  rw [if_pos hin]
  simp only [hw]; rfl

theorem Img.zipK_total [Inhabited γ] (k : α → β → Option γ) (a : Img α) (b : Img β)
    (hd : b.dims = a.dims)
    (h : ∀ p u v, a.at? p = some u → b.at? p = some v → (k u v).isSome) :
    ∃ r, Img.zipK k a b = some r := by
  unfold Img.zipK
  rw [if_pos]
  · exact ⟨_, rfl⟩
  · intro i hi
    obtain ⟨p, hp, e⟩ := Img.buf_at? a i hi
    have hin : Img.In b.dims p := hd ▸ Img.at?_eq_some_in _ _ _ hp
    have hb := Img.at?_some b p hin
    unfold Img.px at hb
    rw [hd, e] at hb
    exact h p _ _ hp hb

end Smil
