import Verif.FastLineOps
import Verif.FastLineFams
import Verif.HitOrMissLemmas
import Verif.TransformLemmas

/-! # From the buffers to the images -/

namespace Smil
variable {α : Type} [LinearOrder α]

/-- What `fam_run` says of the covered pixels. -/
def RunOk (A B sa sb m K : Nat) (β : Nat → Nat → Int) (f out' : Nat → α) : Prop :=
  ∀ i < K, ∀ a < A, ∀ b < B, β i a = b →
    (∃ a' < A, ∃ b' < B, β i a' = b' ∧ a' ≤ a + m ∧ a ≤ a' + m ∧ f (a' * sa + b' * sb) = out' (a * sa + b * sb)) ∧
    ∀ a' < A, ∀ b' < B, β i a' = b' → a' ≤ a + m → a ≤ a' + m → f (a' * sa + b' * sb) ≤ out' (a * sa + b * sb)

theorem off_flat {D : Dims} (hd : D.d = 1) {p : IntPoint} (hp : Img.In D p) :
    offOf D p = p.x.toNat * 1 + p.y.toNat * D.w ∧ p.z = 0 ∧ 0 ≤ p.x ∧ 0 ≤ p.y ∧ p.x.toNat < D.w ∧ p.y.toNat < D.h := by
  unfold Img.In at hp
  have hz : p.z = 0 := by omega
  refine ⟨?_, hz, by omega, by omega, by omega, by omega⟩
  unfold offOf rasterIndex
  rw [hz]
  simp [Nat.mul_comm]

theorem in_flat {D : Dims} (hd : D.d = 1) {x y : Nat} (hx : x < D.w) (hy : y < D.h) : Img.In D ⟨x, y, 0⟩ := by
  unfold Img.In
  simp only
  omega

theorem run_imageX (im : Img α) (hd : im.dims.d = 1) (b' : Nat → α) (m K : Nat) (β : Nat → Nat → Int)
    (N : IntPoint → IntPoint → Prop) (h : RunOk im.dims.w im.dims.h 1 im.dims.w m K β im.buf b')
    (hN : ∀ q p, Img.In im.dims q → Img.In im.dims p → ∀ i < K, β i p.x.toNat = p.y →
      (N q p ↔ q.x ≤ p.x + m ∧ p.x ≤ q.x + m ∧ β i q.x.toNat = q.y))
    (p : IntPoint) (hp : Img.In im.dims p) (hc : ∃ i < K, β i p.x.toNat = p.y) :
    IsLUB { u | ∃ q, N q p ∧ im.at? q = some u } (b' (offOf im.dims p)) := by
  obtain ⟨i, hi, hb⟩ := hc
  obtain ⟨e1, e2, e3, e4, e5, e6⟩ := off_flat hd hp
  obtain ⟨⟨a', h1, c', h2, h3, h4, h5, h6⟩, h7⟩ := h i hi _ e5 _ e6 (by omega)
  have key : ∀ v, IsGreatest { u | ∃ q, N q p ∧ im.at? q = some u } v → IsLUB { u | ∃ q, N q p ∧ im.at? q = some u } v :=
    fun v hv => hv.isLUB
  apply key
  rw [e1]
  refine ⟨?_, ?_⟩
  · have hq := in_flat hd h1 h2
    refine ⟨⟨a', c', 0⟩, ?_, ?_⟩
    · rw [hN _ _ hq hp i hi hb]
      refine ⟨?_, ?_, ?_⟩ <;> simp only [Int.toNat_natCast]
      · omega
      · omega
      · exact h3
    · rw [Img.buf_offOf im _ hq, (off_flat hd hq).1]
      simp only [Int.toNat_natCast]
      rw [h6]
  · rintro u ⟨q, hq, hu⟩
    have hqi := Img.at?_eq_some_in _ _ _ hu
    rw [hN _ _ hqi hp i hi hb] at hq
    obtain ⟨k1, k2, k3, k4, k5, k6⟩ := off_flat hd hqi
    rw [Img.buf_offOf im _ hqi, k1] at hu
    cases hu
    exact h7 _ k5 _ k6 (by omega) (by omega) (by omega)

theorem run_imageY (im : Img α) (hd : im.dims.d = 1) (b' : Nat → α) (m K : Nat) (β : Nat → Nat → Int)
    (N : IntPoint → IntPoint → Prop) (h : RunOk im.dims.h im.dims.w im.dims.w 1 m K β im.buf b')
    (hN : ∀ q p, Img.In im.dims q → Img.In im.dims p → ∀ i < K, β i p.y.toNat = p.x →
      (N q p ↔ q.y ≤ p.y + m ∧ p.y ≤ q.y + m ∧ β i q.y.toNat = q.x))
    (p : IntPoint) (hp : Img.In im.dims p) (hc : ∃ i < K, β i p.y.toNat = p.x) :
    IsLUB { u | ∃ q, N q p ∧ im.at? q = some u } (b' (offOf im.dims p)) := by
  obtain ⟨i, hi, hb⟩ := hc
  obtain ⟨e1, e2, e3, e4, e5, e6⟩ := off_flat hd hp
  obtain ⟨⟨a', h1, c', h2, h3, h4, h5, h6⟩, h7⟩ := h i hi _ e6 _ e5 (by omega)
  have key : ∀ v, IsGreatest { u | ∃ q, N q p ∧ im.at? q = some u } v → IsLUB { u | ∃ q, N q p ∧ im.at? q = some u } v :=
    fun v hv => hv.isLUB
  apply key
  rw [e1, Nat.add_comm]
  refine ⟨?_, ?_⟩
  · have hq := in_flat hd h2 h1
    refine ⟨⟨c', a', 0⟩, ?_, ?_⟩
    · rw [hN _ _ hq hp i hi hb]
      refine ⟨?_, ?_, ?_⟩ <;> simp only [Int.toNat_natCast]
      · omega
      · omega
      · exact h3
    · rw [Img.buf_offOf im _ hq, (off_flat hd hq).1]
      simp only [Int.toNat_natCast]
      rw [Nat.add_comm, h6]
  · rintro u ⟨q, hq, hu⟩
    have hqi := Img.at?_eq_some_in _ _ _ hu
    rw [hN _ _ hqi hp i hi hb] at hq
    obtain ⟨k1, k2, k3, k4, k5, k6⟩ := off_flat hd hqi
    rw [Img.buf_offOf im _ hqi, k1] at hu
    cases hu
    have := h7 _ k6 _ k5 (by omega) (by omega) (by omega)
    rwa [Nat.add_comm] at this

/-- A run that covers the whole image is a dilation. -/
theorem isDilBy_of_lub {N : IntPoint → IntPoint → Prop} (im : Img α) (b' : Nat → α)
    (h : ∀ p, Img.In im.dims p → IsLUB { u | ∃ q, N q p ∧ im.at? q = some u } (b' (offOf im.dims p))) :
    IsDilBy N im ⟨im.dims, b'⟩ :=
  ⟨rfl, fun p hp => ⟨_, Img.buf_offOf (⟨im.dims, b'⟩ : Img α) p hp, h p hp⟩⟩

theorem lineDilate_of {E : Env α} {same : Bool} {dx dy : Int} {r : Nat} {raw : Nat → VH α} {im out : Img α}
    (h : Accepts E im out) (hd : im.dims.d = 1) :
    ∃ o, checkSize E im out = .ok o ∧ lineDilate E same dx dy r raw im out =
      (grayDilate im.dims.w im.dims.h (2 * r + 1) dx dy raw same im.buf (if same then im.buf else o.buf)).map
        fun b => .ok ⟨im.dims, b⟩ := by
  obtain ⟨o, ho, -⟩ := checkSize_acc E im out h
  refine ⟨o, ho, ?_⟩
  unfold lineDilate
  rw [ho]
  dsimp only
  rw [if_neg (by omega), Nat.mul_comm r 2]

omit [LinearOrder α] in
theorem alloc_pos {im : Img α} (h : im.alloc = true) : 0 < im.dims.w ∧ 0 < im.dims.h := by
  unfold Img.alloc at h
  have : im.dims.count ≠ 0 := by simpa using h
  unfold Dims.count at this
  constructor
  · rcases Nat.eq_zero_or_pos im.dims.w with h | h
    · exact absurd (by rw [h]; simp) this
    · exact h
  · rcases Nat.eq_zero_or_pos im.dims.h with h | h
    · exact absurd (by rw [h]; simp) this
    · exact h

/-! ### The runs of each direction -/

section runs
variable (W H m : Nat) (raw : Nat → VH α) (same : Bool) (f out : Nat → α)

theorem run_hor (dx : Int) (hW : 0 < W) (hW2 : W < 2 ^ 64) (hm : 2 * m + 1 < 2 ^ 64) (h1 : W ≠ 1) (hk : W ≠ 2 * m + 1)
    (hs : same = true → ∀ i < W * H, out i = f i) :
    ∃ b', grayDilate W H (2 * m + 1) dx 0 raw same f out = some b' ∧ RunOk W H 1 W m H (fun i _ => i) f b' := by
  obtain ⟨b', e, h, -⟩ := fam_run W H 1 W (W * H) (max W H) m (dilHorVer false (max W H) (2 * m + 1)) raw same f out
    _ _ _ _ _ (famHor W H hW) (offOk_hor W H) (le_max_left _ _)
    (fun i _ g w => dilHorVer_spec false _ m g W w (le_max_left _ _) hW hW2 hm h1 hk) hs
  refine ⟨b', ?_, h⟩
  unfold grayDilate
  rw [if_pos rfl]
  exact e

theorem run_ver (dy : Int) (hdy : dy ≠ 0) (hH : 0 < H) (hH2 : H < 2 ^ 64) (hm : 2 * m + 1 < 2 ^ 64) (h1 : H ≠ 1)
    (hk : H ≠ 2 * m + 1) (hs : same = true → ∀ i < W * H, out i = f i) :
    ∃ b', grayDilate W H (2 * m + 1) 0 dy raw same f out = some b' ∧ RunOk H W W 1 m W (fun i _ => i) f b' := by
  obtain ⟨b', e, h, -⟩ := fam_run H W W 1 (W * H) (max W H) m (dilHorVer true (max W H) (2 * m + 1)) raw same f out
    _ _ _ _ _ (famVer W H hH) (offOk_ver W H) (le_max_right _ _)
    (fun i _ g w => dilHorVer_spec true _ m g H w (le_max_right _ _) hH hH2 hm h1 hk) hs
  refine ⟨b', ?_, h⟩
  unfold grayDilate
  rw [if_neg hdy, if_pos rfl]
  exact e

/-- The part common to the other directions. -/
theorem run_slant (dx dy : Int) (hdx : dx ≠ 0) (hdy : dy ≠ 0) (A B sa sb : Nat) (ho : OffOk A B sa sb (W * H))
    (hA : A ≤ max W H) (hA2 : A < 2 ^ 64) (hm : 2 * m + 1 < 2 ^ 64) (ls : List (List Int)) (K : Nat) (β : Nat → Nat → Int)
    (a0 n : Nat → Nat) (hl : slantLines W H dx dy = some ls) (hf : IsFam A B sa sb ls K β a0 n)
    (hs : same = true → ∀ i < W * H, out i = f i) :
    ∃ b', grayDilate W H (2 * m + 1) dx dy raw same f out = some b' ∧ RunOk A B sa sb m K β f b' ∧
      ∀ a < A, ∀ b < B, (∀ i < K, β i a ≠ b) → b' (a * sa + b * sb) = out (a * sa + b * sb) := by
  obtain ⟨b', e, h, h'⟩ := fam_run A B sa sb (W * H) (max W H) m (dilAlong (max W H) (2 * m + 1)) raw same f out
    _ _ _ _ _ hf ho hA
    (fun i hi g w => dilAlong_spec _ m g (n i) w (hf.pos i hi) (by
      have h1 := (hf.dom i hi (a0 i + (n i - 1))).1 ⟨by omega, by have := hf.pos i hi; omega⟩
      have h2 := hf.pos i hi
      omega) hm) hs
  refine ⟨b', ?_, h, h'⟩
  unfold grayDilate
  dsimp only
  rw [if_neg hdy, if_neg hdx, hl]
  exact e

end runs

/-- Erosions are dilations of the inverted image. -/
theorem ero_of_dil {N : IntPoint → IntPoint → Prop} (e : α → α) (he : ∀ x y, x ≤ y → e y ≤ e x) (hi : ∀ x, e (e x) = x)
    {f f' a b : Img α} (hf : Img.IsMap e f f') (ha : IsDilBy (fun q p => N p q) f' a) (hb : Img.IsMap e a b) :
    IsEroBy N f b := by
  refine ⟨hb.1.trans (ha.1.trans hf.1), fun p hp => ?_⟩
  obtain ⟨u, hu, hl⟩ := ha.2 p (by rw [hf.1]; exact hp)
  refine ⟨e u, hb.2 p u hu, ?_, ?_⟩
  · rintro x ⟨q, hN, hx⟩
    have := he _ _ (hl.1 ⟨q, hN, hf.2 q x hx⟩)
    rwa [hi] at this
  · intro x hx
    have h1 : u ≤ e x := by
      refine hl.2 ?_
      rintro y ⟨q, hN, hy⟩
      obtain ⟨z, hz, rfl⟩ := hf.at q y hy
      exact he _ _ (hx ⟨q, hN, hz⟩)
    have := he _ _ h1
    rwa [hi] at this

theorem bresC_ceil (da db a : Nat) (hd : 0 < da) : (bresC da db a : Int) = -(-((a : Int) * db) / da) := by
  have h1 := bresC_lt da db a hd
  have h2 := bresC_ge da db a hd
  have h1' : (da : Int) * bresC da db a < a * db + da := by exact_mod_cast h1
  have h2' : (a : Int) * db ≤ da * bresC da db a := by exact_mod_cast h2
  have : -((a : Int) * db) / da = -(bresC da db a : Int) := by
    rw [Int.ediv_eq_iff_of_pos (by omega)]
    constructor <;> nlinarith
  rw [this]; ring

end Smil
