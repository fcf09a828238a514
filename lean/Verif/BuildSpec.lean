import Verif.BuildLemmas
import Verif.PropsMorphoAlgebra

/-!
# Specification of the reconstruction and its algebra

`Carried N mk ms v p`: the level `v` can be brought to `p` by a path of steps of `N` inside the image,
starting at a pixel where the marker is at least `v`, the mask being at least `v` all along. The
reconstruction is the largest such level. Everything is stated over an arbitrary linear order; the
dual reconstruction is the same statement over the opposite order.
-/

namespace Smil
open StrElt
variable {α : Type}

inductive Carried [LE α] (N : IntPoint → IntPoint → Prop) (mk ms : Img α) (v : α) : IntPoint → Prop
  | base {p a b} : mk.at? p = some a → ms.at? p = some b → v ≤ a → v ≤ b → Carried N mk ms v p
  | step {q p b} : Carried N mk ms v q → N q p → ms.at? p = some b → v ≤ b → Carried N mk ms v p

/-- `r` is the reconstruction of `ms` from `mk`. -/
def IsBuild [LE α] (N : IntPoint → IntPoint → Prop) (mk ms r : Img α) : Prop :=
  ms.dims = mk.dims ∧ r.dims = mk.dims ∧ ∀ p, Img.In mk.dims p →
    ∃ v, r.at? p = some v ∧ IsGreatest {v | Carried N mk ms v p} v

/-- `r` is the dual reconstruction. -/
def IsDualBuild [LE α] (N : IntPoint → IntPoint → Prop) (mk ms r : Img α) : Prop :=
  IsBuild (α := αᵒᵈ) N mk ms r

section
variable [LinearOrder α] {N : IntPoint → IntPoint → Prop}

theorem Carried.mono_level {mk ms : Img α} {v w : α} {p : IntPoint} (h : v ≤ w)
    (hc : Carried N mk ms w p) : Carried N mk ms v p := by
  induction hc with
  | base h1 h2 h3 h4 => exact .base h1 h2 (h.trans h3) (h.trans h4)
  | step _ h1 h2 h3 ih => exact .step ih h1 h2 (h.trans h3)

theorem Carried.mask {mk ms : Img α} {v : α} {p : IntPoint} (hc : Carried N mk ms v p) :
    ∃ b, ms.at? p = some b ∧ v ≤ b := by
  cases hc with
  | base _ h2 _ h4 => exact ⟨_, h2, h4⟩
  | step _ _ h2 h3 => exact ⟨_, h2, h3⟩

theorem Carried.mono {N' : IntPoint → IntPoint → Prop} (hN : ∀ q p, N q p → N' q p)
    {mk ms mk' ms' : Img α} (h1 : Img.Le mk mk') (h2 : Img.Le ms ms') {v : α} {p : IntPoint}
    (hc : Carried N mk ms v p) : Carried N' mk' ms' v p := by
  induction hc with
  | @base p a b ha hb hva hvb =>
    have ia := Img.at?_some mk' p (h1.1 ▸ Img.at?_eq_some_in _ _ _ ha)
    have ib := Img.at?_some ms' p (h2.1 ▸ Img.at?_eq_some_in _ _ _ hb)
    exact .base ia ib (hva.trans (h1.2 p _ _ ha ia)) (hvb.trans (h2.2 p _ _ hb ib))
  | @step q p b _ hn hb hvb ih =>
    have ib := Img.at?_some ms' p (h2.1 ▸ Img.at?_eq_some_in _ _ _ hb)
    exact .step ih (hN _ _ hn) ib (hvb.trans (h2.2 p _ _ hb ib))

theorem IsBuild.at {mk ms r : Img α} (h : IsBuild N mk ms r) {p : IntPoint} {u : α}
    (hu : r.at? p = some u) : IsGreatest {v | Carried N mk ms v p} u := by
  obtain ⟨v, hv, hg⟩ := h.2.2 p (h.2.1 ▸ Img.at?_eq_some_in _ _ _ hu)
  rw [hu] at hv; cases hv; exact hg

/-- Increasing in the marker, the mask and the neighbourhood. -/
theorem IsBuild.mono {N' : IntPoint → IntPoint → Prop} (hN : ∀ q p, N q p → N' q p)
    {mk ms mk' ms' r r' : Img α} (h1 : Img.Le mk mk') (h2 : Img.Le ms ms') (h : IsBuild N mk ms r)
    (h' : IsBuild N' mk' ms' r') : Img.Le r r' :=
  ⟨h.2.1.trans (h1.1.trans h'.2.1.symm), fun _ _ _ hu hv =>
    (h'.at hv).2 (Carried.mono hN h1 h2 (h.at hu).1)⟩

theorem IsBuild.unique {mk ms mk' ms' r r' : Img α} (h1 : Img.Same mk mk') (h2 : Img.Same ms ms')
    (h : IsBuild N mk ms r) (h' : IsBuild N mk' ms' r') : Img.Same r r' :=
  Img.Le.antisymm (h.mono (fun _ _ h => h) h1.le h2.le h')
    (h'.mono (fun _ _ h => h) h1.symm.le h2.symm.le h)

theorem IsBuild.le_mask {mk ms r : Img α} (h : IsBuild N mk ms r) : Img.Le r ms :=
  ⟨h.2.1.trans h.1.symm, fun p u v hu hv => by
    obtain ⟨b, hb, hle⟩ := (h.at hu).1.mask
    rw [hv] at hb; cases hb; exact hle⟩

theorem IsBuild.inf_le {mk ms r i : Img α} (h : IsBuild N mk ms r) (hi : Img.IsMap2 min mk ms i) :
    Img.Le i r :=
  ⟨hi.1.trans h.2.1.symm, fun p u v hu hv => by
    obtain ⟨a, b, ha, hb, rfl⟩ := hi.at p u hu
    exact (h.at hv).2 (.base ha hb (min_le_left _ _) (min_le_right _ _))⟩

/-- The result is closed under geodesic steps. -/
theorem IsBuild.closed {mk ms r : Img α} (h : IsBuild N mk ms r) {q p : IntPoint} {a b c : α}
    (hN : N q p) (ha : r.at? q = some a) (hb : ms.at? p = some b) (hc : r.at? p = some c) :
    min a b ≤ c :=
  (h.at hc).2 (Carried.step ((h.at ha).1.mono_level (min_le_left _ _)) hN hb (min_le_right _ _))

/-- … and below every image with these two properties. -/
theorem IsBuild.least {mk ms r s : Img α} (h : IsBuild N mk ms r) (hd : s.dims = mk.dims)
    (h1 : ∀ p a b c, mk.at? p = some a → ms.at? p = some b → s.at? p = some c → min a b ≤ c)
    (h2 : ∀ q p a b c, N q p → s.at? q = some a → ms.at? p = some b → s.at? p = some c → min a b ≤ c) :
    Img.Le r s := by
  refine ⟨h.2.1.trans hd.symm, fun p u v hu hv => ?_⟩
  have hc := (h.at hu).1
  have : ∀ p, Carried N mk ms u p → ∀ v, s.at? p = some v → u ≤ v := by
    intro p hc
    induction hc with
    | base ha hb hva hvb => intro v hv; exact (le_min hva hvb).trans (h1 _ _ _ _ ha hb hv)
    | @step q p b hc hn hb hvb ih =>
      intro v hv
      have hq : Img.In s.dims q := by
        obtain ⟨c, hc, _⟩ := hc.mask
        rw [hd, ← h.1]; exact Img.at?_eq_some_in _ _ _ hc
      exact (le_min (ih _ (Img.at?_some s q hq)) hvb).trans (h2 _ _ _ _ _ hn (Img.at?_some s q hq) hb hv)
  exact this p hc v hv

theorem isBuild_of_least {mk ms r : Img α} (hm : ms.dims = mk.dims) (hd : r.dims = mk.dims)
    (h1 : ∀ p a b c, mk.at? p = some a → ms.at? p = some b → r.at? p = some c → min a b ≤ c)
    (h2 : ∀ q p a b c, N q p → r.at? q = some a → ms.at? p = some b → r.at? p = some c → min a b ≤ c)
    (h3 : ∀ p v, r.at? p = some v → Carried N mk ms v p) : IsBuild N mk ms r := by
  refine ⟨hm, hd, fun p hp => ?_⟩
  have hv := Img.at?_some r p (hd ▸ hp)
  refine ⟨_, hv, h3 p _ hv, fun u hu => ?_⟩
  have : ∀ p, Carried N mk ms u p → ∀ v, r.at? p = some v → u ≤ v := by
    intro p hc
    induction hc with
    | base ha hb hva hvb => intro v hv; exact (le_min hva hvb).trans (h1 _ _ _ _ ha hb hv)
    | @step q p b hc hn hb hvb ih =>
      intro v hv
      have hq : Img.In r.dims q := by
        obtain ⟨c, hc, _⟩ := hc.mask
        rw [hd, ← hm]; exact Img.at?_eq_some_in _ _ _ hc
      exact (le_min (ih _ (Img.at?_some r q hq)) hvb).trans (h2 _ _ _ _ _ hn (Img.at?_some r q hq) hb hv)
  exact this p hu _ hv

theorem IsBuild.idem {mk ms r r' : Img α} (h : IsBuild N mk ms r) (h' : IsBuild N r ms r') :
    Img.Same r' r := by
  apply Img.Le.antisymm
  · refine h'.least rfl (fun p a b c ha _ hc => ?_) (fun q p a b c hn ha hb hc => h.closed hn ha hb hc)
    rw [ha] at hc; cases hc; exact min_le_left _ _
  · refine ⟨h'.2.1.symm, fun p u v hu hv => ?_⟩
    obtain ⟨b, hb, hle⟩ := (h.at hu).1.mask
    exact (h'.at hv).2 (.base hu hb (le_refl _) hle)

theorem Carried.of_same {mk ms mk' ms' : Img α} (h1 : Img.Same mk mk') (h2 : Img.Same ms ms') {v : α}
    {p : IntPoint} (h : Carried N mk ms v p) : Carried N mk' ms' v p :=
  Carried.mono (fun _ _ h => h) h1.le h2.le h

theorem IsBuild.of_same {mk ms r mk' ms' r' : Img α} (h1 : Img.Same mk mk') (h2 : Img.Same ms ms')
    (h3 : Img.Same r r') (h : IsBuild N mk ms r) : IsBuild N mk' ms' r' := by
  refine ⟨h2.1.symm.trans (h.1.trans h1.1), h3.1.symm.trans (h.2.1.trans h1.1), fun p hp => ?_⟩
  obtain ⟨v, hv, hg⟩ := h.2.2 p (h1.1.symm ▸ hp)
  exact ⟨v, by rw [← h3.2]; exact hv, hg.1.of_same h1 h2, fun u hu => hg.2 (Carried.of_same h1.symm h2.symm hu)⟩

/-- Steps from a pixel to itself do not matter. -/
theorem Carried.irrefl {mk ms : Img α} {v : α} {p : IntPoint} (h : Carried N mk ms v p) :
    Carried (fun q p => N q p ∧ q ≠ p) mk ms v p := by
  induction h with
  | base h1 h2 h3 h4 => exact .base h1 h2 h3 h4
  | @step q p b _ hn hb hv ih =>
    by_cases e : q = p
    · subst e; exact ih
    · exact .step ih ⟨hn, e⟩ hb hv

/-- An order-reversing involution exchanges the two reconstructions. -/
theorem IsBuild.compl (e : α → α) (he : ∀ x y, x ≤ y → e y ≤ e x) (hi : ∀ x, e (e x) = x)
    {mk ms r mk' ms' r' : Img α} (h : IsBuild N mk ms r) (h' : IsDualBuild N mk' ms' r')
    (h1 : Img.IsMap e mk mk') (h2 : Img.IsMap e ms ms') : Img.IsMap e r r' := by
  have key : ∀ v p, Carried N mk ms v p → Carried (α := αᵒᵈ) N mk' ms' (e v) p := by
    intro v p hc
    induction hc with
    | base ha hb hva hvb => exact .base (h1.2 _ _ ha) (h2.2 _ _ hb) (he _ _ hva) (he _ _ hvb)
    | step _ hn hb hvb ih => exact .step ih hn (h2.2 _ _ hb) (he _ _ hvb)
  have key' : ∀ (v : α) p, Carried (α := αᵒᵈ) N mk' ms' v p → Carried N mk ms (e v) p := by
    intro v p hc
    induction hc with
    | base ha hb hva hvb =>
      exact .base ((IsMap.invol e hi h1).2 _ _ ha) ((IsMap.invol e hi h2).2 _ _ hb) (he _ _ hva)
        (he _ _ hvb)
    | step _ hn hb hvb ih =>
      exact .step ih hn ((IsMap.invol e hi h2).2 _ _ hb) (he _ _ hvb)
  refine ⟨h'.2.1.trans (h1.1.trans h.2.1.symm), fun p u hu => ?_⟩
  have hg := h.at hu
  have hp : Img.In mk'.dims p := by
    rw [h1.1, ← h.2.1]; exact Img.at?_eq_some_in _ _ _ hu
  obtain ⟨v, hv, hg'⟩ := h'.2.2 p hp
  refine hv.trans (congrArg some ?_)
  have e1 : @LE.le α _ v (e u) := hg'.2 (key u p hg.1)
  have e2 : @LE.le α _ (e u) v := (he _ _ (hg.2 (key' v p hg'.1))).trans_eq (hi v)
  exact le_antisymm (α := α) e1 e2

end

/-! ### From offsets to pixels -/

section
variable [LinearOrder α] [OrderBot α]

theorem carried_iff_ireach {se : StrElt} {mk ms : Img α} (hm : ms.dims = mk.dims) {f0 : Nat → α}
    (hf : ∀ i < mk.dims.count, f0 i = min (mk.buf i) (ms.buf i)) (v : α) (p : IntPoint)
    (hp : Img.In mk.dims p) :
    IReach (nbOffsets mk.dims se) mk.dims.count f0 ms.buf v (offOf mk.dims p) ↔
      Carried (seRel se) mk ms v p := by
  constructor
  · intro h
    generalize hi : offOf mk.dims p = i at h
    induction h generalizing p with
    | @base i hlt hv =>
      subst hi
      rw [hf _ hlt] at hv
      refine .base (mk.buf_offOf p hp) ?_ (hv.trans (min_le_left _ _)) (hv.trans (min_le_right _ _))
      have := ms.buf_offOf p (hm.symm ▸ hp)
      rwa [hm] at this
    | @step i j hr hj hv ih =>
      subst hi
      have hilt : i < mk.dims.count := hr.lt (fun i hi j hj => nbOffsets_lt hi hj)
      obtain ⟨hin, hoff⟩ := coordPt_in hilt
      have hq := ih _ hin hoff
      have hb := ms.buf_offOf p (hm.symm ▸ hp)
      rw [hm] at hb
      by_cases e : coordPt mk.dims i = p
      · rw [← e]; exact hq
      · refine .step hq ?_ hb hv
        rw [seRel_nb hin hp e, hoff]
        exact hj
  · intro h
    induction h.irrefl with
    | @base p a b ha hb hva hvb =>
      have hin := Img.at?_eq_some_in _ _ _ ha
      refine .base (offOf_lt hin) ?_
      rw [hf _ (offOf_lt hin)]
      have e1 := mk.buf_offOf p hin
      have e2 := ms.buf_offOf p (hm.symm ▸ hin)
      rw [hm] at e2
      rw [ha] at e1; rw [hb] at e2
      cases e1; cases e2
      exact le_min hva hvb
    | @step q p b hc hn hb hvb ih =>
      have hq : Img.In mk.dims q := by
        obtain ⟨c, hc, _⟩ := hc.mask
        rw [← hm]; exact Img.at?_eq_some_in _ _ _ hc
      have hp' : Img.In mk.dims p := hm ▸ Img.at?_eq_some_in _ _ _ hb
      have e2 := ms.buf_offOf p (hm.symm ▸ hp')
      rw [hm, hb] at e2; cases e2
      refine .step (ih hq (hc.mono (fun _ _ h => h.1) (Img.Le.refl _) (Img.Le.refl _))) ?_ hvb
      exact (seRel_nb hq hp' hn.2).mp hn.1

theorem isBuild_of_run {se : StrElt} {mk ms : Img α} (hm : ms.dims = mk.dims) {f0 val : Nat → α}
    (hf : ∀ i < mk.dims.count, f0 i = min (mk.buf i) (ms.buf i))
    (h : ∀ i < mk.dims.count,
      IsGreatest {v | IReach (nbOffsets mk.dims se) mk.dims.count f0 ms.buf v i} (val i)) :
    IsBuild (seRel se) mk ms ⟨mk.dims, val⟩ := by
  refine ⟨hm, rfl, fun p hp => ⟨val (offOf mk.dims p), Img.buf_offOf ⟨mk.dims, val⟩ p hp, ?_⟩⟩
  have := h _ (offOf_lt hp)
  refine ⟨(carried_iff_ireach hm hf _ p hp).mp this.1, fun v hv => this.2 ?_⟩
  exact (carried_iff_ireach hm hf _ p hp).mpr hv

end
end Smil
