import Verif.Covariance
import Verif.ArithLemmas
import Mathlib.Tactic.FieldSimp
import Mathlib.Tactic.Positivity
import Mathlib.Algebra.Order.BigOperators.Group.List

namespace Smil
section
variable {α : Type} {t : PT}

theorem foldlM_add {ι : Type} (f : ℚ → ι → Option ℚ) (g : ι → ℚ) (L : List ι) (h : ∀ i ∈ L, ∀ s, f s i = some (s + g i)) (s : ℚ) :
    L.foldlM f s = some (s + (L.map g).sum) := by
  induction L generalizing s with
  | nil => simp
  | cons a L ih =>
    rw [List.foldlM_cons, h a (List.mem_cons_self ..)]
    have := ih (fun i hi => h i (List.mem_cons_of_mem _ hi)) (s + g a)
    simp only [Option.bind_eq_bind, Option.bind_some, this, List.map_cons, List.sum_cons]
    rw [add_assoc]

theorem sum_flatMap_q {ι : Type} (f : ι → List ℚ) (L : List ι) : (L.flatMap f).sum = (L.map fun i => (f i).sum).sum := by
  induction L with
  | nil => rfl
  | cons a L ih => simp only [List.flatMap_cons, List.sum_append, ih, List.map_cons, List.sum_cons]

/-- The point that the displacement leads to. -/
def movePt (h p : IntPoint) : IntPoint := ⟨p.x + h.x, p.y + h.y, p.z + h.z⟩

/-- The first points of the pairs of pixels at the displacement, each once. -/
def IsPairs (D : Dims) (h : IntPoint) (pts : List IntPoint) : Prop :=
  pts.Nodup ∧ ∀ p, p ∈ pts ↔ Img.In D p ∧ Img.In D (movePt h p)

theorem IsPairs.perm {D : Dims} {h : IntPoint} {a b : List IntPoint} (ha : IsPairs D h a) (hb : IsPairs D h b) : a.Perm b :=
  (List.perm_ext_iff_of_nodup ha.1 hb.1).mpr fun q => (ha.2 q).trans (hb.2 q).symm

/-- The points in the order of the loops. -/
def covPts (D : Dims) (mx my mz : Nat) : List IntPoint :=
  (List.range (D.d - mz)).flatMap fun z => (List.range (D.h - my)).flatMap fun y => (List.range (D.w - mx)).map fun x => Img.pt x y z

theorem mem_covPts {D : Dims} {mx my mz : Nat} {p : IntPoint} :
    p ∈ covPts D mx my mz ↔ ∃ x y z : Nat, p = Img.pt x y z ∧ x < D.w - mx ∧ y < D.h - my ∧ z < D.d - mz := by
  unfold covPts
  simp only [List.mem_flatMap, List.mem_map, List.mem_range]
  constructor
  · rintro ⟨z, hz, y, hy, x, hx, rfl⟩
    exact ⟨x, y, z, rfl, hx, hy, hz⟩
  · rintro ⟨x, y, z, rfl, hx, hy, hz⟩
    exact ⟨z, hz, y, hy, x, hx, rfl⟩

theorem covPts_pairs (D : Dims) (mx my mz : Nat) : IsPairs D (Img.pt mx my mz) (covPts D mx my mz) := by
  constructor
  · unfold covPts
    rw [List.nodup_flatMap]
    constructor
    · intro z _
      rw [List.nodup_flatMap]
      constructor
      · intro y _
        refine List.Nodup.map_on ?_ List.nodup_range
        intro a _ b _ hab
        simpa [Img.pt] using hab
      · refine List.Pairwise.imp_of_mem ?_ List.nodup_range
        intro a b _ _ hne p hp hq
        rw [List.mem_map] at hp hq
        obtain ⟨x, -, rfl⟩ := hp
        obtain ⟨x', -, h'⟩ := hq
        simp only [Img.pt, IntPoint.mk.injEq, Nat.cast_inj] at h'
        exact hne h'.2.1.symm
    · refine List.Pairwise.imp_of_mem ?_ List.nodup_range
      intro a b _ _ hne p hp hq
      rw [List.mem_flatMap] at hp hq
      obtain ⟨y, -, hp⟩ := hp
      obtain ⟨y', -, hq⟩ := hq
      rw [List.mem_map] at hp hq
      obtain ⟨x, -, rfl⟩ := hp
      obtain ⟨x', -, h'⟩ := hq
      simp only [Img.pt, IntPoint.mk.injEq, Nat.cast_inj] at h'
      exact hne h'.2.2.symm
  · intro p
    rw [mem_covPts]
    constructor
    · rintro ⟨x, y, z, rfl, hx, hy, hz⟩
      unfold Img.In movePt Img.pt
      simp only
      omega
    · obtain ⟨x, y, z⟩ := p
      unfold Img.In movePt Img.pt
      simp only
      rintro ⟨h1, h2⟩
      refine ⟨x.toNat, y.toNat, z.toNat, ?_, ?_, ?_, ?_⟩
      · simp only [IntPoint.mk.injEq]; omega
      all_goals omega

theorem length_covPts (D : Dims) (mx my mz : Nat) : (covPts D mx my mz).length = (D.w - mx) * (D.h - my) * (D.d - mz) := by
  unfold covPts
  simp only [List.length_flatMap, List.length_map, List.length_range, List.map_const', List.sum_replicate_nat]
  ring

/-- The value of a pixel as a rational. -/
def ratAt (val : α → ℚ) (im : Img α) (p : IntPoint) : ℚ := (im.at? p).elim 0 val

theorem covSum_eq (mul : α → α → Option ℚ) (val : α → ℚ) (im1 im2 : Img α) (hd : im1.dims = im2.dims) (mx my mz : Nat)
    (hmul : ∀ p a b, im1.at? p = some a → im2.at? (movePt (Img.pt mx my mz) p) = some b → mul a b = some (val a * val b)) :
    covSum mul im1 im2 mx my mz =
      some (((covPts im1.dims mx my mz).map fun p => ratAt val im1 p * ratAt val im2 (movePt (Img.pt mx my mz) p)).sum) := by
  unfold covSum
  rw [foldlM_add _ (fun z => (((List.range (im1.dims.h - my)).map fun y => ((List.range (im1.dims.w - mx)).map fun x =>
    ratAt val im1 (Img.pt x y z) * ratAt val im2 (movePt (Img.pt mx my mz) (Img.pt x y z))).sum).sum)), zero_add]
  · unfold covPts
    congr 1
    simp only [List.map_flatMap, List.map_map, sum_flatMap_q]
    rfl
  intro z hz s
  rw [foldlM_add _ (fun y => ((List.range (im1.dims.w - mx)).map fun x =>
    ratAt val im1 (Img.pt x y z) * ratAt val im2 (movePt (Img.pt mx my mz) (Img.pt x y z))).sum)]
  intro y hy s
  rw [foldlM_add]
  intro x hx s
  rw [List.mem_range] at hx hy hz
  have i1 : Img.In im1.dims (Img.pt x y z) := by rw [Img.in_pt]; omega
  have i2 : Img.In im2.dims (Img.pt (x + mx) (y + my) (z + mz)) := by rw [Img.in_pt, ← hd]; omega
  have e : movePt (Img.pt mx my mz) (Img.pt x y z) = Img.pt (x + mx) (y + my) (z + mz) := by
    unfold movePt Img.pt; simp
  rw [Img.at?_some im1 _ i1, Img.at?_some im2 _ i2, Option.bind_some, Option.bind_some]
  rw [hmul (Img.pt x y z) _ _ (Img.at?_some im1 _ i1) (by rw [e]; exact Img.at?_some im2 _ i2), Option.map_some, e]
  unfold ratAt
  rw [Img.at?_some im1 _ i1, Img.at?_some im2 _ i2]
  rfl

theorem sum_perm_map {ι : Type} {a b : List ι} (h : a.Perm b) (g : ι → ℚ) : (a.map g).sum = (b.map g).sum := (h.map g).sum_eq

/-- The value at one displacement that stays in the image. -/
theorem covAt_eq (mul : α → α → Option ℚ) (val : α → ℚ) (im1 im2 : Img α) (hd : im1.dims = im2.dims) (dx dy dz len : Nat)
    (hx : dx * len < im1.dims.w) (hy : dy * len < im1.dims.h) (hz : dz * len < im1.dims.d)
    (hmul : ∀ p q a b, im1.at? p = some a → im2.at? q = some b → mul a b = some (val a * val b))
    (pts : List IntPoint) (hp : IsPairs im1.dims (Img.pt (dx * len) (dy * len) (dz * len)) pts) :
    pts ≠ [] ∧ covAt mul im1 im2 dx dy dz len =
      some ((pts.map fun p => ratAt val im1 p * ratAt val im2 (movePt (Img.pt (dx * len) (dy * len) (dz * len)) p)).sum / pts.length) := by
  have hper := hp.perm (covPts_pairs im1.dims (dx * len) (dy * len) (dz * len))
  have hlen := length_covPts im1.dims (dx * len) (dy * len) (dz * len)
  have hpos : (im1.dims.w - dx * len) * (im1.dims.h - dy * len) * (im1.dims.d - dz * len) ≠ 0 := by
    refine Nat.mul_ne_zero (Nat.mul_ne_zero ?_ ?_) ?_ <;> omega
  constructor
  · intro h
    have := hper.length_eq
    rw [h, List.length_nil, hlen] at this
    exact hpos this.symm
  · unfold covAt
    simp only
    rw [Nat.min_eq_left (by omega : dx * len ≤ im1.dims.w - 1), Nat.min_eq_left (by omega : dy * len ≤ im1.dims.h - 1),
      Nat.min_eq_left (by omega : dz * len ≤ im1.dims.d - 1), covSum_eq mul val im1 im2 hd _ _ _ (fun p a b h1 h2 => hmul p _ a b h1 h2),
      Option.map_some, if_pos hpos, sum_perm_map hper, hper.length_eq, hlen]

/-- The value is always defined; the displacement is cut at the border. -/
theorem covAt_some (mul : α → α → Option ℚ) (val : α → ℚ) (im1 im2 : Img α) (hd : im1.dims = im2.dims) (dx dy dz len : Nat)
    (hmul : ∀ p q a b, im1.at? p = some a → im2.at? q = some b → mul a b = some (val a * val b)) : ∃ v, covAt mul im1 im2 dx dy dz len = some v := by
  unfold covAt
  simp only
  rw [covSum_eq mul val im1 im2 hd _ _ _ (fun p a b h1 h2 => hmul p _ a b h1 h2)]
  exact ⟨_, rfl⟩

theorem covMapM_some {β γ : Type} (f : β → Option γ) : ∀ L : List β, (∀ i ∈ L, ∃ v, f i = some v) →
    ∃ r, L.mapM f = some r ∧ r.length = L.length ∧ ∀ i (h : i < L.length) v, f L[i] = some v → r[i]? = some v
  | [], _ => ⟨[], by simp⟩
  | a :: L, h => by
    obtain ⟨v, hv⟩ := h a (List.mem_cons_self ..)
    obtain ⟨r, h1, h2, h3⟩ := covMapM_some f L fun i hi => h i (List.mem_cons_of_mem _ hi)
    refine ⟨v :: r, ?_, by simp [h2], ?_⟩
    · rw [List.mapM_cons, hv, h1]; rfl
    · rintro (_ | i) hi w hw
      · rw [List.getElem_cons_zero, hv] at hw
        simpa using hw
      · rw [List.getElem_cons_succ] at hw
        rw [List.getElem?_cons_succ]
        exact h3 i (by simpa using hi) w hw

/-- The number of steps. -/
def covSteps (H maxSteps : Nat) : Nat := if maxSteps = 0 then H else min maxSteps H

theorem genericCovariance_eq (mul : α → α → Option ℚ) (val : α → ℚ) (im1 im2 : Img α) (hd : im1.dims = im2.dims) (hc : im1.dims.count ≠ 0)
    (dx dy dz maxSteps : Nat) (hdir : 0 < dx + dy + dz) (hs : covSteps (covMaxH im1.dims dx dy dz) maxSteps ≠ 0)
    (hmul : ∀ p q a b, im1.at? p = some a → im2.at? q = some b → mul a b = some (val a * val b)) :
    ∃ vec : List ℚ, vec.length = covSteps (covMaxH im1.dims dx dy dz) maxSteps + 1 ∧
      (∀ len ≤ covSteps (covMaxH im1.dims dx dy dz) maxSteps, ∃ v, covAt mul im1 im2 dx dy dz len = some v ∧ vec[len]? = some v) ∧
      genericCovariance mul im1 im2 dx dy dz maxSteps false = some (vec.map some) ∧
      ∀ v0, vec[0]? = some v0 → genericCovariance mul im1 im2 dx dy dz maxSteps true = some (vec.map fun v => if v0 = 0 then none else some (v / v0)) := by
  have hsteps : min (if maxSteps = 0 then covMaxH im1.dims dx dy dz else maxSteps) (covMaxH im1.dims dx dy dz) =
      covSteps (covMaxH im1.dims dx dy dz) maxSteps := by
    unfold covSteps; split <;> simp
  obtain ⟨r, h1, h2, h3⟩ := covMapM_some (covAt mul im1 im2 dx dy dz) (List.range (covSteps (covMaxH im1.dims dx dy dz) maxSteps + 1))
    (fun i _ => covAt_some mul val im1 im2 hd dx dy dz i hmul)
  rw [List.length_range] at h2
  refine ⟨r, h2, ?_, ?_, ?_⟩
  · intro len hl
    obtain ⟨v, hv⟩ := covAt_some mul val im1 im2 hd dx dy dz len hmul
    exact ⟨v, hv, h3 len (by rw [List.length_range]; omega) v (by rw [List.getElem_range]; exact hv)⟩
  all_goals
    unfold genericCovariance
    rw [if_neg (by rw [← hd]; tauto), if_neg (by simpa using hd), if_neg (by omega)]
    simp only
    rw [hsteps, if_neg hs, h1]
  · simp
  · intro v0 hv0
    cases r with
    | nil => simp at hv0
    | cons a r => simp only [List.getElem?_cons_zero, Option.some.injEq] at hv0; subst hv0; by_cases ha : a = 0 <;> simp [ha]

end
end Smil
