import Verif.GeoMeasRun
import Verif.HExtremaLemmas

/-!
# The geodesic measures on the points of the image
-/

namespace Smil
open Relation

/-- Neighbours in the grid: different points whose coordinates differ by at most one. -/
def Touch26 (p q : IntPoint) : Prop :=
  p ≠ q ∧ (-1 ≤ q.x - p.x ∧ q.x - p.x ≤ 1) ∧ (-1 ≤ q.y - p.y ∧ q.y - p.y ≤ 1) ∧ (-1 ≤ q.z - p.z ∧ q.z - p.z ≤ 1)

/-- The square of the distance of two points in a grid whose steps have the lengths `ax`, `ay`, `az`. -/
def gridSq (ax ay az : ℚ) (p q : IntPoint) : ℚ :=
  ((q.x - p.x : Int) * ax) ^ 2 + ((q.y - p.y : Int) * ay) ^ 2 + ((q.z - p.z : Int) * az) ^ 2

/-- A walk from neighbour to neighbour in a set, with its length. -/
inductive LenWalk (root : ℚ → ℚ) (ax ay az : ℚ) (S : IntPoint → Prop) (s : IntPoint) : IntPoint → ℚ → Prop
  | nil : S s → LenWalk root ax ay az S s s 0
  | snoc {p q : IntPoint} {ℓ : ℚ} : LenWalk root ax ay az S s p ℓ → Touch26 p q → S q →
      LenWalk root ax ay az S s q (ℓ + root (gridSq ax ay az p q))

/-- A walk in a set, with its number of steps. -/
inductive HopWalk (S : IntPoint → Prop) (s : IntPoint) : Nat → IntPoint → Prop
  | nil : S s → HopWalk S s 0 s
  | snoc {p q : IntPoint} {n : Nat} : HopWalk S s n p → Touch26 p q → S q → HopWalk S s (n + 1) q

/-- `h` is the greatest number of steps that are needed to reach the points of `B` from `s`. -/
def MaxHops (B : IntPoint → Prop) (s : IntPoint) (h : Nat) : Prop :=
  (∀ q, B q → ∃ n ≤ h, HopWalk B s n q) ∧ ∃ q, B q ∧ ∀ n, HopWalk B s n q → h ≤ n

theorem Touch26.symm {p q : IntPoint} (h : Touch26 p q) : Touch26 q p := by
  obtain ⟨h1, h2, h3, h4⟩ := h
  exact ⟨h1.symm, by omega, by omega, by omega⟩

theorem gridSq_symm (ax ay az : ℚ) (p q : IntPoint) : gridSq ax ay az p q = gridSq ax ay az q p := by
  unfold gridSq
  push_cast
  ring

theorem gridSq_pos {ax ay az : ℚ} (hx : 0 < ax) (hy : 0 < ay) (hz : 0 < az) {p q : IntPoint} (h : p ≠ q) : 0 < gridSq ax ay az p q := by
  have k1 : ∀ (a : Int) (s : ℚ), 0 ≤ ((a : ℚ) * s) ^ 2 := fun a s => sq_nonneg _
  have k2 : ∀ (a : Int) (s : ℚ), 0 < s → a ≠ 0 → 0 < ((a : ℚ) * s) ^ 2 := fun a s hs ha => by
    have : ((a : ℚ) * s) ≠ 0 := mul_ne_zero (by exact_mod_cast ha) hs.ne'
    exact lt_of_le_of_ne (sq_nonneg _) (pow_ne_zero 2 this).symm
  unfold gridSq
  by_cases e1 : q.x - p.x = 0
  · by_cases e2 : q.y - p.y = 0
    · by_cases e3 : q.z - p.z = 0
      · exact absurd (by
          obtain ⟨x, y, z⟩ := p
          obtain ⟨x', y', z'⟩ := q
          simp only at e1 e2 e3
          simp only [IntPoint.mk.injEq]
          omega) h
      · linarith [k1 (q.x - p.x) ax, k1 (q.y - p.y) ay, k2 (q.z - p.z) az hz e3]
    · linarith [k1 (q.x - p.x) ax, k2 (q.y - p.y) ay hy e2, k1 (q.z - p.z) az]
  · linarith [k2 (q.x - p.x) ax hx e1, k1 (q.y - p.y) ay, k1 (q.z - p.z) az]

theorem gm_y (W H c : Nat) : (c % (W * H) - c % W) / W = c % (W * H) / W := by
  rcases Nat.eq_zero_or_pos W with rfl | hW
  · simp
  have e : c % W = c % (W * H) % W := (Nat.mod_mul_right_mod c W H).symm
  rw [e]
  have h := Nat.div_add_mod (c % (W * H)) W
  have : c % (W * H) - c % (W * H) % W = W * (c % (W * H) / W) := by omega
  rw [this, Nat.mul_div_cancel_left _ hW]

theorem gm_z (W H c : Nat) (hW : 0 < W) (hH : 0 < H) : (c - c % W - (c % (W * H) - c % W) / W * W) / (W * H) = c / (W * H) := by
  rw [gm_y]
  have e : c % W = c % (W * H) % W := (Nat.mod_mul_right_mod c W H).symm
  have h := Nat.div_add_mod (c % (W * H)) W
  have h2 := Nat.div_add_mod c (W * H)
  have hc : c % (W * H) / W * W = W * (c % (W * H) / W) := Nat.mul_comm _ _
  have : c - c % W - c % (W * H) / W * W = W * H * (c / (W * H)) := by
    rw [hc]
    omega
  rw [this, Nat.mul_div_cancel_left _ (Nat.mul_pos hW hH)]

theorem count_whd (D : Dims) : D.w * D.h * D.d = D.count := by
  unfold Dims.count
  ring

theorem dims_pos {D : Dims} {i : Nat} (h : i < D.count) : 0 < D.w ∧ 0 < D.h ∧ 0 < D.d := by
  rw [← count_whd] at h
  have hn : D.w * D.h * D.d ≠ 0 := by omega
  exact ⟨Nat.pos_of_ne_zero fun e => hn (by simp [e]), Nat.pos_of_ne_zero fun e => hn (by simp [e]), Nat.pos_of_ne_zero fun e => hn (by simp [e])⟩

theorem mem_gmNbs {D : Dims} {sx sy sz : ℚ} {p : IntPoint} (hp : Img.In D p) {j : Nat} {w : ℚ} :
    (j, w) ∈ gmNbs D.w D.h D.d sx sy sz (offOf D p) ↔
      ∃ q, Img.In D q ∧ j = offOf D q ∧ Touch26 p q ∧ w = gridSq sy sz sx p q := by
  have hlt := offOf_lt hp
  obtain ⟨hw, hh, hd⟩ := dims_pos hlt
  have hc := coordPt_offOf hp
  have ex : ((offOf D p % D.w : Nat) : Int) = p.x := congrArg IntPoint.x hc
  have ey : (((offOf D p % (D.w * D.h)) / D.w : Nat) : Int) = p.y := congrArg IntPoint.y hc
  have ez : ((offOf D p / (D.w * D.h) : Nat) : Int) = p.z := congrArg IntPoint.z hc
  have htri : ∀ x : Int, x ∈ [-1, 0, 1] ↔ -1 ≤ x ∧ x ≤ 1 := fun x => by
    simp only [List.mem_cons, List.not_mem_nil, or_false]
    omega
  unfold gmNbs
  rw [gm_z _ _ _ hw hh, gm_y, ex, ey, ez]
  simp only [List.mem_flatMap, htri]
  constructor
  · rintro ⟨a, ha, h⟩
    split at h
    · simp at h
    rename_i hz
    rw [List.mem_flatMap] at h
    obtain ⟨b, hb, h⟩ := h
    rw [htri] at hb
    split at h
    · simp at h
    rename_i hx
    rw [List.mem_filterMap] at h
    obtain ⟨c, hc', h⟩ := h
    rw [htri] at hc'
    split at h
    · simp at h
    rename_i hy
    split at h
    · simp at h
    rename_i hne
    simp only [Option.some.injEq, Prod.mk.injEq] at h
    have hq : Img.In D ⟨p.x + b, p.y + c, p.z + a⟩ := by
      unfold Img.In
      simp only
      omega
    refine ⟨⟨p.x + b, p.y + c, p.z + a⟩, hq, ?_, ⟨fun e => hne ?_, ?_, ?_, ?_⟩, ?_⟩
    · have := offOf_int hq
      simp only at this
      rw [← h.1]
      omega
    · have h1 := congrArg IntPoint.x e
      have h2 := congrArg IntPoint.y e
      have h3 := congrArg IntPoint.z e
      simp only at h1 h2 h3
      omega
    · simp only; omega
    · simp only; omega
    · simp only; omega
    · rw [← h.2]
      unfold gridSq
      simp only [add_sub_cancel_left]
      ring
  · rintro ⟨q, hq, hj, ⟨hne, h1, h2, h3⟩, hw'⟩
    have hq' := hq
    unfold Img.In at hq'
    refine ⟨q.z - p.z, by omega, ?_⟩
    rw [if_neg (by omega), List.mem_flatMap]
    refine ⟨q.x - p.x, (htri _).mpr (by omega), ?_⟩
    rw [if_neg (by omega), List.mem_filterMap]
    refine ⟨q.y - p.y, (htri _).mpr (by omega), ?_⟩
    rw [if_neg (by omega), if_neg (fun e => hne ?_)]
    · simp only [Option.some.injEq, Prod.mk.injEq]
      refine ⟨?_, ?_⟩
      · have := offOf_int hq
        rw [show p.x + (q.x - p.x) = q.x by ring, show p.y + (q.y - p.y) = q.y by ring, show p.z + (q.z - p.z) = q.z by ring, ← this, hj]
        omega
      · rw [hw']
        unfold gridSq
        ring
    · obtain ⟨x, y, z⟩ := p
      obtain ⟨x', y', z'⟩ := q
      simp only at e
      simp only [IntPoint.mk.injEq]
      omega

theorem mem_gmNbs_off {D : Dims} {sx sy sz : ℚ} {i j : Nat} {w : ℚ} (hi : i < D.count) :
    (j, w) ∈ gmNbs D.w D.h D.d sx sy sz i ↔
      j < D.count ∧ Touch26 (coordPt D i) (coordPt D j) ∧ w = gridSq sy sz sx (coordPt D i) (coordPt D j) := by
  obtain ⟨a1, a2⟩ := coordPt_in hi
  conv_lhs => rw [← a2]
  rw [mem_gmNbs a1]
  constructor
  · rintro ⟨q, hq, rfl, h1, h2⟩
    rw [coordPt_offOf hq]
    exact ⟨offOf_lt hq, h1, h2⟩
  · rintro ⟨h1, h2, h3⟩
    obtain ⟨b1, b2⟩ := coordPt_in h1
    exact ⟨_, b1, b2.symm, h2, h3⟩

/-- The configuration of a run on an image of dimensions `D`. -/
def gmC (D : Dims) (lab : Nat → ℚ) (sx sy sz : ℚ) : GmCfg := ⟨D.w * D.h * D.d, gmNbs D.w D.h D.d sx sy sz, lab⟩

theorem gmOk (D : Dims) (lab : Nat → ℚ) (sx sy sz : ℚ) : GmOk (gmC D lab sx sy sz) := by
  have hn : (gmC D lab sx sy sz).n = D.count := count_whd D
  have hb' : (gmC D lab sx sy sz).nbs = gmNbs D.w D.h D.d sx sy sz := rfl
  refine ⟨fun i hi b hb => ?_, fun i hi b hb => ?_, fun i hi b hb => ?_⟩ <;> rw [hn] at hi <;> rw [hb'] at hb <;>
    obtain ⟨h1, h2, h3⟩ := (mem_gmNbs_off (D := D) hi).mp hb
  · rw [hn]; exact h1
  · exact (mem_gmNbs_off (D := D) h1).mpr ⟨hi, h2.symm, by rw [h3, gridSq_symm]⟩
  · intro e
    rw [e] at h2
    exact h2.1 rfl

/-- The mean of a coordinate over a list of points, times a scale, without its fraction. -/
def floorMean (pts : List IntPoint) (f : IntPoint → Int) (s : ℚ) : Int := ⌊((pts.map f).sum : ℚ) * s / pts.length⌋

/-- The square of the distance of a point to the barycentre of a list of points, whose coordinates lose their fraction. -/
def fromMean (sx sy sz : ℚ) (pts : List IntPoint) (q : IntPoint) : ℚ :=
  (q.x * sx - floorMean pts (·.x) sx) ^ 2 + (q.y * sy - floorMean pts (·.y) sy) ^ 2 + (q.z * sz - floorMean pts (·.z) sz) ^ 2

/-- What the measures know of a set `B`: its points `pts`; a first point `s`, farthest from the barycentre; a length `L`, so that every point has
a walk from `s` of length at most `L - 1`, and some point a walk of length `L - 1`; that point is `e`, nothing if `B` has one point only. -/
structure BlobVal (root : ℚ → ℚ) (sx sy sz : ℚ) (B : IntPoint → Prop) (pts : List IntPoint) (s : IntPoint) (e : Option IntPoint) (L R : ℚ) : Prop where
  nodup : pts.Nodup
  mem : ∀ q, q ∈ pts ↔ B q
  start : B s
  first : ∀ q, B q → fromMean sx sy sz pts q ≤ fromMean sx sy sz pts s
  reach : ∀ q, B q → ∃ ℓ, LenWalk root sy sz sx B s q ℓ ∧ 1 + ℓ ≤ L
  one : 1 ≤ L
  wit : ∃ q, LenWalk root sy sz sx B s q (L - 1)
  hop : ∃ h, MaxHops B s h ∧ L ≤ 1 + R * (h + 1)
  eNone : e = none → L = 1 ∧ ∀ q, B q → q = s
  eSome : ∀ e', e = some e' → B e' ∧ e' ≠ s ∧ LenWalk root sy sz sx B s e' (L - 1)

section
variable {root : ℚ → ℚ} {D : Dims} {lab : Nat → ℚ} {sx sy sz R : ℚ} {ini : Option Nat} {method : Int} {S : Nat → Prop} {P : IntPoint → Prop}
  {N : IntPoint → IntPoint → Prop}

theorem LenWalk.ends {ax ay az : ℚ} {S : IntPoint → Prop} {p q : IntPoint} {ℓ : ℚ} (h : LenWalk root ax ay az S p q ℓ) : S p ∧ S q := by
  induction h with
  | nil h => exact ⟨h, h⟩
  | snoc _ _ h2 ih => exact ⟨ih.1, h2⟩

theorem LenWalk.mono {ax ay az : ℚ} {S S' : IntPoint → Prop} (hS : ∀ p, S p → S' p) {p q : IntPoint} {ℓ : ℚ}
    (h : LenWalk root ax ay az S p q ℓ) : LenWalk root ax ay az S' p q ℓ := by
  induction h with
  | nil h => exact .nil (hS _ h)
  | snoc _ h1 h2 ih => exact .snoc ih h1 (hS _ h2)

/-- What ties the offsets to the points. -/
structure GmLink (D : Dims) (lab : Nat → ℚ) (S : Nat → Prop) (P : IntPoint → Prop) (N : IntPoint → IntPoint → Prop) : Prop where
  lt : ∀ i, S i → i < D.count
  inn : ∀ p, P p → Img.In D p
  iff : ∀ p, Img.In D p → (S (offOf D p) ↔ P p)
  nb : ∀ p q, P p → P q → (N p q ↔ Touch26 p q ∧ lab (offOf D q) = lab (offOf D p))

variable (hl : GmLink D lab S P N)

include hl in
theorem reach_iff {p q : IntPoint} (hp : P p) (hq : Img.In D q) :
    ReflTransGen ((gmC D lab sx sy sz).R S) (offOf D p) (offOf D q) ↔ SetPath N P p q := by
  have hpi := hl.inn p hp
  constructor
  · intro h
    generalize hj : offOf D q = j at h
    induction h generalizing q with
    | refl =>
      rw [offOf_inj hq hpi hj]
      exact .refl hp
    | @tail b c h1 h2 ih =>
      subst hj
      obtain ⟨b1, b2⟩ := coordPt_in (hl.lt _ h2.1)
      have hP1 : P (coordPt D b) := (hl.iff _ b1).mp (by rw [b2]; exact h2.1)
      have hP2 : P q := (hl.iff _ hq).mp h2.2.1
      obtain ⟨w, hw⟩ := h2.2.2.2
      have hw' : (offOf D q, w) ∈ gmNbs D.w D.h D.d sx sy sz b := hw
      have ht := ((mem_gmNbs_off (hl.lt _ h2.1)).mp hw').2.1
      rw [coordPt_offOf hq] at ht
      exact .step (ih b1 b2) ((hl.nb _ _ hP1 hP2).mpr ⟨ht, by rw [b2]; exact h2.2.2.1⟩) hP2
  · intro h
    induction h with
    | refl => exact .refl
    | @step a b h1 h2 h3 ih =>
      have ha := hl.inn _ h1.ends.2
      refine .tail (ih ha) ⟨(hl.iff _ ha).mpr h1.ends.2, (hl.iff _ hq).mpr h3, ((hl.nb _ _ h1.ends.2 h3).mp h2).2, ?_⟩
      exact ⟨_, mem_gmNbs ha |>.mpr ⟨b, hq, rfl, ((hl.nb _ _ h1.ends.2 h3).mp h2).1, rfl⟩⟩

theorem gmBary_eq {sv : List Nat} {f : Nat → Nat} {g : IntPoint → Int} (hfg : ∀ c ∈ sv, (f c : Int) = g (coordPt D c)) {s : ℚ} (hs : 0 < s) :
    gmBary sv f s = floorMean (sv.map (coordPt D)) g s := by
  unfold gmBary floorMean
  have e : (((sv.map f).sum : Nat) : Int) = ((sv.map (coordPt D)).map g).sum := by
    clear hs
    induction sv with
    | nil => rfl
    | cons c l ih =>
      simp only [List.map_cons, List.sum_cons]
      push_cast
      rw [hfg c (by simp), ih fun x hx => hfg x (by simp [hx])]
  have e' : (((sv.map f).sum : Nat) : ℚ) = ((((sv.map (coordPt D)).map g).sum : Int) : ℚ) := by exact_mod_cast e
  have hq : (0 : ℚ) ≤ (((sv.map f).sum : Nat) : ℚ) * s / sv.length :=
    div_nonneg (mul_nonneg (Nat.cast_nonneg _) hs.le) (Nat.cast_nonneg _)
  simp only [if_pos hq]
  rw [e', List.length_map]

theorem gmSq_eq {sv : List Nat} (hsv : ∀ c ∈ sv, c < D.count) (hx : 0 < sx) (hy : 0 < sy) (hz : 0 < sz) {c : Nat} (hc : c ∈ sv) :
    gmSq D.w D.h sx sy sz sv c = fromMean sx sy sz (sv.map (coordPt D)) (coordPt D c) := by
  obtain ⟨hw, hh, -⟩ := dims_pos (hsv c hc)
  have ex : ∀ c, ((c % D.w : Nat) : Int) = (coordPt D c).x := fun _ => rfl
  have ey : ∀ c, (((c % (D.w * D.h) - c % D.w) / D.w : Nat) : Int) = (coordPt D c).y := fun c => by rw [gm_y]; rfl
  have ez : ∀ c, (((c - c % D.w - (c % (D.w * D.h) - c % D.w) / D.w * D.w) / (D.w * D.h) : Nat) : Int) = (coordPt D c).z := fun c => by
    rw [gm_z _ _ _ hw hh]; rfl
  unfold gmSq fromMean
  simp only
  rw [gmBary_eq (D := D) (g := (·.x)) (fun c _ => ex c) hx, gmBary_eq (D := D) (g := (·.y)) (fun c _ => ey c) hy,
    gmBary_eq (D := D) (g := (·.z)) (fun c _ => ez c) hz]
  have fx : ((c % D.w : Nat) : ℚ) = ((coordPt D c).x : ℚ) := by rw [← ex c, Int.cast_natCast]
  have fy : (((c % (D.w * D.h) - c % D.w) / D.w : Nat) : ℚ) = ((coordPt D c).y : ℚ) := by rw [← ey c, Int.cast_natCast]
  have fz : (((c - c % D.w - (c % (D.w * D.h) - c % D.w) / D.w * D.w) / (D.w * D.h) : Nat) : ℚ) = ((coordPt D c).z : ℚ) := by rw [← ez c, Int.cast_natCast]
  rw [fx, fy, fz]
  ring

theorem OWalk.mem {C : GmCfg} {T : Nat → Prop} {s j : Nat} {ℓ : ℚ} (h : OWalk root C T s j ℓ) : T j := by
  cases h with
  | refl h => exact h
  | step _ h _ => exact h

include hl in
theorem lenWalk_of {p : IntPoint} (hp : P p) {s j : Nat} {ℓ : ℚ}
    (h : OWalk root (gmC D lab sx sy sz) (ReflTransGen ((gmC D lab sx sy sz).R S) (offOf D p)) s j ℓ) :
    LenWalk root sy sz sx (SetPath N P p) (coordPt D s) (coordPt D j) ℓ := by
  have hin : ∀ j, ReflTransGen ((gmC D lab sx sy sz).R S) (offOf D p) j → j < D.count ∧ SetPath N P p (coordPt D j) := fun j hj => by
    have hjl := hl.lt j (reach_mem ((hl.iff p (hl.inn p hp)).mpr hp) hj)
    obtain ⟨a1, a2⟩ := coordPt_in hjl
    exact ⟨hjl, (reach_iff hl hp a1).mp (by rw [a2]; exact hj)⟩
  induction h with
  | refl h => exact .nil (hin _ h).2
  | @step j k ℓ w h1 h2 h3 ih =>
    have h3' : (j, w) ∈ gmNbs D.w D.h D.d sx sy sz k := h3
    obtain ⟨h4, h5, h6⟩ := (mem_gmNbs_off (hin _ h2).1).mp h3'
    rw [h6, gridSq_symm]
    exact .snoc ih h5.symm (hin _ h2).2

include hl in
theorem hopWalk_of {p : IntPoint} (hp : P p) {s j n : Nat}
    (h : NWalk (gmC D lab sx sy sz) (ReflTransGen ((gmC D lab sx sy sz).R S) (offOf D p)) s n j) :
    HopWalk (SetPath N P p) (coordPt D s) n (coordPt D j) := by
  have hin : ∀ j, ReflTransGen ((gmC D lab sx sy sz).R S) (offOf D p) j → j < D.count ∧ SetPath N P p (coordPt D j) := fun j hj => by
    have hjl := hl.lt j (reach_mem ((hl.iff p (hl.inn p hp)).mpr hp) hj)
    obtain ⟨a1, a2⟩ := coordPt_in hjl
    exact ⟨hjl, (reach_iff hl hp a1).mp (by rw [a2]; exact hj)⟩
  induction h with
  | refl h => exact .nil (hin _ h).2
  | @step n j k w h1 h2 h3 ih =>
    have h3' : (j, w) ∈ gmNbs D.w D.h D.d sx sy sz k := h3
    obtain ⟨h4, h5, h6⟩ := (mem_gmNbs_off (hin _ h2).1).mp h3'
    exact .snoc ih h5.symm (hin _ h2).2

include hl in
theorem nWalk_of {p s : IntPoint} (hp : P p) {q : IntPoint} {n : Nat} (h : HopWalk (SetPath N P p) s n q) :
    NWalk (gmC D lab sx sy sz) (ReflTransGen ((gmC D lab sx sy sz).R S) (offOf D p)) (offOf D s) n (offOf D q) := by
  have hin : ∀ {q}, SetPath N P p q → Img.In D q ∧ ReflTransGen ((gmC D lab sx sy sz).R S) (offOf D p) (offOf D q) := fun {q} hq =>
    ⟨hl.inn q hq.ends.2, (reach_iff hl hp (hl.inn q hq.ends.2)).mpr hq⟩
  induction h with
  | nil h => exact .refl (hin h).2
  | @snoc a b n h1 h2 h3 ih =>
    have ha : Img.In D a := by
      cases h1 with
      | nil h => exact (hin h).1
      | snoc _ _ h => exact (hin h).1
    exact .step ih (hin h3).2 ((mem_gmNbs (hin h3).1).mpr ⟨a, ha, rfl, h2.symm, rfl⟩)

include hl in
/-- A component on the points. -/
theorem blob_of_block (hx : 0 < sx) (hy : 0 < sy) (hz : 0 < sz) {p : IntPoint} (hp : P p) {dm : Nat → ℚ} {s : Nat} {st : GmSt} {sv : List Nat} {o : Nat → ℚ}
    (h : GmBlock root (gmC D lab sx sy sz) S D.w D.h D.d sx sy sz R ini method (offOf D p) dm s st sv o) :
    BlobVal root sx sy sz (SetPath N P p) (sv.map (coordPt D)) (coordPt D s) (st.tort.map (coordPt D)) st.mx R ∧
      st.mx ≤ 1 + R * D.count ∧ (∀ c ∈ sv, c < D.count) ∧ (∀ e, st.tort = some e → e < D.count) ∧ s < D.count := by
  have hlt : ∀ c ∈ sv, c < D.count := fun c hc => hl.lt c (reach_mem ((hl.iff p (hl.inn p hp)).mpr hp) ((h.mem c).mp hc))
  have hmem : ∀ q, q ∈ sv.map (coordPt D) ↔ SetPath N P p q := by
    intro q
    rw [List.mem_map]
    constructor
    · rintro ⟨c, hc, rfl⟩
      obtain ⟨a1, a2⟩ := coordPt_in (hlt c hc)
      exact (reach_iff hl hp a1).mp (by rw [a2]; exact (h.mem c).mp hc)
    · intro hq
      have hqi := hl.inn q hq.ends.2
      exact ⟨offOf D q, (h.mem _).mpr ((reach_iff hl hp hqi).mpr hq), coordPt_offOf hqi⟩
  obtain ⟨dm0, hd⟩ := h.done
  have hs : SetPath N P p (coordPt D s) := (hmem _).mp (List.mem_map_of_mem h.start)
  have hnc : (gmC D lab sx sy sz).n = D.count := count_whd D
  have hb := hd.bound
  rw [hnc] at hb
  have hTe : ∀ e, st.tort = some e → e ∈ sv := fun e he => by
    obtain ⟨_, h2⟩ := hd.far.fSome e he
    rw [h.mem]
    exact h2.mem
  have hrc : ∀ q, SetPath N P p q → ∃ ℓ, LenWalk root sy sz sx (SetPath N P p) (coordPt D s) q ℓ ∧ 1 + ℓ ≤ st.mx ∧ (q ≠ coordPt D s → 0 < ℓ) := by
    intro q hq
    have hqi := hl.inn q hq.ends.2
    obtain ⟨ℓ, w1, -, w3, w4⟩ := hd.dist (offOf D q) ((reach_iff hl hp hqi).mpr hq)
    have hw := lenWalk_of hl hp w1
    rw [coordPt_offOf hqi] at hw
    exact ⟨ℓ, hw, w3, fun hne => w4 fun e => hne (by rw [← e, coordPt_offOf hqi])⟩
  refine ⟨⟨?_, hmem, hs, fun q hq => ?_, fun q hq => ?_, hd.far.one, ?_, ?_, fun he => ?_, fun e' he => ?_⟩, hb, hlt, fun e he => hlt e (hTe e he),
    hlt s h.start⟩
  · refine List.Nodup.map_on (fun a ha b hb' e => ?_) h.nodup
    rw [← (coordPt_in (hlt a ha)).2, ← (coordPt_in (hlt b hb')).2, e]
  · obtain ⟨c, hc, rfl⟩ := List.mem_map.mp ((hmem q).mpr hq)
    rw [← gmSq_eq hlt hx hy hz hc, ← gmSq_eq hlt hx hy hz h.start]
    have := (gmStart_spec D.w D.h sx sy sz (List.ne_nil_of_mem hc)).2 c hc
    rw [← h.first] at this
    exact this
  · obtain ⟨ℓ, h1, h2, -⟩ := hrc q hq
    exact ⟨ℓ, h1, h2⟩
  · obtain ⟨j, hj⟩ := hd.far.wit
    exact ⟨_, lenWalk_of hl hp hj⟩
  · obtain ⟨m, k1, ⟨j, k2, k3⟩, k4⟩ := hd.hop
    have hjs : j ∈ sv := (h.mem j).mpr k2
    have hcs := (coordPt_in (hlt s h.start)).2
    refine ⟨m, ⟨fun q hq => ?_, coordPt D j, (hmem _).mp (List.mem_map_of_mem hjs), fun n hn => ?_⟩, k4⟩
    · have hqi := hl.inn q hq.ends.2
      obtain ⟨n, h1, h2⟩ := k1 (offOf D q) ((reach_iff hl hp hqi).mpr hq)
      have := hopWalk_of hl hp h2
      rw [coordPt_offOf hqi] at this
      exact ⟨n, h1, this⟩
    · have := nWalk_of (sx := sx) (sy := sy) (sz := sz) hl hp hn
      rw [hcs, (coordPt_in (hlt j hjs)).2] at this
      exact k3 n this
  · have h1 := hd.far.fNone (Option.map_eq_none_iff.mp he)
    refine ⟨h1, fun q hq => ?_⟩
    by_contra hne
    obtain ⟨ℓ, -, h2, h3⟩ := hrc q hq
    have := h3 hne
    linarith
  · obtain ⟨c, hc, rfl⟩ := Option.map_eq_some_iff.mp he
    obtain ⟨h1, h2⟩ := hd.far.fSome c hc
    have hcs := hTe c hc
    refine ⟨(hmem _).mp (List.mem_map_of_mem hcs), fun e => h1 ?_, lenWalk_of hl hp h2⟩
    rw [← (coordPt_in (hlt c hcs)).2, ← (coordPt_in (hlt s h.start)).2, e]

/-- The value written to a point `q` of a set, method by method. -/
def zoneWrite (root : ℚ → ℚ) (d : Nat) (sx sy sz : ℚ) (e0 : IntPoint) (method : Int) (pts : List IntPoint) (s : IntPoint) (e : Option IntPoint) (L : ℚ)
    (q : IntPoint) : ℚ :=
  if method = 0 then L
  else if method = 1 then
    if d = 1 then L * L / (pts.length * sx * sy) * (785398 / 1000000)
    else L * L * L / (pts.length * sx * sy * sz) * (523599 / 1000000)
  else if method = 2 then
    if root (gridSq sx sy sz s (e.getD e0)) ≠ 0 then L / root (gridSq sx sy sz s (e.getD e0)) else L / (1 / 100)
  else if q = e.getD e0 then 2 else if q = s then 1 else 0

theorem gmWrite_pts (hx : 0 < sx) (hy : 0 < sy) (hz : 0 < sz) (hm0 : 0 ≤ method) (hm3 : method ≤ 3) {sv : List Nat} {s : Nat} {st : GmSt} {o : Nat → ℚ}
    (hlt : ∀ c ∈ sv, c < D.count) (hs : s ∈ sv) (he : ∀ e, st.tort = some e → e < D.count) (hi : ∀ e, ini = some e → e < D.count)
    (hw : gmWrite root D.w D.h D.d sx sy sz ini method sv s st = some o) {c : Nat} (hc : c ∈ sv) :
    o c = zoneWrite root D.d sx sy sz (coordPt D (ini.getD 0)) method (sv.map (coordPt D)) (coordPt D s) (st.tort.map (coordPt D)) st.mx (coordPt D c) := by
  obtain ⟨hw', hh, -⟩ := dims_pos (hlt c hc)
  unfold gmWrite at hw
  unfold zoneWrite
  rw [List.length_map]
  by_cases m0 : method = 0
  · simp only [m0, if_true] at hw ⊢
    cases hw
    simp only [if_pos hc]
  rw [if_neg m0] at hw ⊢
  by_cases m1 : method = 1
  · rw [if_pos m1] at hw ⊢
    by_cases hd : D.d = 1
    · rw [if_pos hd] at hw ⊢
      split at hw
      · cases hw
      · cases hw
        simp only [if_pos hc]
    · rw [if_neg hd] at hw ⊢
      split at hw
      · cases hw
      · cases hw
        simp only [if_pos hc]
  rw [if_neg m1] at hw ⊢
  have hget : ∀ e, gmEnd ini st.tort = some e → e < D.count ∧ (st.tort.map (coordPt D)).getD (coordPt D (ini.getD 0)) = coordPt D e := by
    intro e h
    cases ht : st.tort with
    | some e' =>
      rw [ht] at h
      cases h
      exact ⟨he _ ht, rfl⟩
    | none =>
      rw [ht] at h
      have h' : ini = some e := h
      rw [h']
      exact ⟨hi _ h', rfl⟩
  by_cases m2 : method = 2
  · rw [if_pos m2] at hw ⊢
    obtain ⟨e, h1, h2⟩ := Option.map_eq_some_iff.mp hw
    obtain ⟨-, h3⟩ := hget e h1
    rw [h3]
    rw [← h2]
    have fx : ∀ c, ((c % D.w : Nat) : ℚ) = ((coordPt D c).x : ℚ) := fun c => by
      have : ((c % D.w : Nat) : Int) = (coordPt D c).x := rfl
      rw [← this, Int.cast_natCast]
    have fy : ∀ c, (((c % (D.w * D.h) - c % D.w) / D.w : Nat) : ℚ) = ((coordPt D c).y : ℚ) := fun c => by
      have : (((c % (D.w * D.h) - c % D.w) / D.w : Nat) : Int) = (coordPt D c).y := by rw [gm_y]; rfl
      rw [← this, Int.cast_natCast]
    have fz : ∀ c, (((c - c % D.w - (c % (D.w * D.h) - c % D.w) / D.w * D.w) / (D.w * D.h) : Nat) : ℚ) = ((coordPt D c).z : ℚ) := fun c => by
      have : (((c - c % D.w - (c % (D.w * D.h) - c % D.w) / D.w * D.w) / (D.w * D.h) : Nat) : Int) = (coordPt D c).z := by
        rw [gm_z _ _ _ hw' hh]; rfl
      rw [← this, Int.cast_natCast]
    simp only [if_pos hc, fx, fy, fz]
    have hg : (((coordPt D e).x : ℚ) - (coordPt D s).x) * sx * ((((coordPt D e).x : ℚ) - (coordPt D s).x) * sx) +
        (((coordPt D e).y : ℚ) - (coordPt D s).y) * sy * ((((coordPt D e).y : ℚ) - (coordPt D s).y) * sy) +
        (((coordPt D e).z : ℚ) - (coordPt D s).z) * sz * ((((coordPt D e).z : ℚ) - (coordPt D s).z) * sz) =
        gridSq sx sy sz (coordPt D s) (coordPt D e) := by
      unfold gridSq
      push_cast
      ring
    rw [hg]
  rw [if_neg m2] at hw ⊢
  have m3 : method = 3 := by omega
  rw [if_pos m3] at hw
  obtain ⟨e, h1, h2⟩ := Option.map_eq_some_iff.mp hw
  obtain ⟨h4, h3⟩ := hget e h1
  rw [h3, ← h2]
  have hinj : ∀ a b, a < D.count → b < D.count → (coordPt D a = coordPt D b ↔ a = b) := fun a b ha hb =>
    ⟨fun h => by rw [← (coordPt_in ha).2, ← (coordPt_in hb).2, h], fun h => by rw [h]⟩
  have q1 := hinj _ _ (hlt c hc) h4
  have q2 := hinj _ _ (hlt c hc) (hlt s hs)
  by_cases k1 : c = e
  · subst k1; simp
  · rw [Function.update_of_ne k1, if_neg (fun h => k1 (q1.mp h))]
    by_cases k2 : c = s
    · subst k2; simp
    · rw [Function.update_of_ne k2, if_neg (fun h => k2 (q2.mp h))]
      exact if_pos hc

/-- The run, on the points. -/
theorem gmRun_pts (hx : 0 < sx) (hy : 0 < sy) (hz : 0 < sz) (hr : ∀ q, 0 ≤ q → 0 ≤ root q) (hr' : ∀ q, 0 < q → 0 < root q)
    (hR : ∀ p q, Touch26 p q → root (gridSq sy sz sx p q) ≤ R) (hR0 : 0 ≤ R) (hm0 : 0 ≤ method) (hm3 : method ≤ 3)
    (hi : ∀ e, ini = some e → e < D.count) {S : Nat → Bool} (hl : GmLink D lab (fun i => i < D.count ∧ S i = true) P N)
    (hsing : (method = 3 ∨ (method = 2 ∧ ini = none)) → ∀ p, P p → ∃ q, q ≠ p ∧ SetPath N P p q) :
    ∃ o, gmRun root D.w D.h D.d lab sx sy sz ini method S = some o ∧ (∀ p, Img.In D p → ¬ P p → o (offOf D p) = 0) ∧
      ∀ p, P p → ∃ pts s e L, BlobVal root sx sy sz (SetPath N P p) pts s e L R ∧ L ≤ 1 + R * D.count ∧
        ∀ q, SetPath N P p q → o (offOf D q) = zoneWrite root D.d sx sy sz (coordPt D (ini.getD 0)) method pts s e L q := by
  have hnc : (gmC D lab sx sy sz).n = D.count := count_whd D
  have hgpos : ∀ p q, Touch26 p q → 0 < gridSq sy sz sx p q := fun p q h => gridSq_pos hy hz hx h.1
  rw [← count_whd D] at hl
  obtain ⟨o, e1, hrun⟩ := gmRun_spec (root := root) (lab := lab) (R := R) (ini := ini) (method := method) (S := S) (gmOk D lab sx sy sz)
    hx hy hz hr
    (fun i hi b hb => by
      rw [count_whd] at hi
      obtain ⟨-, h2, h3⟩ := (mem_gmNbs_off hi).mp hb
      rw [h3]
      exact ⟨hr' _ (hgpos _ _ h2), hR _ _ h2⟩) hR0
    (fun hc j hj => by
      obtain ⟨a1, a2⟩ := coordPt_in (hl.lt j hj)
      have hP : P (coordPt D j) := (hl.iff _ a1).mp (by rw [a2]; exact hj)
      obtain ⟨q, h1, h2⟩ := hsing hc _ hP
      have hqi := hl.inn q h2.ends.2
      refine ⟨offOf D q, fun e => h1 (by rw [← e, coordPt_offOf hqi]), ?_⟩
      have := (reach_iff (sx := sx) (sy := sy) (sz := sz) hl hP hqi).mpr h2
      rw [a2] at this
      exact this)
  refine ⟨o, e1, fun p hp hn => hrun.bg _ fun h => hn ((hl.iff p hp).mp h), fun p hp => ?_⟩
  have hpi := hl.inn p hp
  obtain ⟨s, st, sv, o', hb⟩ := hrun.done (offOf D p) ((hl.iff p hpi).mpr hp) _ (Nat.zero_le _) .refl
  obtain ⟨k1, k2, k3, k4, -⟩ := blob_of_block hl hx hy hz hp hb
  refine ⟨_, _, _, _, k1, k2, fun q hq => ?_⟩
  have hqi := hl.inn q hq.ends.2
  have hqv : offOf D q ∈ sv := (hb.mem _).mpr ((reach_iff hl hp hqi).mpr hq)
  have := gmWrite_pts hx hy hz hm0 hm3 k3 hb.start k4 hi hb.write hqv
  rw [coordPt_offOf hqi] at this
  rw [hb.val _ hqv, this]

end
end Smil
