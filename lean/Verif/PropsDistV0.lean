import Verif.DistV0
import Verif.PropsDistGeneric
import Verif.PropsMorphoAlgebra
import Verif.PropsArith
import Verif.PropsBuild
import Verif.PropsZhang
import Mathlib.Data.Nat.Count

/-!
# The distance by successive erosions (C106)
-/

namespace Smil
variable {t : PT}

/-- The lengths of the walks from `p` to a zero pixel of the image, each step from a pixel to one of its neighbours through the element. -/
def reachLens (se : StrElt) (im : Img (Px t)) (p : IntPoint) : Set Nat :=
  {n | ∃ q, IsZero im q ∧ NbWalk se im.dims n p q}

theorem NbWalk.in_left {se : StrElt} {D : Dims} {n : Nat} {q p : IntPoint} (h : NbWalk se D n q p) : Img.In D q := by
  induction h with
  | nil p h => exact h
  | snoc _ _ _ ih => exact ih

theorem NbWalk.append {se : StrElt} {D : Dims} {m n : Nat} {p c q : IntPoint} (h1 : NbWalk se D m p c) (h2 : NbWalk se D n c q) :
    NbWalk se D (m + n) p q := by
  induction h2 with
  | nil => exact h1
  | snoc h hin hs ih => exact .snoc (ih h1) hin hs

theorem NbWalk.splitAt {se : StrElt} {D : Dims} {m n : Nat} {p q : IntPoint} (h : NbWalk se D (m + n) p q) :
    ∃ c, NbWalk se D m p c ∧ NbWalk se D n c q := by
  induction n generalizing q with
  | zero => exact ⟨q, h, .nil q h.in_right⟩
  | succ n ih =>
    cases h with
    | snoc h hin hs =>
      obtain ⟨c, h1, h2⟩ := ih h
      exact ⟨c, h1, .snoc h2 hin hs⟩

theorem NbWalk.stay {se : StrElt} {D : Dims} (h0 : ⟨0, 0, 0⟩ ∈ se.points) {p : IntPoint} (hp : Img.In D p) (n : Nat) : NbWalk se D n p p := by
  induction n with
  | zero => exact .nil p hp
  | succ n ih => exact .snoc ih hp (seRel_refl se h0 p)

theorem reachLens_mono {se : StrElt} {im : Img (Px t)} {p : IntPoint} (h0 : ⟨0, 0, 0⟩ ∈ se.points) {k k' : Nat} (hk : k ∈ reachLens se im p)
    (hkk : k ≤ k') : k' ∈ reachLens se im p := by
  obtain ⟨q, hq, hw⟩ := hk
  refine ⟨q, hq, ?_⟩
  have := (NbWalk.stay h0 hw.in_left (k' - k)).append hw
  rwa [Nat.sub_add_cancel hkk] at this

/-- Images of zeros and ones. -/
def BinIm (a : Img (Px t)) : Prop := ∀ p v, a.at? p = some v → v.val = 0 ∨ v.val = 1

theorem ero_bin {se : StrElt} (h0 : ⟨0, 0, 0⟩ ∈ se.points) (h1 : 1 ≤ t.hi) {a b : Img (Px t)} (h : IsEroBy (seRel se) a b) (ha : BinIm a) :
    BinIm b ∧ ∀ p, Img.In a.dims p → (IsZero b p ↔ ∃ q, seRel se p q ∧ IsZero a q) := by
  have hlo := t.lo_nonpos
  have key : ∀ p v, b.at? p = some v → IsGLB { u | ∃ q, seRel se p q ∧ a.at? q = some u } v ∧ (v.val = 0 ∨ v.val = 1) ∧
      (v.val = 0 ↔ ∃ q, seRel se p q ∧ IsZero a q) := by
    intro p v hv
    have hp : Img.In a.dims p := by rw [← h.1]; exact Img.at?_eq_some_in _ _ _ hv
    obtain ⟨v', hv', hg⟩ := h.2 p hp
    rw [hv] at hv'
    obtain rfl := Option.some.inj hv'
    obtain ⟨u, hu⟩ := Option.isSome_iff_exists.1 ((Img.at?_isSome a p).2 hp)
    have hvu : v ≤ u := hg.1 ⟨p, seRel_refl se h0 p, hu⟩
    rw [Px.le_iff] at hvu
    have h0v : (Px.zero : Px t) ≤ v := hg.2 (by
      rintro w ⟨q, -, hw⟩
      rw [Px.le_iff]
      show 0 ≤ w.val
      rcases ha q w hw with e | e <;> omega)
    rw [Px.le_iff] at h0v
    have h0v' : 0 ≤ v.val := h0v
    have hu01 := ha p u hu
    refine ⟨hg, by omega, ?_⟩
    constructor
    · intro hv0
      by_contra hne
      push Not at hne
      have : (⟨1, by omega, h1⟩ : Px t) ≤ v := hg.2 (by
        rintro w ⟨q, hq, hw⟩
        rw [Px.le_iff]
        show 1 ≤ w.val
        rcases ha q w hw with e | e
        · exact absurd ⟨w, hw, e⟩ (hne q hq)
        · omega)
      rw [Px.le_iff] at this
      have : 1 ≤ v.val := this
      omega
    · rintro ⟨q, hq, w, hw, hw0⟩
      have : v ≤ w := hg.1 ⟨q, hq, hw⟩
      rw [Px.le_iff] at this
      omega
  refine ⟨fun p v hv => (key p v hv).2.1, fun p hp => ?_⟩
  obtain ⟨v, hv, -⟩ := h.2 p hp
  rw [← (key p v hv).2.2]
  constructor
  · rintro ⟨w, hw, e⟩
    rw [hv] at hw
    obtain rfl := Option.some.inj hw
    exact e
  · exact fun e => ⟨v, hv, e⟩

theorem iter_bin {se : StrElt} (h0 : ⟨0, 0, 0⟩ ∈ se.points) (h1 : 1 ≤ t.hi) (n : Nat) {a b : Img (Px t)} (h : IterRel (IsEroBy (seRel se)) n a b)
    (ha : BinIm a) : b.dims = a.dims ∧ BinIm b ∧ ∀ p, Img.In a.dims p → (IsZero b p ↔ ∃ q, IsZero a q ∧ NbWalk se a.dims n p q) := by
  induction n generalizing a with
  | zero =>
    refine ⟨h.1.symm, fun p v hv => ha p v (by rw [h.2]; exact hv), fun p hp => ?_⟩
    unfold IsZero
    rw [← h.2]
    constructor
    · exact fun hz => ⟨p, hz, .nil p hp⟩
    · rintro ⟨q, hz, hw⟩
      cases hw
      exact hz
  | succ n ih =>
    obtain ⟨m, hm, hr⟩ := h
    obtain ⟨hb, hz⟩ := ero_bin h0 h1 hm ha
    obtain ⟨d, b2, z2⟩ := ih hr hb
    refine ⟨d.trans hm.1, b2, fun p hp => ?_⟩
    rw [z2 p (by rw [hm.1]; exact hp), hm.1]
    constructor
    · rintro ⟨c, hc, hw⟩
      obtain ⟨q, hcq, hq⟩ := (hz c hw.in_right).1 hc
      obtain ⟨v, hv, -⟩ := id hq
      exact ⟨q, hq, .snoc hw (Img.at?_eq_some_in _ _ _ hv) hcq⟩
    · rintro ⟨q, hq, hw⟩
      cases hw with
      | snoc hw hin hs => exact ⟨_, (hz _ hw.in_right).2 ⟨q, hs, hq⟩, hw⟩

theorem sum_zero_nonneg (l : List Int) (h : ∀ x ∈ l, 0 ≤ x) : 0 ≤ l.sum ∧ (l.sum = 0 ↔ ∀ x ∈ l, x = 0) := by
  induction l with
  | nil => simp
  | cons x l ih =>
    obtain ⟨i1, i2⟩ := ih fun y hy => h y (List.mem_cons_of_mem _ hy)
    have hx := h x (by simp)
    rw [List.sum_cons]
    refine ⟨by omega, ?_⟩
    constructor
    · intro e
      have e1 : x = 0 := by omega
      have e2 : l.sum = 0 := by omega
      intro y hy
      rcases List.mem_cons.1 hy with rfl | hy
      · exact e1
      · exact i2.1 e2 y hy
    · intro e
      have := i2.2 fun y hy => e y (List.mem_cons_of_mem _ hy)
      have := e x (by simp)
      omega

theorem vol_zero_iff {a : Img (Px t)} (ha : BinIm a) : v0Vol a = 0 ↔ ∀ p, Img.In a.dims p → IsZero a p := by
  unfold v0Vol
  rw [(sum_zero_nonneg _ _).2]
  · constructor
    · intro h p hp
      obtain ⟨v, hv⟩ := Option.isSome_iff_exists.1 ((Img.at?_isSome a p).2 hp)
      obtain ⟨i, hi, hb, -⟩ := Img.at?_buf a p v hv
      refine ⟨v, hv, ?_⟩
      rw [← hb]
      exact h _ (List.mem_map.2 ⟨i, List.mem_range.2 hi, rfl⟩)
    · intro h x hx
      obtain ⟨i, hi, rfl⟩ := List.mem_map.1 hx
      obtain ⟨p, hp, -⟩ := Img.buf_at? a i (List.mem_range.1 hi)
      obtain ⟨v, hv, e⟩ := h p (Img.at?_eq_some_in _ _ _ hp)
      rw [hp] at hv
      rw [Option.some.inj hv, e]
  · intro x hx
    obtain ⟨i, hi, rfl⟩ := List.mem_map.1 hx
    obtain ⟨p, hp, -⟩ := Img.buf_at? a i (List.mem_range.1 hi)
    rcases ha p _ hp with e | e <;> omega

theorem v0Add_spec {a b : Img (Px t)} (hd : a.dims = b.dims) (ha : ∀ p v, a.at? p = some v → 0 ≤ v.val) (hb : ∀ p v, b.at? p = some v → 0 ≤ v.val) :
    ∃ r, v0Add a b = some r ∧ r.dims = b.dims ∧
      ∀ p u v, a.at? p = some u → b.at? p = some v → ∃ w, r.at? p = some w ∧ w.val = min t.hi (u.val + v.val) := by
  have hk : ∀ i < b.dims.count, ∃ w, kAdd (a.buf i) (b.buf i) = some w ∧ w.val = min t.hi ((a.buf i).val + (b.buf i).val) := by
    intro i hi
    obtain ⟨p, hp, -⟩ := Img.buf_at? b i hi
    obtain ⟨p', hp', -⟩ := Img.buf_at? a i (by rw [hd]; exact hi)
    have e1 := hb p _ hp
    have e2 := ha p' _ hp'
    obtain ⟨w, hw, hv⟩ := C06_add_partial (a.buf i) (b.buf i) e1
    refine ⟨w, hw, ?_⟩
    rw [hv]
    have := t.lo_nonpos
    unfold clampSpec
    rw [if_neg (by omega)]
    split_ifs <;> omega
  have hall : ((List.range b.dims.count).all fun i => (kAdd (a.buf i) (b.buf i)).isSome) = true := by
    rw [List.all_eq_true]
    intro i hi
    obtain ⟨w, hw, -⟩ := hk i (List.mem_range.1 hi)
    rw [hw]; rfl
  refine ⟨⟨b.dims, fun i => (kAdd (a.buf i) (b.buf i)).getD Px.zero⟩, by unfold v0Add; rw [if_pos hall], rfl, ?_⟩
  intro p u v hu hv
  have hin := Img.at?_eq_some_in _ _ _ hv
  obtain ⟨i, hi, hbi, ei⟩ := Img.at?_buf b p v hv
  obtain ⟨j, hj, haj, ej⟩ := Img.at?_buf a p u hu
  have hij : j = i := by rw [ej, ei, hd]
  subst hij
  obtain ⟨w, hw, he⟩ := hk j hi
  refine ⟨w, ?_, by rw [he, haj, hbi]⟩
  rw [Img.at?_some ⟨b.dims, fun i => (kAdd (a.buf i) (b.buf i)).getD Px.zero⟩ p hin]
  show some ((kAdd (a.buf (rasterIndex b.dims.w b.dims.h p.x.toNat p.y.toNat p.z.toNat))
    (b.buf (rasterIndex b.dims.w b.dims.h p.x.toNat p.y.toNat p.z.toNat))).getD Px.zero) = some w
  rw [← ei, hw]
  rfl

open Classical in
/-- The number of turns `i < n` after which `p` is not yet erased. -/
noncomputable def v0Cnt (se : StrElt) (im : Img (Px t)) (p : IntPoint) (n : Nat) : Nat :=
  Nat.count (fun i => ¬ (se.size * i ∈ reachLens se im p)) n

/-- After `j` turns. -/
structure V0Inv (se : StrElt) (im : Img (Px t)) (j : Nat) (tmp out : Img (Px t)) : Prop where
  dt : tmp.dims = im.dims
  dout : out.dims = im.dims
  bin : BinIm tmp
  zero : ∀ p, Img.In im.dims p → (IsZero tmp p ↔ se.size * j ∈ reachLens se im p)
  val : ∀ p v, out.at? p = some v → v.val = min t.hi (v0Cnt se im p (j + 1) : Int)

theorem v0_init {se : StrElt} (h1 : 1 ≤ t.hi) {im : Img (Px t)} (hpos : ∀ p v, im.at? p = some v → 0 ≤ v.val) :
    V0Inv se im 0 (v0Start im) (v0Start im) := by
  have hlo := t.lo_nonpos
  have hw : (t.wrap 1).val = 1 := t.wrap_of_mem (by omega) h1
  have hat : ∀ p v, (v0Start im).at? p = some v → ∃ u, im.at? p = some u ∧ v.val = min u.val 1 := by
    intro p v hv
    have hin : Img.In im.dims p := Img.at?_eq_some_in (v0Start im) _ _ hv
    rw [Img.at?_some (v0Start im) p hin] at hv
    refine ⟨_, Img.at?_some im p hin, ?_⟩
    rw [← Option.some.inj hv]
    unfold Img.px v0Start kInf
    simp only
    split_ifs with h <;> rw [Px.lt_iff, hw] at h <;> omega
  have hz : ∀ p, IsZero (v0Start im) p ↔ se.size * 0 ∈ reachLens se im p := by
    intro p
    constructor
    · rintro ⟨v, hv, e⟩
      obtain ⟨u, hu, e'⟩ := hat p v hv
      exact ⟨p, ⟨u, hu, by omega⟩, .nil p (Img.at?_eq_some_in _ _ _ hu)⟩
    · rintro ⟨q, ⟨u, hu, e⟩, hwk⟩
      have : p = q := by cases hwk; rfl
      subst this
      have hin := Img.at?_eq_some_in _ _ _ hu
      obtain ⟨v, hv⟩ := Option.isSome_iff_exists.1 ((Img.at?_isSome (v0Start im) p).2 hin)
      obtain ⟨u', hu', e'⟩ := hat p v hv
      rw [hu] at hu'
      obtain rfl := Option.some.inj hu'
      exact ⟨v, hv, by omega⟩
  have hbin : BinIm (v0Start im) := by
    intro p v hv
    obtain ⟨u, hu, e⟩ := hat p v hv
    have := hpos p u hu
    omega
  refine ⟨rfl, rfl, hbin, fun p _ => hz p, ?_⟩
  intro p v hv
  have h01 := hbin p v hv
  unfold v0Cnt
  rw [Nat.count_succ, Nat.count_zero]
  by_cases h : se.size * 0 ∈ reachLens se im p
  · rw [if_neg (by simpa using h)]
    obtain ⟨v', hv', e⟩ := (hz p).2 h
    rw [hv] at hv'
    obtain rfl := Option.some.inj hv'
    rw [e]; simp; omega
  · rw [if_pos h]
    have : v.val ≠ 0 := fun e => h ((hz p).1 ⟨v, hv, e⟩)
    simp; omega

theorem v0_step {E : Env (Px t)} {se : StrElt} (h1 : 1 ≤ t.hi) (h0 : ⟨0, 0, 0⟩ ∈ se.points) {im : Img (Px t)} (halloc : im.alloc = true)
    (hse : SEOk im.dims se) {j : Nat} {tmp out : Img (Px t)} (h : V0Inv se im j tmp out) :
    ∃ tmp' out', erode E true se tmp tmp = some (.ok tmp') ∧ v0Add tmp' out = some out' ∧ V0Inv se im (j + 1) tmp' out' := by
  obtain ⟨tmp', he, hi⟩ := erode_spec E true se tmp tmp ⟨by unfold Img.alloc at *; rw [h.dt]; exact halloc,
    by unfold Img.alloc at *; rw [h.dt]; exact halloc, Or.inl rfl⟩ (by rw [h.dt]; exact hse)
  obtain ⟨d1, b1, z1⟩ := iter_bin h0 h1 se.size hi h.bin
  have hz : ∀ p, Img.In im.dims p → (IsZero tmp' p ↔ se.size * (j + 1) ∈ reachLens se im p) := by
    intro p hp
    rw [z1 p (by rw [h.dt]; exact hp), h.dt]
    constructor
    · rintro ⟨c, hc, hw⟩
      obtain ⟨q, hq, hw'⟩ := (h.zero c hw.in_right).1 hc
      refine ⟨q, hq, ?_⟩
      have := hw.append hw'
      rwa [show se.size + se.size * j = se.size * (j + 1) by ring] at this
    · rintro ⟨q, hq, hw⟩
      rw [show se.size * (j + 1) = se.size + se.size * j by ring] at hw
      obtain ⟨c, hw1, hw2⟩ := hw.splitAt
      exact ⟨c, (h.zero c hw1.in_right).2 ⟨q, hq, hw2⟩, hw1⟩
  obtain ⟨out', ha, d2, hv⟩ := v0Add_spec (a := tmp') (b := out) (by rw [d1, h.dt, h.dout])
    (fun p v hv => by rcases b1 p v hv with e | e <;> omega)
    (fun p v hv => by rw [h.val p v hv]; omega)
  refine ⟨tmp', out', he, ha, ⟨d1.trans h.dt, d2.trans h.dout, b1, hz, ?_⟩⟩
  intro p w hw
  have hin : Img.In im.dims p := by rw [← h.dout, ← d2]; exact Img.at?_eq_some_in _ _ _ hw
  obtain ⟨u, hu⟩ := Option.isSome_iff_exists.1 ((Img.at?_isSome tmp' p).2 (by rw [d1, h.dt]; exact hin))
  obtain ⟨v, hv'⟩ := Option.isSome_iff_exists.1 ((Img.at?_isSome out p).2 (by rw [h.dout]; exact hin))
  obtain ⟨w', hw', e⟩ := hv p u v hu hv'
  rw [hw] at hw'
  obtain rfl := Option.some.inj hw'
  rw [e, h.val p v hv']
  have h01 := b1 p u hu
  unfold v0Cnt
  classical
  rw [Nat.count_succ (fun i => ¬ (se.size * i ∈ reachLens se im p)) (j + 1)]
  by_cases hr : se.size * (j + 1) ∈ reachLens se im p
  · rw [if_neg (by simpa using hr)]
    obtain ⟨u', hu', e'⟩ := (hz p hin).2 hr
    rw [hu] at hu'
    obtain rfl := Option.some.inj hu'
    push_cast
    omega
  · rw [if_pos hr]
    have : u.val ≠ 0 := fun e => hr ((hz p hin).1 ⟨u, hu, e⟩)
    push_cast
    omega

theorem v0_ends {E : Env (Px t)} {se : StrElt} (h1 : 1 ≤ t.hi) (h0 : ⟨0, 0, 0⟩ ∈ se.points) {im : Img (Px t)} (halloc : im.alloc = true)
    (hse : SEOk im.dims se) (m : Nat) (j : Nat) (hall : ∀ p, Img.In im.dims p → se.size * (j + (m + 1)) ∈ reachLens se im p)
    (tmp out : Img (Px t)) (h : V0Inv se im j tmp out) :
    ∃ j' tmp' out', V0Inv se im j' tmp' out' ∧ (∀ p, Img.In im.dims p → se.size * j' ∈ reachLens se im p) ∧
      ∀ fuel, m + 1 ≤ fuel → v0Loop E se fuel tmp out = some (.ok (some out')) := by
  induction m generalizing j tmp out with
  | zero =>
    obtain ⟨tmp', out', he, ha, hi⟩ := v0_step (E := E) h1 h0 halloc hse h
    refine ⟨j + 1, tmp', out', hi, hall, fun fuel hf => ?_⟩
    obtain ⟨f, rfl⟩ : ∃ f, fuel = f + 1 := ⟨fuel - 1, by omega⟩
    have : v0Vol tmp' = 0 := (vol_zero_iff hi.bin).2 fun p hp => by
      rw [hi.dt] at hp; exact (hi.zero p hp).2 (hall p hp)
    simp only [v0Loop, he, Option.bind_some, ha, this, ne_eq, not_true_eq_false, if_false]
  | succ m ih =>
    obtain ⟨tmp', out', he, ha, hi⟩ := v0_step (E := E) h1 h0 halloc hse h
    by_cases hv : v0Vol tmp' = 0
    · refine ⟨j + 1, tmp', out', hi, fun p hp => (hi.zero p hp).1 ((vol_zero_iff hi.bin).1 hv p (by rw [hi.dt]; exact hp)), fun fuel hf => ?_⟩
      obtain ⟨f, rfl⟩ : ∃ f, fuel = f + 1 := ⟨fuel - 1, by omega⟩
      simp only [v0Loop, he, Option.bind_some, ha, hv, ne_eq, not_true_eq_false, if_false]
    · obtain ⟨j', t', o', i1, i2, i3⟩ := ih (j + 1) (by
        intro p hp
        have := hall p hp
        rwa [show j + 1 + (m + 1) = j + (m + 1 + 1) by ring]) tmp' out' hi
      refine ⟨j', t', o', i1, i2, fun fuel hf => ?_⟩
      obtain ⟨f, rfl⟩ : ∃ f, fuel = f + 1 := ⟨fuel - 1, by omega⟩
      simp only [v0Loop, he, Option.bind_some, ha, ne_eq, hv, not_false_eq_true, if_true]
      exact i3 f (by omega)

/-- Number of multiples of `s` below `k`. -/
theorem count_ceil (s k : Nat) (hs : 1 ≤ s) (P : Nat → Prop) [DecidablePred P] (hP : ∀ i, P i ↔ s * i < k) (n : Nat) (hn : k ≤ s * n) :
    Nat.count P (n + 1) = (k + s - 1) / s := by
  have key : ∀ n, Nat.count P n = min n ((k + s - 1) / s) := by
    intro n
    induction n with
    | zero => simp
    | succ n ih =>
      rw [Nat.count_succ, ih]
      have : P n ↔ n < (k + s - 1) / s := by
        rw [hP, Nat.lt_iff_add_one_le (n := (k + s - 1) / s), Nat.le_div_iff_mul_le (by omega), Nat.add_mul, Nat.mul_comm n s]
        omega
      by_cases h : P n
      · rw [if_pos h]
        have := this.1 h
        omega
      · rw [if_neg h]
        have : ¬ n < (k + s - 1) / s := fun e => h (this.2 e)
        omega
  rw [key]
  have : (k + s - 1) / s < n + 1 := by
    rw [Nat.div_lt_iff_lt_mul (by omega), Nat.add_mul, Nat.mul_comm n s]
    omega
  omega

/-- **C106**: for an image of values which are not negative, an element containing the origin and `N` such that every pixel reaches a zero pixel in at most `N * size`
steps, the function ends within `N` turns of its loop and its result is at every pixel the least number of steps to a zero pixel, divided by the size of the
element and rounded up, clipped at the largest value of the type. -/
theorem C106_distV0 (E : Env (Px t)) (se : StrElt) (im out : Img (Px t)) (h1 : 1 ≤ t.hi) (hacc : Accepts E im out) (hse : SEOk im.dims se)
    (h0 : ⟨0, 0, 0⟩ ∈ se.points) (hsz : 1 ≤ se.size) (hpos : ∀ p v, im.at? p = some v → 0 ≤ v.val) (N : Nat) (hN : 1 ≤ N)
    (hreach : ∀ p, Img.In im.dims p → ∃ k ∈ reachLens se im p, k ≤ se.size * N) :
    ∃ r, (∀ fuel, N ≤ fuel → distV0 E se im out fuel = some (.ok (some r))) ∧ r.dims = im.dims ∧
      ∀ p v k, r.at? p = some v → IsLeast (reachLens se im p) k → v.val = min t.hi (((k + se.size - 1) / se.size : Nat) : Int) := by
  obtain ⟨o, ho, -⟩ := checkSize_ok E im out hacc
  obtain ⟨j', t', o', i1, i2, i3⟩ := v0_ends (E := E) (se := se) h1 h0 hacc.1 hse (N - 1) 0 (by
    intro p hp
    obtain ⟨k, hk, hkN⟩ := hreach p hp
    refine reachLens_mono h0 hk ?_
    rw [show 0 + (N - 1 + 1) = N by omega]; exact hkN) _ _ (v0_init h1 hpos)
  refine ⟨o', fun fuel hf => ?_, i1.dout, ?_⟩
  · unfold distV0
    rw [ho]
    exact i3 fuel (by omega)
  · intro p v k hv hk
    have hin : Img.In im.dims p := by rw [← i1.dout]; exact Img.at?_eq_some_in _ _ _ hv
    rw [i1.val p v hv]
    unfold v0Cnt
    classical
    rw [count_ceil se.size k hsz _ ?_ j' (hk.2 (i2 p hin))]
    intro i
    constructor
    · intro h
      by_contra hlt
      exact h (reachLens_mono h0 hk.1 (by omega))
    · intro h hm
      have := hk.2 hm
      omega

theorem reach_bound {se : StrElt} (h0 : ⟨0, 0, 0⟩ ∈ se.points) {im : Img (Px t)} (h : ∀ p, Img.In im.dims p → (reachLens se im p).Nonempty) :
    ∃ N, 1 ≤ N ∧ ∀ p, Img.In im.dims p → N ∈ reachLens se im p := by
  have key : ∀ n ≤ im.dims.count, ∃ N, 1 ≤ N ∧ ∀ i < n, N ∈ reachLens se im (coordPt im.dims i) := by
    intro n
    induction n with
    | zero => exact fun _ => ⟨1, le_rfl, fun i hi => by omega⟩
    | succ n ih =>
      intro hn
      obtain ⟨N, hN, hN'⟩ := ih (by omega)
      obtain ⟨k, hk⟩ := h _ (coordPt_in (show n < im.dims.count by omega)).1
      refine ⟨max N k, by omega, fun i hi => ?_⟩
      rcases Nat.lt_succ_iff_lt_or_eq.1 hi with hi | rfl
      · exact reachLens_mono h0 (hN' i hi) (by omega)
      · exact reachLens_mono h0 hk (by omega)
  obtain ⟨N, hN, hN'⟩ := key _ le_rfl
  refine ⟨N, hN, fun p hp => ?_⟩
  have := hN' _ (offOf_lt hp)
  rwa [coordPt_offOf hp] at this

/-- **C106**: the loop ends exactly when every pixel reaches a zero pixel; otherwise it runs for ever. -/
theorem C106_ends_iff (E : Env (Px t)) (se : StrElt) (im out : Img (Px t)) (h1 : 1 ≤ t.hi) (hacc : Accepts E im out) (hse : SEOk im.dims se)
    (h0 : ⟨0, 0, 0⟩ ∈ se.points) (hsz : 1 ≤ se.size) (hpos : ∀ p v, im.at? p = some v → 0 ≤ v.val) :
    ((∀ p, Img.In im.dims p → (reachLens se im p).Nonempty) → ∃ N r, ∀ fuel, N ≤ fuel → distV0 E se im out fuel = some (.ok (some r))) ∧
      ((¬ ∀ p, Img.In im.dims p → (reachLens se im p).Nonempty) → ∀ fuel, distV0 E se im out fuel = some (.ok none)) := by
  constructor
  · intro h
    obtain ⟨N, hN, hN'⟩ := reach_bound h0 h
    obtain ⟨r, hr, -⟩ := C106_distV0 E se im out h1 hacc hse h0 hsz hpos N hN fun p hp => ⟨N, hN' p hp, by nlinarith⟩
    exact ⟨N, r, hr⟩
  · intro h fuel
    push Not at h
    obtain ⟨p, hp, hne⟩ := h
    obtain ⟨o, ho, -⟩ := checkSize_ok E im out hacc
    unfold distV0
    rw [ho]
    show v0Loop E se fuel _ _ = _
    have key : ∀ fuel j tmp out, V0Inv se im j tmp out → v0Loop E se fuel tmp out = some (.ok none) := by
      intro fuel
      induction fuel with
      | zero => intros; rfl
      | succ f ih =>
        intro j tmp out hi
        obtain ⟨tmp', out', he, ha, hi'⟩ := v0_step (E := E) h1 h0 hacc.1 hse hi
        have hv : v0Vol tmp' ≠ 0 := fun e => by
          have := (hi'.zero p hp).1 ((vol_zero_iff hi'.bin).1 e p (by rw [hi'.dt]; exact hp))
          rw [hne] at this
          exact this
        simp only [v0Loop, he, Option.bind_some, ha, ne_eq, hv, not_false_eq_true, if_true]
        exact ih _ _ _ hi'
    exact key fuel 0 _ _ (v0_init h1 hpos)

/-- **C106**: images that are not allocated, and outputs of another size, are refused. -/
theorem C106_refused (E : Env (Px t)) (se : StrElt) (im out : Img (Px t)) (fuel : Nat) :
    (im.alloc = false ∨ out.alloc = false → distV0 E se im out fuel = some (.error (-99))) ∧
      (im.alloc = true → out.alloc = true → out.dims ≠ im.dims → E.auto = false → distV0 E se im out fuel = some (.error (-98))) := by
  unfold distV0 checkSize
  constructor
  · intro h
    rw [if_pos h]; rfl
  · intro h1 h2 h3 h4
    rw [if_neg (by rw [h1, h2]; simp), if_neg h3, if_neg (by rw [h4]; simp)]; rfl

/-- The values of a run. -/
def v0Vals (r : Option (Except Int (Option (Img (Px t))))) : Option (Option (List Int)) :=
  match r with
  | some (.ok (some i)) => some (some ((List.range i.dims.count).map fun k => (i.buf k).val))
  | some (.ok none) => some none
  | _ => none

/-- The hypotheses are met: six pixels, one of them zero, with the segment of three pixels and with the one of five. -/
example : Accepts exEnv8 (im8 ⟨6, 1, 1⟩ [9, 7, 0, 3, 200, 1]) (im8 ⟨6, 1, 1⟩ []) ∧ SEOk ⟨6, 1, 1⟩ (HorizSE 1) ∧ SEOk ⟨6, 1, 1⟩ (HorizSE 2) ∧
    ⟨0, 0, 0⟩ ∈ (HorizSE 1).points ∧
    v0Vals (distV0 exEnv8 (HorizSE 1) (im8 ⟨6, 1, 1⟩ [9, 7, 0, 3, 200, 1]) (im8 ⟨6, 1, 1⟩ []) 3) = some (some [2, 1, 0, 1, 2, 3]) ∧
    v0Vals (distV0 exEnv8 (HorizSE 2) (im8 ⟨6, 1, 1⟩ [9, 7, 0, 3, 200, 1]) (im8 ⟨6, 1, 1⟩ []) 2) = some (some [1, 1, 0, 1, 1, 2]) ∧
    v0Vals (distV0 exEnv8 (HorizSE 1) (im8 ⟨6, 1, 1⟩ [9, 7, 0, 3, 200, 1]) (im8 ⟨6, 1, 1⟩ []) 2) = some none :=
  ⟨⟨by decide, by decide, Or.inl rfl⟩, seOk_iff _ _ (by decide), seOk_iff _ _ (by decide), by decide, by decide +kernel, by decide +kernel,
    by decide +kernel⟩

/-- An image without zero pixel makes the function loop for ever. -/
theorem C106_no_zero_endless (E : Env (Px t)) (se : StrElt) (im out : Img (Px t)) (h1 : 1 ≤ t.hi) (hacc : Accepts E im out) (hse : SEOk im.dims se)
    (h0 : ⟨0, 0, 0⟩ ∈ se.points) (hsz : 1 ≤ se.size) (hpos : ∀ p v, im.at? p = some v → 0 < v.val) (fuel : Nat) :
    distV0 E se im out fuel = some (.ok none) := by
  refine (C106_ends_iff E se im out h1 hacc hse h0 hsz fun p v hv => (hpos p v hv).le).2 ?_ fuel
  intro h
  have hc : 0 < im.dims.count := by
    have := hacc.1
    unfold Img.alloc at this
    simp at this
    omega
  obtain ⟨k, q, ⟨v, hv, e⟩, -⟩ := h _ (coordPt_in hc).1
  have := hpos q v hv
  omega

example : Accepts exEnv8 (im8 ⟨2, 1, 1⟩ [9, 7]) (im8 ⟨2, 1, 1⟩ []) ∧ SEOk ⟨2, 1, 1⟩ (HorizSE 1) ∧
    ∀ p v, (im8 ⟨2, 1, 1⟩ [9, 7]).at? p = some v → 0 < v.val := by
  refine ⟨⟨by decide, by decide, Or.inl rfl⟩, seOk_iff _ _ (by decide), fun p v hv => ?_⟩
  obtain ⟨i, hi, rfl, -⟩ := Img.at?_buf _ _ _ hv
  have : ∀ i < 2, 0 < ((im8 ⟨2, 1, 1⟩ [9, 7]).buf i).val := by decide
  exact this i hi

/-- Without the origin in the element a zero pixel may get a distance which is not zero: the last pixel here. -/
theorem C106_origin_bug :
    v0Vals (distV0 exEnv8 ⟨false, .generic, 1, [⟨-1, 0, 0⟩, ⟨1, 0, 0⟩]⟩ (im8 ⟨4, 1, 1⟩ [0, 0, 1, 0]) (im8 ⟨4, 1, 1⟩ []) 5) =
      some (some [0, 0, 1, 1]) := by decide +kernel

/-- Negative pixels: they are not set to one, the volume of the loop vanishes although no pixel is zero, and the saturated addition gives the largest value. -/
theorem C106_signed_bug :
    v0Vals (distV0 (⟨1, false, fun _ => ⊥, fun _ => ⊥⟩ : Env (Px INT8)) (HorizSE 1) (imOf INT8 ⟨4, 1, 1⟩ [-1, 1, 1, 1]) (imOf INT8 ⟨4, 1, 1⟩ []) 5) =
      some (some [127, 0, 2, 2]) := by decide +kernel

end Smil
