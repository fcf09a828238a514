import Verif.PathOpLemmas
import Verif.PropsBuild
import Verif.Flood

/-!
# C111: binary path openings
-/

namespace Smil
section
variable {t u : PT}

/-! ### Specification -/

/-- The pixels above the threshold. -/
def AboveThr (im : Img (Px t)) (slice : Nat) (p : Int × Int) : Prop := ∃ v, im.at? ⟨p.1, p.2, 0⟩ = some v ∧ (slice : Int) < v.val

/-- The checks of the path openings succeed: a plane image, allocated, an output of the same size (or resized), and sizes for which `W * H * 8` is an `int` and a length is an `UINT16`. -/
structure PathArgs (auto : Bool) (di dout : Dims) : Prop where
  alloc : di.count ≠ 0
  plane : di.d = 1
  size : dout = di ∨ auto = true
  int : di.w * di.h * 8 < 2 ^ 31
  short : di.w + di.h < 2 ^ 16

/-! ### Lemmas -/

theorem checkOne_ok {auto : Bool} {di dout : Dims} (h : PathArgs auto di dout) : checkOne auto di dout = .ok () := by
  unfold checkOne
  rw [if_neg h.alloc]
  rcases h.size with e | e
  · rw [if_pos e]
  · split
    · rfl
    · simp [e]

theorem off2_eq {D : Dims} {p : IntPoint} (hd : D.d = 1) (h : Img.In D p) : off2 D.w (p.x, p.y) = offOf D p := by
  unfold Img.In at h
  obtain ⟨x, y, z⟩ := p
  dsimp only at h
  obtain ⟨a, rfl⟩ := Int.eq_ofNat_of_zero_le h.1
  obtain ⟨b, rfl⟩ := Int.eq_ofNat_of_zero_le h.2.2.1
  have hz : z = 0 := by omega
  subst hz
  unfold off2 offOf rasterIndex
  dsimp only
  rw [← Int.natCast_mul, ← Int.natCast_add, Int.toNat_natCast, Int.toNat_natCast, Int.toNat_natCast]
  simp [Nat.mul_comm]

theorem pt2_eq {D : Dims} {p : IntPoint} (hd : D.d = 1) (h : Img.In D p) : pt2 D.w (offOf D p) = (p.x, p.y) := by
  unfold Img.In at h
  obtain ⟨x, y, z⟩ := p
  dsimp only at h
  obtain ⟨a, rfl⟩ := Int.eq_ofNat_of_zero_le h.1
  obtain ⟨b, rfl⟩ := Int.eq_ofNat_of_zero_le h.2.2.1
  have hz : z = 0 := by omega
  subst hz
  have ha : a < D.w := by omega
  unfold pt2 offOf rasterIndex
  dsimp only
  rw [Int.toNat_natCast, Int.toNat_natCast]
  simp only [Int.toNat_zero, Nat.mul_zero, Nat.add_zero]
  rw [Nat.add_mul_mod_self_left, Nat.mod_eq_of_lt ha, Nat.add_mul_div_left _ _ (by omega), Nat.div_eq_of_lt ha, Nat.zero_add]

theorem path_length_le {R : Int × Int → Int × Int → Prop} (m : Int × Int → Int) (M : Nat) (l : List (Int × Int)) (hc : l.IsChain R)
    (hR : ∀ a b, R a b → m a + 1 ≤ m b) (hm : ∀ p ∈ l, 0 ≤ m p ∧ m p < M) : l.length ≤ M := by
  have key : ∀ (l : List (Int × Int)) (p : Int × Int), (p :: l).IsChain R → (∀ q ∈ p :: l, 0 ≤ m q ∧ m q < M) → m p + l.length < M := by
    intro l
    induction l with
    | nil =>
      intro p _ h
      have := h p (by simp)
      simpa using this.2
    | cons q l ih =>
      intro p hc h
      rw [List.isChain_cons_cons] at hc
      have := ih q hc.2 fun a ha => h a (List.mem_cons_of_mem _ ha)
      have := hR p q hc.1
      rw [List.length_cons]
      push_cast
      omega
  cases l with
  | nil => simp
  | cons p l =>
    have := key l p hc hm
    have := hm p (by simp)
    rw [List.length_cons]
    omega

/-- A path has less than `W + H` points. -/
theorem onLongPath_bound {W H : Nat} {S : Int × Int → Prop} (hS : ∀ p, S p → inWH W H p = true) {p : Int × Int} {n : Nat} (h : OnLongPath S p n) : n < W + H := by
  obtain ⟨o, l, ⟨hc, hl⟩, hp, hn⟩ := h
  have hb : ∀ q ∈ l, 0 ≤ q.1 ∧ q.1 < W ∧ 0 ≤ q.2 ∧ q.2 < H := fun q hq => (inWH_iff W H q).mp (hS q (hl q hq))
  have hpp := hb p hp
  suffices l.length ≤ W + H - 1 by omega
  fin_cases o
  · refine path_length_le (fun q => q.2) _ l hc (fun a b h => ?_) fun q hq => ?_
    · have := h.1
      omega
    · have := hb q hq
      omega
  · refine path_length_le (fun q => q.1) _ l hc (fun a b h => ?_) fun q hq => ?_
    · have := h.1
      omega
    · have := hb q hq
      omega
  · refine path_length_le (fun q => q.1 + q.2) _ l hc (fun a b h => ?_) fun q hq => ?_
    · simp only [PathStep] at h
      omega
    · have := hb q hq
      omega
  · refine path_length_le (fun q => q.1 - q.2 + (H - 1)) _ l hc (fun a b h => ?_) fun q hq => ?_
    · simp only [PathStep] at h
      omega
    · have := hb q hq
      omega

theorem onLongPath_mono {S T : Int × Int → Prop} {p : Int × Int} {n m : Nat} (h : OnLongPath S p n) (hS : ∀ q, S q → T q) (hm : m ≤ n) : OnLongPath T p m := by
  obtain ⟨o, l, ⟨hc, hl⟩, hp, hn⟩ := h
  exact ⟨o, l, ⟨hc, fun q hq => hS q (hl q hq)⟩, hp, by omega⟩

theorem binaryPaths_le {W H : Nat} {bin : Int × Int → Bool} {f : Int × Int → Nat}
    (hf : ∀ p, inWH W H p = true → ∀ n, n < f p ↔ OnLongPath (binSet W H bin) p n) {p : Int × Int} (hp : inWH W H p = true) : f p ≤ W + H := by
  by_contra h
  have := onLongPath_bound (W := W) (H := H) (fun q hq => hq.1) ((hf p hp (W + H)).mp (by omega))
  omega

theorem above_iff (hs : t.signed = false) (hb : t.bits ≤ 32) (im : Img (Px t)) (hd : im.dims.d = 1) (slice : Nat) (p : Int × Int) :
    binSet im.dims.w im.dims.h (fun p => gtU32 (im.buf (off2 im.dims.w p)) slice) p ↔ AboveThr im slice p := by
  have hv : ∀ v : Px t, v.val % 2 ^ 32 = v.val := by
    intro v
    have h1 := v.lo_le
    have h2 := v.le_hi
    unfold PT.lo at h1
    unfold PT.hi at h2
    rw [hs] at h1 h2
    simp only [Bool.false_eq_true, if_false] at h1 h2
    have : (2 ^ t.bits : Nat) ≤ 2 ^ 32 := Nat.pow_le_pow_right (by omega) hb
    refine Int.emod_eq_of_lt h1 ?_
    omega
  unfold binSet AboveThr
  rw [inWH_iff]
  constructor
  · rintro ⟨h, hg⟩
    have hin : Img.In im.dims ⟨p.1, p.2, 0⟩ := by
      unfold Img.In
      dsimp only
      omega
    refine ⟨_, Img.buf_offOf im _ hin, ?_⟩
    have e := off2_eq hd hin
    dsimp only at e
    unfold gtU32 at hg
    rw [decide_eq_true_eq, hv] at hg
    rw [← e]
    exact hg
  · rintro ⟨v, hv', hs'⟩
    have hin := Img.at?_eq_some_in _ _ _ hv'
    have e := off2_eq hd hin
    dsimp only at e
    rw [Img.buf_offOf im _ hin, Option.some.injEq] at hv'
    have hh := hin
    unfold Img.In at hh
    dsimp only at hh
    refine ⟨by omega, ?_⟩
    unfold gtU32
    rw [decide_eq_true_eq, hv, e, hv']
    exact hs'

/-! ### Properties -/

/-- **C111**. `ImBinaryPathOpening` keeps the pixels above the threshold that lie on a path of `Lenght - 1` of them. The documented criterion is `Lenght`: what is missing is one pixel
(`C111_short_bug`). -/
theorem C111_binary_partial (hs : t.signed = false) (hb : t.bits ≤ 32) (auto : Bool) (im : Img (Px t)) (len slice : Nat) (out : Img (Px u))
    (ha : PathArgs auto im.dims out.dims) :
    ∃ r, binaryPathOpening auto im len slice out = some (.ok r) ∧ r.dims = im.dims ∧ ∀ p, Img.In im.dims p →
      (len = 0 ∨ OnLongPath (AboveThr im slice) (p.x, p.y) (len - 1) → r.at? p = some (u.wrap 255)) ∧
      (¬ (len = 0 ∨ OnLongPath (AboveThr im slice) (p.x, p.y) (len - 1)) → r.at? p = some (u.wrap 0)) := by
  obtain ⟨f, hf, hsp⟩ := binaryPaths_spec im.dims.w im.dims.h (fun p => gtU32 (im.buf (off2 im.dims.w p)) slice) ha.int
  refine ⟨_, by unfold binaryPathOpening; rw [checkOne_ok ha]; simp only; rw [if_pos ha.plane, hf, Option.map_some], rfl, fun p hp => ?_⟩
  have hin : inWH im.dims.w im.dims.h (p.x, p.y) = true := by
    rw [inWH_iff]
    unfold Img.In at hp
    dsimp only
    omega
  have hle := binaryPaths_le hsp hin
  have hsh := ha.short
  have e : binSet im.dims.w im.dims.h (fun p => gtU32 (im.buf (off2 im.dims.w p)) slice) = AboveThr im slice :=
    funext fun p => propext (above_iff hs hb im ha.plane slice p)
  have key : len ≤ f (p.x, p.y) % 2 ^ 16 ↔ len = 0 ∨ OnLongPath (AboveThr im slice) (p.x, p.y) (len - 1) := by
    rw [Nat.mod_eq_of_lt (by omega), ← e, ← hsp _ hin]
    omega
  have hbuf := Img.buf_offOf (⟨im.dims, fun i => if len ≤ f (pt2 im.dims.w i) % 2 ^ 16 then u.wrap 255 else u.wrap 0⟩ : Img (Px u)) p hp
  rw [hbuf]
  simp only
  rw [pt2_eq ha.plane hp]
  exact ⟨fun h => by rw [if_pos (key.mpr h)], fun h => by rw [if_neg fun h' => h (key.mp h')]⟩

/-- **C111**, the errors: an input that is not allocated, and an output of another size that may not be resized. -/
theorem C111_errors (auto : Bool) (im : Img (Px t)) (len slice : Nat) (out : Img (Px u)) :
    (im.dims.count = 0 → binaryPathOpening auto im len slice out = some (.error errBadAllocation)) ∧
    (im.dims.count ≠ 0 → out.dims ≠ im.dims → auto = false → binaryPathOpening auto im len slice out = some (.error errBadSize)) := by
  unfold binaryPathOpening checkOne
  refine ⟨fun h => by rw [if_pos h], fun h1 h2 h3 => ?_⟩
  rw [if_neg h1, if_neg h2, h3]
  rfl

/-- **C111**, volumes: the buffer of the threshold has the size of a slice and receives all the pixels. -/
theorem C111_volume_ub (auto : Bool) (im : Img (Px t)) (len slice : Nat) (out : Img (Px u)) (hc : im.dims.count ≠ 0) (hs : out.dims = im.dims) (hd : im.dims.d ≠ 1) :
    binaryPathOpening auto im len slice out = none ∧ brutePathOpening auto im len out = none := by
  unfold binaryPathOpening brutePathOpening checkOne
  rw [if_neg hc, if_pos hs]
  simp only [if_neg hd, and_self]

/-- What a binary image keeps: the set of its pixels that are not zero. -/
def setOf8 (im : Img (Px u)) (p : Int × Int) : Prop := ∃ v, im.at? ⟨p.1, p.2, 0⟩ = some v ∧ v.val ≠ 0

/-- The pixels kept. -/
theorem kept_iff {auto : Bool} (hs : t.signed = false) (hb : t.bits ≤ 32) (hu : u.wrap 255 ≠ u.wrap 0) (h0 : (u.wrap 0).val = 0) {im : Img (Px t)} {len slice : Nat} {out r : Img (Px u)}
    (ha : PathArgs auto im.dims out.dims) (hl : len ≠ 0) (h : binaryPathOpening auto im len slice out = some (.ok r)) (p : Int × Int) :
    setOf8 r p ↔ OnLongPath (AboveThr im slice) p (len - 1) := by
  obtain ⟨r', h', hd, hr⟩ := C111_binary_partial hs hb auto im len slice out ha
  rw [h] at h'
  simp only [Option.some.injEq, Except.ok.injEq] at h'
  subst h'
  have hin : OnLongPath (AboveThr im slice) p (len - 1) → Img.In im.dims ⟨p.1, p.2, 0⟩ := by
    rintro ⟨o, l, ⟨_, hl⟩, hp, _⟩
    obtain ⟨v, hv, _⟩ := hl p hp
    exact Img.at?_eq_some_in _ _ _ hv
  unfold setOf8
  constructor
  · rintro ⟨v, hv, hne⟩
    have hi := Img.at?_eq_some_in _ _ _ hv
    rw [hd] at hi
    by_contra hc
    have := (hr _ hi).2 (by rintro (h | h); exacts [hl h, hc h])
    rw [hv, Option.some.injEq] at this
    exact hne (by rw [this, h0])
  · intro hp
    refine ⟨_, (hr _ (hin hp)).1 (.inr hp), fun h => hu (Px.ext (by rw [h, h0]))⟩

/-- **C111**, an opening: for every criterion but zero the pixels kept are above the threshold, a larger criterion, a higher threshold or a smaller image keep less, and doing it again on the
result changes nothing. -/
theorem C111_opening (hs : t.signed = false) (hb : t.bits ≤ 32) (us : u.signed = false) (u8 : 8 ≤ u.bits) (ub : u.bits ≤ 32) (auto : Bool) (im : Img (Px t)) (len slice : Nat)
    (out : Img (Px u)) (ha : PathArgs auto im.dims out.dims) (hl : len ≠ 0) (r : Img (Px u)) (h : binaryPathOpening auto im len slice out = some (.ok r)) :
    (∀ p, setOf8 r p → AboveThr im slice p) ∧
    (∀ (im' : Img (Px t)) (len' slice' : Nat) (r' : Img (Px u)), im'.dims = im.dims → len' ≤ len → slice' ≤ slice →
      (∀ p v v', im.at? p = some v → im'.at? p = some v' → v ≤ v') → len' ≠ 0 →
      binaryPathOpening auto im' len' slice' out = some (.ok r') → ∀ p, setOf8 r p → setOf8 r' p) ∧
    ∀ (slice' : Nat) (r' : Img (Px u)), slice' < 255 → binaryPathOpening auto r len slice' out = some (.ok r') → ∀ p, setOf8 r' p ↔ setOf8 r p := by
  have hhi : (255 : Int) ≤ u.hi := by
    unfold PT.hi
    rw [us]
    simp only [Bool.false_eq_true, if_false]
    have : (2 ^ 8 : Nat) ≤ 2 ^ u.bits := Nat.pow_le_pow_right (by omega) u8
    omega
  have hlo : u.lo = 0 := by unfold PT.lo; rw [us]; rfl
  have w0 : (u.wrap 0).val = 0 := u.wrap_of_mem (by omega) (by omega)
  have w255 : (u.wrap 255).val = 255 := u.wrap_of_mem (by omega) hhi
  have hne : u.wrap 255 ≠ u.wrap 0 := fun h => by
    have := congrArg Px.val h
    rw [w0, w255] at this
    omega
  have hk := kept_iff hs hb hne w0 ha hl h
  have hdims : r.dims = im.dims := by
    obtain ⟨r', h', hd, _⟩ := C111_binary_partial hs hb auto im len slice out ha
    rw [h] at h'
    simp only [Option.some.injEq, Except.ok.injEq] at h'
    rw [h']
    exact hd
  refine ⟨?_, ?_, ?_⟩
  · intro p hp
    obtain ⟨o, l, ⟨_, hl⟩, hm, _⟩ := (hk p).mp hp
    exact hl p hm
  · intro im' len' slice' r' hd h1 h2 hle hl' h' p hp
    rw [kept_iff hs hb hne w0 (by rw [hd]; exact ha) hl' h']
    refine onLongPath_mono ((hk p).mp hp) ?_ (by omega)
    rintro q ⟨v, hv, hv'⟩
    have hi := Img.at?_eq_some_in _ _ _ hv
    rw [← hd] at hi
    refine ⟨_, Img.buf_offOf im' _ hi, ?_⟩
    have hvv : v.val ≤ (im'.buf (offOf im'.dims ⟨q.1, q.2, 0⟩)).val := hle _ _ _ hv (Img.buf_offOf im' _ hi)
    omega
  · intro slice' r' hs' h' p
    rw [kept_iff us ub hne w0 (by rw [hdims]; exact ha) hl h', hk]
    have hA : ∀ q, AboveThr r slice' q ↔ OnLongPath (AboveThr im slice) q (len - 1) := by
      intro q
      rw [← hk]
      unfold AboveThr setOf8
      constructor
      · rintro ⟨v, hv, hlt⟩
        exact ⟨v, hv, by omega⟩
      · rintro ⟨v, hv, hn⟩
        refine ⟨v, hv, ?_⟩
        have hi := Img.at?_eq_some_in _ _ _ hv
        obtain ⟨r'', h'', _, hr⟩ := C111_binary_partial hs hb auto im len slice out ha
        rw [h] at h''
        simp only [Option.some.injEq, Except.ok.injEq] at h''
        subst h''
        rw [hdims] at hi
        by_cases hc : len = 0 ∨ OnLongPath (AboveThr im slice) (q.1, q.2) (len - 1)
        · have := (hr _ hi).1 hc
          rw [hv, Option.some.injEq] at this
          rw [this, w255]
          omega
        · have := (hr _ hi).2 hc
          rw [hv, Option.some.injEq] at this
          exact absurd (by rw [this, w0]) hn
    constructor
    · intro hp
      refine onLongPath_mono hp (fun q hq => ?_) le_rfl
      obtain ⟨o, l, ⟨_, hl⟩, hm, _⟩ := (hA q).mp hq
      exact hl q hm
    · rintro ⟨o, l, ⟨hc, hl⟩, hm, hn⟩
      exact ⟨o, l, ⟨hc, fun q hq => (hA q).mpr ⟨o, l, ⟨hc, hl⟩, hq, hn⟩⟩, hm, hn⟩

/-- **C111, one pixel too short**: with three pixels in all, a criterion of four keeps them, although no path has four pixels. -/
theorem C111_short_bug :
    let im : Img (Px UINT8) := im8 ⟨3, 1, 1⟩ [9, 9, 9]
    (∀ p, ¬ OnLongPath (AboveThr im 0) p 4) ∧
      (binaryPathOpening (u := UINT8) false im 4 0 im).map (fun r => r.toOption.map fun r => (List.range 3).map fun i => (r.buf i).val) = some (some [255, 255, 255]) := by
  refine ⟨fun p h => ?_, by decide +kernel⟩
  have := onLongPath_bound (W := 3) (H := 1) (fun q hq => ?_) h
  · omega
  · obtain ⟨v, hv, _⟩ := hq
    have hi := Img.at?_eq_some_in _ _ _ hv
    rw [inWH_iff]
    unfold Img.In at hi
    simp only [im8] at hi
    omega

/-- **C111, signed pixels**: a negative pixel is converted to an `UINT32`, and is above every threshold. -/
theorem C111_signed_bug :
    let im : Img (Px INT8) := ⟨⟨2, 1, 1⟩, fun _ => INT8.wrap (-5)⟩
    (∀ p, ¬ AboveThr im 100 p) ∧
      (binaryPathOpening (u := UINT8) false im 2 100 (im8 ⟨2, 1, 1⟩ [0, 0])).map (fun r => r.toOption.map fun r => (List.range 2).map fun i => (r.buf i).val) = some (some [255, 255]) := by
  refine ⟨?_, by decide +kernel⟩
  rintro p ⟨v, hv, hlt⟩
  rw [Img.buf_offOf _ _ (Img.at?_eq_some_in _ _ _ hv), Option.some.injEq] at hv
  have : (INT8.wrap (-5)).val = -5 := by decide +kernel
  dsimp only at hv
  rw [← hv, this] at hlt
  omega

theorem pt2_in {W H i : Nat} (h : i < W * H) : inWH W H (pt2 W i) = true := by
  have hW : 0 < W := Nat.pos_of_ne_zero fun e => by simp [e] at h
  rw [inWH_iff]
  exact ⟨Int.natCast_nonneg _, Int.ofNat_lt.mpr (Nat.mod_lt i hW), Int.natCast_nonneg _, Int.ofNat_lt.mpr (Nat.div_lt_of_lt_mul h)⟩

theorem off2_lt {W H : Nat} {p : Int × Int} (h : inWH W H p = true) : off2 W p < W * H := by
  rw [inWH_iff] at h
  obtain ⟨x, y⟩ := p
  dsimp only at h
  obtain ⟨a, rfl⟩ := Int.eq_ofNat_of_zero_le h.1
  obtain ⟨b, rfl⟩ := Int.eq_ofNat_of_zero_le h.2.2.1
  unfold off2
  dsimp only
  rw [← Int.natCast_mul, ← Int.natCast_add, Int.toNat_natCast]
  have : (b + 1) * W ≤ H * W := Nat.mul_le_mul_right W (by omega)
  rw [Nat.add_mul] at this
  rw [Nat.mul_comm W H]
  omega

theorem brute_inv (D : Dims) (len : Nat) (hl : len ≠ 0) (hs : D.w * D.h * 8 < 2 ^ 31) (hp : 0 < D.w) (l0 : Nat → Nat) (n : Nat) :
    ∃ st : (Nat → Nat) × (Nat → Px u), (List.range n).foldlM (bruteStep D len) (l0, fun _ => u.wrap 0) = some st ∧
      (n = 0 ∨ ∀ i < D.w * D.h, st.1 i ≤ D.w + D.h) ∧ ∀ i < D.w * D.h, ∃ k < D.w + D.h, st.2 i = u.wrap k := by
  induction n with
  | zero => exact ⟨_, rfl, .inl rfl, fun i _ => ⟨0, by omega, rfl⟩⟩
  | succ n ih =>
    obtain ⟨st, he, h1, h2⟩ := ih
    obtain ⟨f, hf, hsp⟩ := binaryPaths_spec D.w D.h (fun p => decide (st.1 (off2 D.w p) > n)) hs
    have hb : bruteStep D len st n = some (fun i => f (pt2 D.w i) % 2 ^ 16, fun i => if f (pt2 D.w i) % 2 ^ 16 ≥ len ∨ n = 0 then u.wrap n else st.2 i) := by
      unfold bruteStep
      rw [hf, Option.map_some]
    refine ⟨(fun i => f (pt2 D.w i) % 2 ^ 16, fun i => if f (pt2 D.w i) % 2 ^ 16 ≥ len ∨ n = 0 then u.wrap n else st.2 i), ?_, .inr ?_, ?_⟩
    · rw [List.range_succ, List.foldlM_append, he]
      simp only [Option.bind_eq_bind, Option.bind_some, List.foldlM_cons, List.foldlM_nil]
      rw [hb, Option.bind_some]
      rfl
    · intro i hi
      exact (Nat.mod_le _ _).trans (binaryPaths_le hsp (pt2_in hi))
    · intro i hi
      dsimp only
      by_cases hn : n < D.w + D.h
      · split
        · exact ⟨n, hn, rfl⟩
        · exact h2 i hi
      · have h0 : f (pt2 D.w i) = 0 := by
          by_contra hc
          obtain ⟨o, l, ⟨_, hl⟩, hm, _⟩ := (hsp _ (pt2_in hi) 0).mp (by omega)
          obtain ⟨hin, hgt⟩ := hl _ hm
          rw [decide_eq_true_eq] at hgt
          rcases h1 with h1 | h1
          · omega
          · have := h1 _ (off2_lt hin)
            omega
        rw [h0, if_neg (by simp; omega)]
        exact h2 i hi

/-- **C111, the grey path opening by thresholds**: `ImPathOpeningBruteForce` stores the lengths in the image that it thresholds at the next level. Whatever the image, the levels it gives are
less than `W + H`. -/
theorem C111_brute_bug (auto : Bool) (im : Img (Px t)) (len : Nat) (out : Img (Px u)) (ha : PathArgs auto im.dims out.dims) (hl : len ≠ 0) :
    ∃ r, brutePathOpening auto im len out = some (.ok r) ∧ r.dims = im.dims ∧ ∀ i < im.dims.count, ∃ k < im.dims.w + im.dims.h, r.buf i = u.wrap k := by
  have hc : im.dims.count = im.dims.w * im.dims.h := by
    unfold Dims.count
    rw [ha.plane, Nat.one_mul, Nat.mul_comm]
  have hw : 0 < im.dims.w := Nat.pos_of_ne_zero fun e => ha.alloc (by rw [hc, e, Nat.zero_mul])
  obtain ⟨st, he, _, h⟩ := brute_inv (u := u) im.dims len hl ha.int hw (fun i => (im.buf i).val.toNat % 2 ^ 16) 256
  refine ⟨⟨im.dims, st.2⟩, ?_, rfl, fun i hi => h i (by rw [← hc]; exact hi)⟩
  unfold brutePathOpening
  rw [checkOne_ok ha]
  simp only
  rw [if_pos ha.plane, he]
  rfl

/-- **C111**, for instance: four pixels of value 200 in a row form a path of four pixels at the level 200. The result is at most 4. -/
theorem C111_brute_row_bug :
    let im : Img (Px UINT8) := im8 ⟨4, 1, 1⟩ [200, 200, 200, 200]
    OnLongPath (AboveThr im 199) (0, 0) 4 ∧ ∃ r, brutePathOpening (u := UINT8) false im 4 im = some (.ok r) ∧ ∀ i < 4, (r.buf i).val ≤ 4 := by
  refine ⟨⟨1, [(0, 0), (1, 0), (2, 0), (3, 0)], ⟨?_, ?_⟩, by simp, by simp⟩, ?_⟩
  · simp only [List.isChain_cons_cons, PathStep]
    refine ⟨?_, ?_, ?_, List.isChain_singleton _⟩ <;> decide
  · intro p hp
    simp only [List.mem_cons, List.not_mem_nil, or_false] at hp
    rcases hp with rfl | rfl | rfl | rfl
    all_goals exact ⟨UINT8.wrap 200, by decide +kernel, by decide +kernel⟩
  · obtain ⟨r, h, _, hr⟩ := C111_brute_bug (u := UINT8) false (im8 ⟨4, 1, 1⟩ [200, 200, 200, 200]) 4 (im8 ⟨4, 1, 1⟩ [200, 200, 200, 200])
      ⟨by decide, rfl, .inl rfl, by decide, by decide⟩ (by decide)
    refine ⟨r, h, fun i hi => ?_⟩
    obtain ⟨k, hk, e⟩ := hr i (by simpa [im8, Dims.count] using hi)
    have hk' : k < 5 := hk
    rw [e, UINT8.wrap_of_mem (by simp [PT.lo, UINT8]) (by simp [PT.hi, UINT8]; omega)]
    omega

/-! ### The hypotheses hold on -/

/-- A bent path of four pixels is kept with the criterion 5, an isolated pixel is not. -/
example :
    let im : Img (Px UINT8) := im8 ⟨4, 3, 1⟩ [9, 0, 0, 0, 0, 9, 9, 9, 0, 0, 0, 0]
    PathArgs false im.dims im.dims ∧
      (binaryPathOpening (u := UINT8) false im 5 3 im).map (fun r => r.toOption.map fun r => (List.range 12).map fun i => (r.buf i).val) =
        some (some [255, 0, 0, 0, 0, 255, 255, 255, 0, 0, 0, 0]) ∧
      (binaryPathOpening (u := UINT8) false im 6 3 im).map (fun r => r.toOption.map fun r => (List.range 12).map fun i => (r.buf i).val) =
        some (some [0, 0, 0, 0, 0, 0, 0, 0, 0, 0, 0, 0]) :=
  ⟨⟨by decide, rfl, .inl rfl, by decide, by decide⟩, by decide +kernel, by decide +kernel⟩

end
end Smil
