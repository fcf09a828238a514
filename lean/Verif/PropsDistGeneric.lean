import Verif.DistGeneric
import Verif.PropsDistance
import Verif.PropsMorpho
import Verif.PropsLabel
import Verif.PropsMorphoAlgebra

/-!
# The generic distance (C50)
-/

namespace Smil
variable {t1 t2 : PT}

/-- A walk of `n` steps in the image, each from a pixel to one of its neighbours through the element. -/
inductive NbWalk (se : StrElt) (D : Dims) : Nat → IntPoint → IntPoint → Prop
  | nil (p) : Img.In D p → NbWalk se D 0 p p
  | snoc {n q c p} : NbWalk se D n q c → Img.In D p → seRel se c p → NbWalk se D (n + 1) q p

/-- The lengths of the walks from a zero pixel to `p`. -/
def walkLens (se : StrElt) (im : Img (Px t1)) (p : IntPoint) : Set Nat :=
  {n | ∃ q, IsZero im q ∧ NbWalk se im.dims n q p}

theorem NbWalk.in_right {se : StrElt} {D : Dims} {n : Nat} {q p : IntPoint} (h : NbWalk se D n q p) : Img.In D p := by
  cases h <;> assumption

theorem mem_genOffs {D : Dims} {se : StrElt} {q : IntPoint} (hq : Img.In D q) (n : Nat) :
    n ∈ genOffs D se (offOf D q) ↔ ∃ p, Img.In D p ∧ offOf D p = n ∧ seRel se q p := by
  unfold genOffs
  rw [List.mem_filterMap, coordPt_offOf hq]
  constructor
  · rintro ⟨b, hb, h⟩
    split_ifs at h with hin
    simp only [Option.some.injEq] at h
    refine ⟨_, hin, h, b, hb, ?_⟩
    have := hin
    unfold Img.In reachPt at this
    simp only at this
    exact phys_reachPt se q b this.2.2.1
  · rintro ⟨p, hp, rfl, b, hb, h⟩
    refine ⟨b, hb, ?_⟩
    have hy : q.y + b.y = p.y := by
      have := congrArg (fun t => t.2.1) h
      simpa [phys] using this
    have hyp : 0 ≤ q.y + b.y := by rw [hy]; unfold Img.In at hp; omega
    have e := phys_inj _ _ _ ((phys_reachPt se q b hyp).symm.trans h)
    rw [e, if_pos hp]

theorem gwalk_iff {D : Dims} {se : StrElt} {n : Nat} {q p : IntPoint} (hq : Img.In D q) (hp : Img.In D p) :
    GWalk (genOffs D se) n (offOf D q) (offOf D p) ↔ NbWalk se D n q p := by
  constructor
  · intro h
    generalize hz : offOf D q = z at h
    generalize hj : offOf D p = j at h
    induction h generalizing p with
    | nil =>
      have := offOf_inj hq hp (hz.trans hj.symm)
      subst this
      exact .nil q hq
    | @snoc n z c i hw hm ih =>
      have hc : c < D.count := by
        subst hz
        have : ∀ {n a b}, GWalk (genOffs D se) n a b → a < D.count → b < D.count := by
          intro n a b hw ha
          induction hw with
          | nil => exact ha
          | snoc _ hm ih =>
            obtain ⟨h1, h2⟩ := coordPt_in (ih ha)
            rw [← h2, mem_genOffs h1] at hm
            obtain ⟨p, hp, rfl, _⟩ := hm
            exact offOf_lt hp
        exact this hw (offOf_lt hq)
      obtain ⟨h1, h2⟩ := coordPt_in hc
      rw [← h2, mem_genOffs h1] at hm
      obtain ⟨p', hp', e, hr⟩ := hm
      have := offOf_inj hp' hp (e.trans hj.symm)
      subst this
      exact .snoc (ih h1 hz h2) hp' hr
  · intro h
    induction h with
    | nil => exact .nil _
    | snoc hw _ hr ih =>
      exact .snoc (ih hq hw.in_right) ((mem_genOffs hw.in_right _).mpr ⟨_, hp, rfl, hr⟩)

theorem genOffs_lt {D : Dims} {se : StrElt} : ∀ i < D.count, ∀ j ∈ genOffs D se i, j < D.count := by
  intro i hi j hj
  obtain ⟨h1, h2⟩ := coordPt_in hi
  rw [← h2, mem_genOffs h1] at hj
  obtain ⟨p, hp, rfl, _⟩ := hj
  exact offOf_lt hp

theorem zero_iff (hs : t1.signed = false) (u : Px t1) : decide (u > Px.zero) = false ↔ u.val = 0 := by
  have h1 := u.lo_le
  have h0 := lo_unsigned hs
  have h2 : u > Px.zero ↔ 0 < u.val := Iff.rfl
  rw [decide_eq_false_iff_not, h2]
  omega

theorem glens_eq (hs : t1.signed = false) {se : StrElt} {im : Img (Px t1)} {p : IntPoint} (hp : Img.In im.dims p) :
    GLens (genOffs im.dims se) im.dims.count (fun i => decide (im.buf i > Px.zero)) (offOf im.dims p) =
      walkLens se im p := by
  ext n
  constructor
  · rintro ⟨z, hz, hf, hw⟩
    obtain ⟨h1, h2⟩ := coordPt_in hz
    rw [← h2] at hf hw
    exact ⟨_, ⟨_, im.buf_offOf _ h1, (zero_iff hs _).mp hf⟩, (gwalk_iff h1 hp).mp hw⟩
  · rintro ⟨q, ⟨v, hv, h0⟩, hw⟩
    have hq := Img.at?_eq_some_in _ _ _ hv
    rw [im.buf_offOf q hq] at hv
    simp only [Option.some.injEq] at hv
    subst hv
    exact ⟨_, offOf_lt hq, (zero_iff hs _).mpr h0, (gwalk_iff hq hp).mpr hw⟩

/-- The seeds are the pixels at distance 1. -/
theorem genSeeds_spec (hs : t1.signed = false) (h1 : 1 ≤ t1.hi) (E : Env (Px t1)) (se : StrElt)
    (im : Img (Px t1)) (ha : im.dims.count ≠ 0) (hse : SEOk im.dims se) (hsize : se.size = 1)
    (hsym : ∀ p q, seRel se p q → seRel se q p) :
    ∃ s, genSeeds E se im = some (.ok s) ∧ s.dims = im.dims ∧ ∀ p, Img.In im.dims p →
      ((s.buf (offOf im.dims p)).val = 1 ∧ IsLeast (walkLens se im p) 1) ∨
      ((s.buf (offOf im.dims p)).val = 0 ∧ ¬ IsLeast (walkLens se im p) 1) := by
  set tmp : Img (Px t1) := ⟨im.dims, fun i => kInf (im.buf i) (t1.wrap 1)⟩ with htmp
  have htd : tmp.dims = im.dims := rfl
  have hal : tmp.alloc = true := by unfold Img.alloc; rw [htd]; simpa using ha
  have hlo := lo_unsigned hs
  have hw1 : (t1.wrap 1).val = 1 := t1.wrap_of_mem (by omega) h1
  obtain ⟨e, he, hero⟩ := C25_erode_partial E false se tmp ⟨im.dims, E.raw⟩
    (accepts_of_dims E hal rfl) (htd ▸ hse)
  rw [hsize] at hero
  obtain ⟨m, hm, hsame⟩ := hero
  have hed : e.dims = im.dims := hsame.1.symm.trans hm.1
  have htv : ∀ p, Img.In im.dims p → ∃ u, tmp.at? p = some u ∧
      ((u.val = 0 ∧ IsZero im p) ∨ (u.val = 1 ∧ ¬ IsZero im p)) := by
    intro p hp
    refine ⟨_, tmp.buf_offOf p hp, ?_⟩
    have hb := im.buf_offOf p hp
    simp only [htmp]
    have hl := (im.buf (offOf im.dims p)).lo_le
    unfold kInf
    have hlt : im.buf (offOf im.dims p) < t1.wrap 1 ↔ (im.buf (offOf im.dims p)).val < 1 := by
      rw [Px.lt_iff, hw1]
    by_cases hc : (im.buf (offOf im.dims p)).val < 1
    · rw [if_pos (hlt.mpr hc)]
      left
      exact ⟨by omega, _, hb, by omega⟩
    · rw [if_neg (fun h => hc (hlt.mp h))]
      right
      refine ⟨hw1, ?_⟩
      rintro ⟨v, hv, h0⟩
      rw [hb] at hv; simp only [Option.some.injEq] at hv
      subst hv; omega
  -- the subtraction
  have hsub : ∀ a b : Px t1, ∃ r, kSub a b = some r ∧ r.val = clampSpec t1.lo t1.hi (a.val - b.val) :=
    C06_sub_unsigned hs
  obtain ⟨s, hz⟩ := Img.zipK_total kSub tmp e hed
    (fun p u v _ _ => by obtain ⟨r, hr, _⟩ := hsub u v; rw [hr]; rfl)
  obtain ⟨hsd, hsv⟩ := Img.zipK_some kSub tmp e s hed hz
  have hsd' : s.dims = im.dims := hsd
  refine ⟨s, ?_, hsd', ?_⟩
  · unfold genSeeds
    simp only
    rw [← htmp, he]
    unfold andThen subImg guarded
    simp only [Option.bind_some]
    obtain ⟨o, ho, _⟩ := checkSize_ok E tmp tmp ⟨hal, hal, Or.inl rfl⟩
    rw [ho]; simp only; rw [hz]; rfl
  · intro p hp
    obtain ⟨u, hu, hcase⟩ := htv p hp
    obtain ⟨g, hg, hglb⟩ := hm.2 p hp
    have hge : e.at? p = some g := by rw [← hsame.2]; exact hg
    obtain ⟨r, hr, hrs⟩ := hsv p u g hu hge
    obtain ⟨r', hr', hrv⟩ := hsub u g
    rw [hr] at hr'; cases hr'
    have hsb := s.buf_offOf p (hsd' ▸ hp)
    rw [hrs, hsd'] at hsb
    simp only [Option.some.injEq] at hsb
    rw [← hsb]
    have hg0 := g.lo_le
    -- the erosion is zero if and only if there is a zero neighbour
    have hnb : g.val = 0 ↔ ∃ q, IsZero im q ∧ seRel se p q := by
      constructor
      · intro h0
        by_contra hno
        have : t1.wrap 1 ≤ g := by
          apply hglb.2
          rintro v ⟨q, b, hb, hph, hv⟩
          have hq := Img.at?_eq_some_in _ _ _ hv
          obtain ⟨u', hu', hc'⟩ := htv q hq
          rw [hv] at hu'; cases hu'
          rw [Px.le_iff, hw1]
          rcases hc' with ⟨_, hz'⟩ | ⟨h1', _⟩
          · exact absurd ⟨q, hz', b, hb, hph⟩ hno
          · omega
        rw [Px.le_iff, hw1] at this; omega
      · rintro ⟨q, hzq, b, hb, hph⟩
        obtain ⟨v, hv, h0⟩ := hzq
        have hq := Img.at?_eq_some_in _ _ _ hv
        obtain ⟨u', hu', hc'⟩ := htv q hq
        have : g ≤ u' := hglb.1 ⟨q, b, hb, hph, hu'⟩
        rw [Px.le_iff] at this
        rcases hc' with ⟨h0', _⟩ | ⟨_, hn⟩
        · omega
        · exact absurd ⟨v, hv, h0⟩ hn
    have hlvl : IsLeast (walkLens se im p) 1 ↔ (∃ q, IsZero im q ∧ seRel se p q) ∧ ¬ IsZero im p := by
      constructor
      · rintro ⟨⟨q, hq, hw⟩, hmin⟩
        cases hw with
        | snoc hw hp' hr =>
          cases hw
          refine ⟨⟨_, hq, hsym _ _ hr⟩, ?_⟩
          intro h0
          have := hmin ⟨p, h0, .nil p hp⟩
          omega
      · rintro ⟨⟨q, hq, hr⟩, hn⟩
        have hqi : Img.In im.dims q := by
          obtain ⟨v, hv, _⟩ := hq; exact Img.at?_eq_some_in _ _ _ hv
        refine ⟨⟨q, hq, .snoc (.nil q hqi) hp (hsym _ _ hr)⟩, ?_⟩
        rintro n ⟨q', hq', hw⟩
        rcases n with _ | n
        · cases hw; exact absurd hq' hn
        · omega
    rw [hlvl, ← hnb]
    unfold clampSpec at hrv
    rcases hcase with ⟨h0, hz0⟩ | ⟨h1', hnz⟩
    · right
      refine ⟨?_, fun h => h.2 hz0⟩
      split_ifs at hrv <;> omega
    · by_cases hg' : g.val = 0
      · left
        refine ⟨?_, hg', hnz⟩
        split_ifs at hrv <;> omega
      · right
        refine ⟨?_, fun h => hg' h.1⟩
        split_ifs at hrv <;> omega

/-- **C50** (partial): for a symmetric element of size 1 accepted by the erosion (see C25), an input of
unsigned type and an output type in which every distance fits, `distGeneric` gives at every pixel the length
of a shortest walk from a zero pixel, and 0 where no walk leads. -/
theorem C50_generic_partial (hs : t1.signed = false) (h1 : 1 ≤ t1.hi) (h2 : 1 ≤ t2.hi) (ht : incOk t2)
    (auto : Bool) (E : Env (Px t1)) (se : StrElt) (im : Img (Px t1)) (dout : Dims)
    (hok : checkDims auto im.dims dout = .ok ()) (hse : SEOk im.dims se) (hsize : se.size = 1)
    (hsym : ∀ p q, seRel se p q → seRel se q p)
    (hmax : ∀ p n, IsLeast (walkLens se im p) n → (n : Int) ≤ t2.hi) :
    ∃ r : Img (Px t2), distGeneric auto E se im dout = some (.ok r) ∧ r.dims = im.dims ∧
      ∀ p, Img.In im.dims p → ∃ v, r.at? p = some v ∧
        (∀ n, IsLeast (walkLens se im p) n → v.val = n) ∧ (walkLens se im p = ∅ → v.val = 0) := by
  have ha : im.dims.count ≠ 0 := by
    unfold checkDims at hok
    split_ifs at hok with h
    all_goals simp only [not_or] at h; exact h.1
  have hlo := t2.lo_le_zero
  obtain ⟨s, hs1, hsd, hsv⟩ := genSeeds_spec hs h1 E se im ha hse hsize hsym
  set fg : Nat → Bool := fun i => decide (im.buf i > Px.zero) with hfg
  set seed : Nat → Bool := fun i => decide (t2.wrap (s.buf i).val > Px.zero) with hseed
  set out : Nat → Px t2 := fun i => if seed i then t2.wrap 1 else t2.wrap (s.buf i).val with hout
  have hlv : ∀ i < im.dims.count, ∀ k, GLvl (genOffs im.dims se) im.dims.count fg k i ↔
      IsLeast (walkLens se im (coordPt im.dims i)) k := by
    intro i hi k
    obtain ⟨e1, e2⟩ := coordPt_in hi
    unfold GLvl
    conv_lhs => rw [← e2]
    rw [glens_eq hs e1]
  have hzz : (Px.zero : Px t2).val = 0 := rfl
  have hw1 : (t2.wrap 1).val = 1 := t2.wrap_of_mem (by omega) h2
  have hw0 : (t2.wrap 0).val = 0 := t2.wrap_of_mem (by omega) (by omega)
  have hseedv : ∀ i < im.dims.count,
      (seed i = true ∧ (out i).val = 1 ∧ GLvl (genOffs im.dims se) im.dims.count fg 1 i) ∨
      (seed i = false ∧ (out i).val = 0 ∧ ¬ GLvl (genOffs im.dims se) im.dims.count fg 1 i) := by
    intro i hi
    obtain ⟨e1, e2⟩ := coordPt_in hi
    rw [hlv i hi]
    rcases hsv _ e1 with ⟨h, hl⟩ | ⟨h, hl⟩ <;> rw [e2] at h
    · left
      have : seed i = true := by
        simp only [hseed, decide_eq_true_eq, h, gt_iff_lt, Px.lt_iff, hw1, hzz]; omega
      refine ⟨this, ?_, hl⟩
      simp only [hout, this, if_true, hw1]
    · right
      have : seed i = false := by
        simp only [hseed, decide_eq_false_iff_not, h, gt_iff_lt, Px.lt_iff, hw0, hzz]; omega
      refine ⟨this, ?_, hl⟩
      simp only [hout, this, h, hw0, Bool.false_eq_true, if_false]
  have inv : GenInv (genOffs im.dims se) im.dims.count fg 1 out ((List.range im.dims.count).filter seed) := by
    refine ⟨?_, ?_, ?_⟩
    · intro i hi j hj hl
      have : j = 0 ∨ j = 1 := by omega
      rcases this with rfl | rfl
      · rcases hseedv i hi with ⟨_, _, hl1⟩ | ⟨_, h0, _⟩
        · exact absurd (hl.unique hl1) (by omega)
        · rw [h0]; rfl
      · rcases hseedv i hi with ⟨_, h1', _⟩ | ⟨_, _, hn⟩
        · rw [h1']; rfl
        · exact absurd hl hn
    · intro i hi hno
      rcases hseedv i hi with ⟨_, _, hl1⟩ | ⟨_, h0, _⟩
      · exact absurd hl1 (hno 1 (le_refl _))
      · exact Px.ext h0
    · intro i
      rw [List.mem_filter, List.mem_range]
      constructor
      · rintro ⟨hi, hsd⟩
        rcases hseedv i hi with ⟨_, _, hl1⟩ | ⟨h0, _, _⟩
        · exact hl1
        · rw [h0] at hsd; cases hsd
      · intro hl
        have hi := hl.lt genOffs_lt
        rcases hseedv i hi with ⟨h, _, _⟩ | ⟨_, _, hn⟩
        · exact ⟨hi, h⟩
        · exact absurd hl hn
  obtain ⟨o, ho, hov⟩ := genLoop_spec ht genOffs_lt
    (fun i k hl => hmax _ k ((hlv i (hl.lt genOffs_lt) k).mp hl))
    (2 * im.dims.count + 2) 1 out ((List.range im.dims.count).filter seed) inv
    (by
      have := List.length_filter_le (fun i => decide (out i = Px.zero ∧ fg i = true)) (List.range im.dims.count)
      rw [List.length_range] at this
      omega)
  refine ⟨⟨im.dims, o⟩, ?_, rfl, ?_⟩
  · unfold distGeneric
    rw [hok]; simp only
    rw [hs1]; simp only [Option.bind_some]
    have e : (((1 : Nat) : Int) + 1) = 2 := by norm_num
    rw [e] at ho
    change (genLoop (genOffs im.dims se) fg (2 * im.dims.count + 2) (t2.wrap 2) out
        ((List.range im.dims.count).filter seed)).map _ = _
    rw [ho]; rfl
  · intro p hp
    refine ⟨_, Img.buf_offOf _ p hp, ?_⟩
    have hi := offOf_lt hp
    obtain ⟨h3, h4⟩ := hov _ hi
    have hl := hlv _ hi
    rw [coordPt_offOf hp] at hl
    constructor
    · intro n hn
      exact h3 n ((hl n).mpr hn)
    · intro hemp
      have := h4 fun k hk => by
        have := ((hl k).mp hk).1
        rw [hemp] at this; exact this
      exact congrArg Px.val this

/-- C50 for the function a user calls: every element of size 1 other than the cross, the 3D cross and the square
goes to `distGeneric`. -/
theorem C50_distance_partial (hs : t1.signed = false) (h1 : 1 ≤ t1.hi) (h2 : 1 ≤ t2.hi) (ht : incOk t2)
    (auto : Bool) (E : Env (Px t1)) (se : StrElt) (im : Img (Px t1)) (dout : Dims)
    (hok : checkDims auto im.dims dout = .ok ()) (hse : SEOk im.dims se) (hsize : se.size = 1)
    (hty : se.seT ≠ .cross ∧ se.seT ≠ .cross3D ∧ se.seT ≠ .squ)
    (hsym : ∀ p q, seRel se p q → seRel se q p)
    (hmax : ∀ p n, IsLeast (walkLens se im p) n → (n : Int) ≤ t2.hi) :
    ∃ r : Img (Px t2), distance auto E se im dout = some (.ok r) ∧ r.dims = im.dims ∧
      ∀ p, Img.In im.dims p → ∃ v, r.at? p = some v ∧
        (∀ n, IsLeast (walkLens se im p) n → v.val = n) ∧ (walkLens se im p = ∅ → v.val = 0) := by
  have e : distance (t2 := t2) auto E se im dout = distGeneric auto E se im dout := by
    unfold distance
    rw [if_neg (by omega)]
    cases h : se.seT <;> simp_all
  rw [e]
  exact C50_generic_partial hs h1 h2 ht auto E se im dout hok hse hsize hsym hmax

/-- C50, errors: an unallocated image or an output of another size that may not be resized is refused. -/
theorem C50_errors (E : Env (Px t1)) (se : StrElt) (auto : Bool) (im : Img (Px t1)) (dout : Dims) (c : Int)
    (h : checkDims auto im.dims dout = .error c) :
    distGeneric (t2 := t2) auto E se im dout = some (.error c) := by
  unfold distGeneric; rw [h]

/-- A hexagonal distance: the hypotheses of `C50_generic_partial` hold. -/
def exHex : Img (Px UINT8) := ⟨⟨3, 3, 1⟩, fun i => UINT8.wrap ([0, 9, 9, 9, 9, 9, 9, 9, 1].getD i 0)⟩

example : checkDims true exHex.dims ⟨3, 3, 1⟩ = .ok () ∧ seOk exHex.dims (HexSE 1) = true ∧
    (∀ b ∈ (HexSE 1).points, ∃ b' ∈ (HexSE 1).points, phys (HexSE 1).odd b + phys (HexSE 1).odd b' = 0) ∧
    distRows (distance (t2 := UINT16) true exEnv8 (HexSE 1) exHex ⟨3, 3, 1⟩) =
      some [[[0, 1, 2], [1, 2, 3], [2, 2, 3]]] := by decide +kernel

/-- In an image without zero pixel every distance comes out as zero. -/
theorem C50_no_zero_bug :
    distRows (distance (t2 := UINT8) true exEnv8 (HexSE 1) ⟨⟨3, 2, 1⟩, fun _ => UINT8.wrap 9⟩ ⟨3, 2, 1⟩) =
      some [[[0, 0, 0], [0, 0, 0]]] := by decide +kernel

/-- With an element of size 2 the erosion uses size 2 and the propagation size 1: the result `0 1 1 2 3` is neither
the distance for steps of length 1 (`0 1 2 3 4`) nor the one for steps of length 2 (`0 1 1 2 2`). -/
theorem C50_size_bug :
    let im : Img (Px UINT8) := ⟨⟨5, 2, 1⟩, fun i => UINT8.wrap (if i % 5 = 0 then 0 else 9)⟩
    distRows (distance (t2 := UINT8) true exEnv8 (SquSE 2) im im.dims) =
      some [[[0, 1, 1, 2, 3], [0, 1, 1, 2, 3]]] := by decide +kernel

end Smil
