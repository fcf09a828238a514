import Verif.LabelWithLemmas
import Verif.PropsBuild

/-!
# Labelling with a measure of each component (C84)
-/

namespace Smil
section
variable {t l u : PT}

/-- The value of a pixel as a number. -/
def numAt (im : Img (Px t)) (p : IntPoint) : Int := (im.at? p).elim 0 Px.val

theorem sum_numAt (im : Img (Px t)) (lab : Img (Px u)) (k : Px u) :
    (((blobPts lab k im).map Prod.fst).map (numAt im)).sum = ((blobVals lab k im).map Px.val).sum := by
  unfold blobVals
  rw [List.map_map, List.map_map]
  congr 1
  apply List.map_congr_left
  rintro ⟨p, w⟩ h
  have := ((mem_blobPts lab k im p w).mp h).1
  simp only [Function.comp_apply, numAt, this, Option.elim_some]

/-- **C84**, area: every pixel of a component of equal non-zero values gets the number of pixels of the component, the zeros stay zero. Asked for: fewer
components than the type can number, areas below the maximum of the type, one non-zero pixel at least. -/
theorem C84_area (auto : Bool) (raw : Nat → Px u) (dflt se : StrElt) (im : Img (Px t)) (dout : Dims)
    (hN : ∀ p q, seRel (execSe se) p q → seRel (execSe se) q p) (hM : 2 ≤ u.hi.toNat) (hacc : AcceptsD auto im.dims dout)
    (hnz : ∃ p a, im.at? p = some a ∧ a ≠ Px.zero)
    (reps : List IntPoint) (hreps : IsReps (seRel (execSe se)) (· = ·) (· ≠ Px.zero) im reps) (hn : reps.length < u.hi.toNat)
    (hfit : ∀ p a pts, im.at? p = some a → a ≠ Px.zero → IsComp (seRel (execSe se)) im p pts → (pts.length : Int) < u.hi) :
    ∃ out, labelWithArea auto raw dflt se im dout = some (0, some out) ∧ out.dims = im.dims ∧
      ∀ p a, im.at? p = some a → (a = Px.zero → out.at? p = some Px.zero) ∧
        (a ≠ Px.zero → ∃ w pts, IsComp (seRel (execSe se)) im p pts ∧ out.at? p = some w ∧ w.val = pts.length) := by
  obtain ⟨lab, h1, h2, -⟩ := labelWith_spec (v := u) auto raw dflt se im im dout
    (fun b => some ((blobsArea b).map fun e => (e.1, (e.2 : ℚ)))) (fun lab k => ((((blobPts lab k im).map Prod.fst).length : Nat) : ℚ))
    (fun lab hl => ⟨_, rfl, by
      have h := blobsArea_pts (u.wrap 0) true lab im hl.symm
      refine ⟨List.pairwise_map.mpr h.sorted, fun k s => ?_⟩
      rw [List.mem_map]
      constructor
      · rintro ⟨⟨k', n⟩, hm, he⟩
        cases he
        obtain ⟨e1, e2⟩ := (h.entries k' n).mp hm
        exact ⟨e1, by rw [e2]⟩
      · rintro ⟨e1, rfl⟩
        exact ⟨(k, _), (h.entries k _).mpr ⟨e1, rfl⟩, rfl⟩⟩) hN hM hacc rfl hnz reps hreps hn
  have hbd : ∀ p a k, im.at? p = some a → a ≠ Px.zero → lab.at? p = some k →
      ((((blobPts lab k im).map Prod.fst).length : Nat) : Int) < u.hi := by
    intro p a k ha hne hk
    exact hfit p a _ ha hne (blobPts_comp h1 im rfl ha hne hk)
  obtain ⟨out, o1, o2, o3⟩ := h2 (by
    intro p a k ha hne hk
    have hb := hbd p a k ha hne hk
    obtain ⟨w, hw, -⟩ := truncPx_int (v := u) (z := ((((blobPts lab k im).map Prod.fst).length : Nat) : Int)) (by have := u.lo_nonpos; omega) hb.le
    refine ⟨?_, ?_, w, by exact_mod_cast hw⟩
    · exact_mod_cast hb
    · exact_mod_cast hb.le)
  refine ⟨out, o1, o2, fun p a ha => ?_⟩
  have hin := im.at?_eq_some_in _ _ ha
  have hk := Img.buf_offOf lab p (by rw [h1.dims]; exact hin)
  have ho := o3 p a _ ha hk
  constructor
  · intro hz
    rw [ho, if_pos hz]
  · intro hz
    obtain ⟨w, hw, hwv⟩ := truncPx_int (v := u) (z := ((((blobPts lab (lab.buf (offOf lab.dims p)) im).map Prod.fst).length : Nat) : Int)) (by have := u.lo_nonpos; omega)
      (hbd p a _ ha hz hk).le
    refine ⟨w, _, blobPts_comp h1 im rfl ha hz hk, ?_, ?_⟩
    · rw [ho, if_neg hz]
      exact_mod_cast hw
    · exact hwv

/-- **C84**, volume: every pixel of a component gets the sum of the values of the measured image on the component. -/
theorem C84_volume (auto : Bool) (raw : Nat → Px u) (dflt se : StrElt) (im : Img (Px t)) (imL : Img (Px u)) (dout : Dims)
    (hN : ∀ p q, seRel (execSe se) p q → seRel (execSe se) q p) (hM : 2 ≤ u.hi.toNat) (hacc : AcceptsD auto im.dims dout)
    (hd : imL.dims = im.dims) (hnz : ∃ p a, imL.at? p = some a ∧ a ≠ Px.zero)
    (reps : List IntPoint) (hreps : IsReps (seRel (execSe se)) (· = ·) (· ≠ Px.zero) imL reps) (hn : reps.length < u.hi.toNat)
    (hfit : ∀ p a pts, imL.at? p = some a → a ≠ Px.zero → IsComp (seRel (execSe se)) imL p pts →
      u.lo ≤ (pts.map (numAt im)).sum ∧ (pts.map (numAt im)).sum < u.hi) :
    ∃ out, labelWithVolume auto raw dflt se im imL dout = some (0, some out) ∧ out.dims = im.dims ∧
      ∀ p a, imL.at? p = some a → (a = Px.zero → out.at? p = some Px.zero) ∧
        (a ≠ Px.zero → ∃ w pts, IsComp (seRel (execSe se)) imL p pts ∧ out.at? p = some w ∧ w.val = (pts.map (numAt im)).sum) := by
  obtain ⟨lab, h1, h2, -⟩ := labelWith_spec (v := u) auto raw dflt se im imL dout
    (fun b => (blobMeasure volFn im b).map fun r => r.map fun e => (e.1, (e.2 : ℚ)))
    (fun lab k => ((((blobVals lab k im).map Px.val).sum : Int) : ℚ))
    (fun lab hl => by
      obtain ⟨res, r1, h⟩ := C19_blobsVolume (u.wrap 0) true lab im hl.symm
      refine ⟨_, by rw [r1]; rfl, List.pairwise_map.mpr h.sorted, fun k s => ?_⟩
      rw [List.mem_map]
      constructor
      · rintro ⟨⟨k', n⟩, hm, he⟩
        cases he
        obtain ⟨e1, e2⟩ := (h.entries k' n).mp hm
        exact ⟨e1, by rw [e2]⟩
      · rintro ⟨e1, rfl⟩
        exact ⟨(k, _), (h.entries k _).mpr ⟨e1, rfl⟩, rfl⟩) hN hM hacc hd hnz reps hreps hn
  have hbd : ∀ p a k, imL.at? p = some a → a ≠ Px.zero → lab.at? p = some k →
      u.lo ≤ ((blobVals lab k im).map Px.val).sum ∧ ((blobVals lab k im).map Px.val).sum < u.hi := by
    intro p a k ha hne hk
    rw [← sum_numAt]
    exact hfit p a _ ha hne (blobPts_comp h1 im hd.symm ha hne hk)
  obtain ⟨out, o1, o2, o3⟩ := h2 (by
    intro p a k ha hne hk
    obtain ⟨hb1, hb2⟩ := hbd p a k ha hne hk
    obtain ⟨w, hw, -⟩ := truncPx_int (v := u) hb1 hb2.le
    exact ⟨by exact_mod_cast hb2, by exact_mod_cast hb2.le, w, hw⟩)
  refine ⟨out, o1, o2, fun p a ha => ?_⟩
  have hin := imL.at?_eq_some_in _ _ ha
  have hk := Img.buf_offOf lab p (by rw [h1.dims]; exact hin)
  have ho := o3 p a _ ha hk
  constructor
  · intro hz
    rw [ho, if_pos hz]
  · intro hz
    obtain ⟨hb1, hb2⟩ := hbd p a _ ha hz hk
    obtain ⟨w, hw, hwv⟩ := truncPx_int (v := u) hb1 hb2.le
    refine ⟨w, _, blobPts_comp h1 im hd.symm ha hz hk, ?_, ?_⟩
    · rw [ho, if_neg hz]
      exact hw
    · rw [hwv, sum_numAt]

/-- **C84**, maxima: every pixel of a component gets the greatest value of the measured image on the component. -/
theorem C84_maxima (auto : Bool) (raw : Nat → Px u) (dflt se : StrElt) (im : Img (Px t)) (imL : Img (Px u)) (dout : Dims)
    (hN : ∀ p q, seRel (execSe se) p q → seRel (execSe se) q p) (hM : 2 ≤ u.hi.toNat) (hacc : AcceptsD auto im.dims dout)
    (hd : imL.dims = im.dims) (hnz : ∃ p a, imL.at? p = some a ∧ a ≠ Px.zero)
    (reps : List IntPoint) (hreps : IsReps (seRel (execSe se)) (· = ·) (· ≠ Px.zero) imL reps) (hn : reps.length < u.hi.toNat)
    (hfit : ∀ p a w, imL.at? p = some a → a ≠ Px.zero → im.at? p = some w → u.lo ≤ w.val ∧ w.val < u.hi) :
    ∃ out, labelWithMaxima auto raw dflt se im imL dout = some (0, some out) ∧ out.dims = im.dims ∧
      ∀ p a, imL.at? p = some a → (a = Px.zero → out.at? p = some Px.zero) ∧
        (a ≠ Px.zero → ∃ w, out.at? p = some w ∧
          IsGreatest {x : Int | ∃ q b, FlatPath (seRel (execSe se)) imL p q ∧ im.at? q = some b ∧ b.val = x} w.val) := by
  have hmx : ∀ lab : Img (Px u), lab.dims = im.dims → ∃ hi : Px u → Px t,
      (∃ res, blobMeasure maxFn im (computeBlobs (u.wrap 0) true lab) = some res ∧ IsPerBlob (u.wrap 0) true lab hi res) ∧
      ∀ k p, lab.at? p = some k → IsGreatest {v | v ∈ blobVals lab k im} (hi k) := by
    intro lab hl
    obtain ⟨lo, hi, -, h1, -, h2⟩ := C19_blobsExtremes (u.wrap 0) true lab im hl.symm
    exact ⟨hi, h1, fun k p hp => (h2 k p hp).2⟩
  classical
  let G : Img (Px u) → Px u → Px t := fun lab => if h : lab.dims = im.dims then (hmx lab h).choose else fun _ => ⊥
  have hG : ∀ lab : Img (Px u), lab.dims = im.dims →
      (∃ res, blobMeasure maxFn im (computeBlobs (u.wrap 0) true lab) = some res ∧ IsPerBlob (u.wrap 0) true lab (G lab) res) ∧
      ∀ k p, lab.at? p = some k → IsGreatest {v | v ∈ blobVals lab k im} (G lab k) := by
    intro lab hl
    have e : G lab = (hmx lab hl).choose := dif_pos hl
    rw [e]
    exact (hmx lab hl).choose_spec
  obtain ⟨lab, h1, h2, -⟩ := labelWith_spec (v := u) auto raw dflt se im imL dout
    (fun b => (blobMeasure maxFn im b).map fun r => r.map fun e => (e.1, (e.2.val : ℚ)))
    (fun lab k => (((G lab k).val : Int) : ℚ))
    (fun lab hl => by
      obtain ⟨⟨res, r1, h⟩, -⟩ := hG lab hl
      refine ⟨_, by rw [r1]; rfl, List.pairwise_map.mpr h.sorted, fun k s => ?_⟩
      rw [List.mem_map]
      constructor
      · rintro ⟨⟨k', n⟩, hm, he⟩
        cases he
        obtain ⟨e1, e2⟩ := (h.entries k' n).mp hm
        exact ⟨e1, by rw [e2]⟩
      · rintro ⟨e1, rfl⟩
        exact ⟨(k, _), (h.entries k _).mpr ⟨e1, rfl⟩, rfl⟩) hN hM hacc hd hnz reps hreps hn
  have hgr := (hG lab (h1.dims.trans hd)).2
  have hbd : ∀ p a k, imL.at? p = some a → a ≠ Px.zero → lab.at? p = some k → u.lo ≤ (G lab k).val ∧ (G lab k).val < u.hi := by
    intro p a k ha hne hk
    obtain ⟨q, hq, hqk⟩ := (mem_blobVals _ _ _ _).mp (hgr k p hk).1
    have hqa := imL.buf_offOf q (by rw [← h1.dims]; exact lab.at?_eq_some_in _ _ hqk)
    refine hfit q _ _ hqa (fun h0 => ?_) hq
    exact hne ((h1.zero p a k ha hk).mp ((h1.zero q _ k hqa hqk).mpr h0))
  obtain ⟨out, o1, o2, o3⟩ := h2 (by
    intro p a k ha hne hk
    obtain ⟨hb1, hb2⟩ := hbd p a k ha hne hk
    obtain ⟨w, hw, -⟩ := truncPx_int (v := u) hb1 hb2.le
    exact ⟨by exact_mod_cast hb2, by exact_mod_cast hb2.le, w, hw⟩)
  refine ⟨out, o1, o2, fun p a ha => ?_⟩
  have hin := imL.at?_eq_some_in _ _ ha
  have hk := Img.buf_offOf lab p (by rw [h1.dims]; exact hin)
  have ho := o3 p a _ ha hk
  constructor
  · intro hz
    rw [ho, if_pos hz]
  · intro hz
    obtain ⟨hb1, hb2⟩ := hbd p a _ ha hz hk
    obtain ⟨w, hw, hwv⟩ := truncPx_int (v := u) hb1 hb2.le
    refine ⟨w, by rw [ho, if_neg hz]; exact hw, ?_⟩
    rw [hwv]
    have hg := hgr _ p hk
    constructor
    · obtain ⟨q, hq, hqk⟩ := (mem_blobVals _ _ _ _).mp hg.1
      exact ⟨q, _, (h1.comp p a _ ha hz hk q).mp hqk, hq, rfl⟩
    · rintro x ⟨q, b, hf, hb, rfl⟩
      exact hg.2 ((mem_blobVals _ _ _ _).mpr ⟨q, hb, (h1.comp p a _ ha hz hk q).mpr hf⟩)

/-- **C84**, means: every pixel of a component gets the mean of the values of the measured image on the component, without its fraction. The means have to
be below the maximum of the type of the labels, which is not that of the output. -/
theorem C84_mean (auto : Bool) (raw : Nat → Px u) (dflt se : StrElt) (im : Img (Px t)) (imL : Img (Px u)) (dout : Dims)
    (hN : ∀ p q, seRel (execSe se) p q → seRel (execSe se) q p) (hM : 2 ≤ u.hi.toNat) (hacc : AcceptsD auto im.dims dout)
    (hd : imL.dims = im.dims) (hnz : ∃ p a, imL.at? p = some a ∧ a ≠ Px.zero)
    (reps : List IntPoint) (hreps : IsReps (seRel (execSe se)) (· = ·) (· ≠ Px.zero) imL reps) (hn : reps.length < u.hi.toNat)
    (hfit : ∀ p a pts, imL.at? p = some a → a ≠ Px.zero → IsComp (seRel (execSe se)) imL p pts →
      (pts.map (numAt im)).sum < u.hi * pts.length) :
    ∃ out, labelWithMean auto raw dflt se im imL dout = some (0, some out) ∧ out.dims = im.dims ∧
      ∀ p a, imL.at? p = some a → (a = Px.zero → out.at? p = some Px.zero) ∧
        (a ≠ Px.zero → ∃ w pts, IsComp (seRel (execSe se)) imL p pts ∧ out.at? p = some w ∧
          w.val = Int.tdiv (pts.map (numAt im)).sum pts.length) := by
  have key : ∀ (l : List (Px t)) (s : Nat × Int × Int),
      (l.foldl (fun s v => (s.1 + 1, s.2.1 + v.val, s.2.2 + v.val * v.val)) s).1 = s.1 + l.length ∧
      (l.foldl (fun s v => (s.1 + 1, s.2.1 + v.val, s.2.2 + v.val * v.val)) s).2.1 = s.2.1 + (l.map Px.val).sum := by
    intro l
    induction l with
    | nil => intro s; simp
    | cons a l ih =>
      intro s
      rw [List.foldl_cons]
      obtain ⟨i1, i2⟩ := ih (s.1 + 1, s.2.1 + a.val, s.2.2 + a.val * a.val)
      rw [i1, i2]
      simp only [List.length_cons, List.map_cons, List.sum_cons]
      constructor
      · omega
      · ring
  let Q : Img (Px u) → Px u → ℚ := fun lab k =>
    if (blobVals lab k im).length = 0 then 0 else ((((blobVals lab k im).map Px.val).sum : Int) : ℚ) / (((blobVals lab k im).length : Nat) : ℚ)
  obtain ⟨lab, h1, h2, -⟩ := labelWith_spec (v := t) auto raw dflt se im imL dout
    (fun b => (blobMeasure meanFn im b).map fun r => r.map fun e => (e.1, if e.2.1 = 0 then 0 else (e.2.2.1 : ℚ) / (e.2.1 : ℚ)))
    Q
    (fun lab hl => by
      obtain ⟨res, r1, h⟩ := C19_measure (u.wrap 0) true lab im hl.symm meanFn _ (fun s l _ => rfl)
      refine ⟨_, by rw [r1]; rfl, List.pairwise_map.mpr h.sorted, fun k s => ?_⟩
      rw [List.mem_map]
      have hQ : ∀ k n, n = ((blobPts lab k im).map Prod.snd).foldl (fun s v => (s.1 + 1, s.2.1 + v.val, s.2.2 + v.val * v.val)) (meanFn (t := t)).init →
          (if n.1 = 0 then 0 else (n.2.1 : ℚ) / (n.1 : ℚ)) = Q lab k := by
        rintro k n rfl
        obtain ⟨k1, k2⟩ := key ((blobPts lab k im).map Prod.snd) (meanFn (t := t)).init
        rw [k1, k2]
        simp only [Q, blobVals, meanFn, Nat.zero_add, zero_add]
        rfl
      constructor
      · rintro ⟨⟨k', n⟩, hm, he⟩
        cases he
        obtain ⟨e1, e2⟩ := (h.entries k' n).mp hm
        exact ⟨e1, hQ _ _ e2⟩
      · rintro ⟨e1, rfl⟩
        exact ⟨(k, _), (h.entries k _).mpr ⟨e1, rfl⟩, Prod.ext rfl (hQ _ _ rfl)⟩) hN hM hacc hd hnz reps hreps hn
  have hlenv : ∀ k, (blobVals lab k im).length = ((blobPts lab k im).map Prod.fst).length := by
    intro k
    unfold blobVals
    rw [List.length_map, List.length_map]
  have hpos : ∀ p k, lab.at? p = some k → 0 < (blobVals lab k im).length := by
    intro p k hk
    apply List.length_pos_of_mem
    exact (mem_blobVals _ _ _ _).mpr ⟨p, im.buf_offOf p (by rw [← hd, ← h1.dims]; exact lab.at?_eq_some_in _ _ hk), hk⟩
  have hrange : ∀ l : List (Px t), t.lo * l.length ≤ (l.map Px.val).sum ∧ (l.map Px.val).sum ≤ t.hi * l.length := by
    intro l
    induction l with
    | nil => simp
    | cons a l ih =>
      have h1 := a.lo_le
      have h2 := a.le_hi
      simp only [List.map_cons, List.sum_cons, List.length_cons]
      push_cast
      constructor
      · nlinarith [ih.1]
      · nlinarith [ih.2]
  have htd : ∀ p k, lab.at? p = some k →
      t.lo ≤ Int.tdiv ((blobVals lab k im).map Px.val).sum (blobVals lab k im).length ∧
      Int.tdiv ((blobVals lab k im).map Px.val).sum (blobVals lab k im).length ≤ t.hi := by
    intro p k hk
    have hp := hpos p k hk
    obtain ⟨g1, g2⟩ := hrange (blobVals lab k im)
    generalize ((blobVals lab k im).map Px.val).sum = z at *
    generalize (blobVals lab k im).length = n at *
    have hn0 : (0 : Int) < n := by exact_mod_cast hp
    have hl0 := t.lo_nonpos
    have hh0 := t.hi_nonneg
    by_cases hz : 0 ≤ z
    · rw [Int.tdiv_eq_ediv_of_nonneg hz]
      exact ⟨le_trans hl0 (Int.ediv_nonneg hz hn0.le), Int.ediv_le_of_le_mul hn0 g2⟩
    · have e : Int.tdiv z n = -((-z) / n) := by
        rw [← Int.tdiv_eq_ediv_of_nonneg (by omega : 0 ≤ -z), Int.neg_tdiv, neg_neg]
      rw [e]
      have a1 : (-z) / (n : Int) ≤ -t.lo := Int.ediv_le_of_le_mul hn0 (by nlinarith)
      have a2 : 0 ≤ (-z) / (n : Int) := Int.ediv_nonneg (by omega) hn0.le
      omega
  have hQ : ∀ p k, lab.at? p = some k → Q lab k = ((((blobVals lab k im).map Px.val).sum : Int) : ℚ) / (((blobVals lab k im).length : Nat) : ℚ) := by
    intro p k hk
    exact if_neg (by have := hpos p k hk; omega)
  obtain ⟨out, o1, o2, o3⟩ := h2 (by
    intro p a k ha hne hk
    have hp := hpos p k hk
    have hp' : (0 : ℚ) < ((blobVals lab k im).length : Nat) := by exact_mod_cast hp
    obtain ⟨b1, b2⟩ := htd p k hk
    obtain ⟨w, hw, -⟩ := truncPx_div (v := t) hp b1 b2
    rw [hQ p k hk]
    refine ⟨?_, ?_, w, hw⟩
    · rw [div_lt_iff₀ hp']
      have := hfit p a _ ha hne (blobPts_comp h1 im hd.symm ha hne hk)
      rw [sum_numAt, ← hlenv] at this
      exact_mod_cast this
    · rw [div_le_iff₀ hp']
      exact_mod_cast (hrange (blobVals lab k im)).2)
  refine ⟨out, o1, o2, fun p a ha => ?_⟩
  have hin := imL.at?_eq_some_in _ _ ha
  have hk := Img.buf_offOf lab p (by rw [h1.dims]; exact hin)
  have ho := o3 p a _ ha hk
  constructor
  · intro hz
    rw [ho, if_pos hz]
  · intro hz
    obtain ⟨b1, b2⟩ := htd p _ hk
    obtain ⟨w, hw, hwv⟩ := truncPx_div (v := t) (hpos p _ hk) b1 b2
    refine ⟨w, _, blobPts_comp h1 im hd.symm ha hz hk, ?_, ?_⟩
    · rw [ho, if_neg hz, hQ p _ hk]
      exact hw
    · rw [hwv, sum_numAt, ← hlenv]

/-- **C84**, nothing to label: an image of labels without a non-zero pixel makes the functions return `RES_ERR`, which as a `size_t` is
neither zero nor a number of labels, and leaves the output as it was. -/
theorem C84_blank (auto : Bool) (raw : Nat → Px u) (dflt se : StrElt) (im : Img (Px t)) (imL : Img (Px u)) (dout : Dims)
    (hN : ∀ p q, seRel (execSe se) p q → seRel (execSe se) q p) (hM : 2 ≤ u.hi.toNat) (hacc : AcceptsD auto im.dims dout)
    (hd : imL.dims = im.dims) (hz : ∀ p a, imL.at? p = some a → a = Px.zero) :
    labelWithVolume auto raw dflt se im imL dout = some (-100, none) ∧ labelWithMaxima auto raw dflt se im imL dout = some (-100, none) ∧
    labelWithMean auto raw dflt se im imL dout = some (-100, none) := by
  have hacc' : AcceptsD auto imL.dims im.dims := ⟨by rw [hd]; exact hacc.1, hacc.1, Or.inl hd.symm⟩
  obtain ⟨n, lab, l1, l2, ⟨reps, l3, l4⟩, -, -⟩ := C39_label auto u.hi.toNat dflt se imL im.dims hN hM hacc'
  have hn : n = 0 := by
    rw [← l4, List.length_eq_zero_iff]
    by_contra hne
    obtain ⟨r, hr⟩ := List.exists_mem_of_ne_nil _ hne
    obtain ⟨a, ha, hna⟩ := l3.kept r hr
    exact hna (hz r a ha)
  subst hn
  have key : ∀ (v : PT) (meas : BlobMap (Px u) → Option (List (Px u × ℚ))),
      labelWith v auto raw dflt se im imL dout meas = some (-100, none) := by
    intro v meas
    unfold labelWith
    rw [checkDims_ok hacc]
    simp only [l1, Option.bind_some]
    rw [if_pos (show labelRet (.ok (0, lab)) = 0 from rfl)]
  exact ⟨key _ _, key _ _, key _ _⟩

/-- **C84**, refusals: images that are not allocated or, without automatic resizing, an output of another size. -/
theorem C84_refused (auto : Bool) (raw : Nat → Px u) (dflt se : StrElt) (im : Img (Px t)) (imL : Img (Px u)) (dout : Dims) (c : Int)
    (hc : (c = -99 ∧ (im.dims.count = 0 ∨ dout.count = 0)) ∨
      (c = -98 ∧ im.dims.count ≠ 0 ∧ dout.count ≠ 0 ∧ dout ≠ im.dims ∧ auto = false)) :
    labelWithArea auto raw dflt se im dout = some (c, none) ∧ labelWithVolume auto raw dflt se im imL dout = some (c, none) ∧
    labelWithMaxima auto raw dflt se im imL dout = some (c, none) ∧ labelWithMean auto raw dflt se im imL dout = some (c, none) := by
  have hcd : checkDims auto im.dims dout = .error c := by
    unfold checkDims
    rcases hc with ⟨rfl, h⟩ | ⟨rfl, h1, h2, h3, h4⟩
    · rw [if_pos h]; rfl
    · rw [if_neg (by tauto), if_neg h3, h4]; rfl
  unfold labelWithArea labelWithVolume labelWithMaxima labelWithMean labelWith
  simp only [hcd, and_self]

end

/-! ### Hypotheses are met; where the code departs from the claim -/

/-- What is returned, and the pixels of the output. -/
def retVals {u : PT} : Option (Int × Option (Img (Px u))) → Option (Int × Option (List Int))
  | none => none
  | some (c, o) => some (c, o.map fun i => (List.range i.dims.count).map fun j => (i.buf j).val)

/-- Two components of value 5 and one of value 2: three areas. -/
example : retVals (labelWithArea (u := UINT8) false (fun _ => UINT8.wrap 77) (SquSE 1) (SquSE 1) (im8 ⟨5, 2, 1⟩ [5, 0, 2, 0, 5, 5, 0, 2, 0, 5])
    ⟨5, 2, 1⟩) = some (0, some [2, 0, 2, 0, 2, 2, 0, 2, 0, 2]) := by decide +kernel

example : retVals (labelWithMean (u := UINT8) false (fun _ => UINT8.wrap 77) (SquSE 1) (SquSE 1) (im8 ⟨4, 1, 1⟩ [1, 8, 3, 4])
    (im8 ⟨4, 1, 1⟩ [1, 1, 0, 7]) ⟨4, 1, 1⟩) = some (0, some [4, 4, 0, 4]) := by decide +kernel

/-- The hypotheses of `C84_area`: one component of three pixels. -/
example : (∀ p q, seRel (execSe (SquSE 1)) p q → seRel (execSe (SquSE 1)) q p) ∧ 2 ≤ UINT8.hi.toNat ∧
    AcceptsD false (im8 ⟨3, 1, 1⟩ [5, 5, 5]).dims ⟨3, 1, 1⟩ :=
  ⟨seRel_symm_Squ, by decide, by unfold AcceptsD; decide⟩

/-- **C84**, what is returned: the documentation says the number of labels, or zero for an error. Two components are labelled and zero is returned, as
when the result is refused. -/
theorem C84_return_bug :
    retVals (labelWithArea (u := UINT8) false (fun _ => UINT8.wrap 77) (SquSE 1) (SquSE 1) (im8 ⟨3, 1, 1⟩ [5, 0, 5]) ⟨3, 1, 1⟩) =
      some (0, some [1, 0, 1]) ∧
    labelRet <$> label false 255 false (SquSE 1) (SquSE 1) (im8 ⟨3, 1, 1⟩ [5, 0, 5]) ⟨3, 1, 1⟩ = some 2 := by
  constructor <;> decide +kernel

/-- **C84**, the maximum of the type is refused although it fits: a component with a pixel of value 255. -/
theorem C84_max_bug :
    retVals (labelWithMaxima (u := UINT8) false (fun _ => UINT8.wrap 77) (SquSE 1) (SquSE 1) (im8 ⟨2, 1, 1⟩ [255, 3]) (im8 ⟨2, 1, 1⟩ [1, 0]) ⟨2, 1, 1⟩) =
      some (0, none) ∧
    retVals (labelWithMaxima (u := UINT8) false (fun _ => UINT8.wrap 77) (SquSE 1) (SquSE 1) (im8 ⟨2, 1, 1⟩ [254, 3]) (im8 ⟨2, 1, 1⟩ [1, 0]) ⟨2, 1, 1⟩) =
      some (0, some [254, 0]) := by
  constructor <;> decide +kernel

/-- **C84**, means are compared with the maximum of the labels, not of the output: a mean of 300 in a `UINT16` image is refused with `UINT8` labels. -/
theorem C84_mean_bug :
    retVals (labelWithMean (t := UINT16) (u := UINT8) false (fun _ => UINT8.wrap 77) (SquSE 1) (SquSE 1) ⟨⟨2, 1, 1⟩, fun _ => UINT16.wrap 300⟩
      (im8 ⟨2, 1, 1⟩ [1, 0]) ⟨2, 1, 1⟩) = some (0, none) ∧
    retVals (labelWithMean (t := UINT16) (u := UINT8) false (fun _ => UINT8.wrap 77) (SquSE 1) (SquSE 1) ⟨⟨2, 1, 1⟩, fun _ => UINT16.wrap 200⟩
      (im8 ⟨2, 1, 1⟩ [1, 0]) ⟨2, 1, 1⟩) = some (0, some [200, 0]) := by
  constructor <;> decide +kernel

/-- **C84**, an image of labels of another size, without automatic resizing: `label` refuses it, its error code passes for a number of labels, and the
measure is taken on whatever the new image of labels holds. -/
theorem C84_size_bug :
    labelRet <$> label false 255 false (SquSE 1) (SquSE 1) (im8 ⟨3, 1, 1⟩ [1, 0, 0]) ⟨2, 1, 1⟩ = some (2 ^ 64 - 98) ∧
    retVals (labelWithVolume (u := UINT8) false (fun _ => UINT8.wrap 77) (SquSE 1) (SquSE 1) (im8 ⟨2, 1, 1⟩ [3, 4]) (im8 ⟨3, 1, 1⟩ [1, 0, 0]) ⟨2, 1, 1⟩) =
      some (0, some [7, 7]) ∧
    retVals (labelWithVolume (u := UINT8) false (fun i => UINT8.wrap i) (SquSE 1) (SquSE 1) (im8 ⟨2, 1, 1⟩ [3, 4]) (im8 ⟨3, 1, 1⟩ [1, 0, 0]) ⟨2, 1, 1⟩) =
      some (0, some [0, 4]) := by
  refine ⟨?_, ?_, ?_⟩ <;> decide +kernel

/-- **C84**, the same with automatic resizing: the labels take the size of the larger image, and the measured image is read outside of its buffer. -/
theorem C84_bounds_bug :
    retVals (labelWithVolume (u := UINT8) true (fun _ => UINT8.wrap 77) (SquSE 1) (SquSE 1) (im8 ⟨2, 1, 1⟩ [3, 4]) (im8 ⟨3, 1, 1⟩ [1, 1, 1]) ⟨2, 1, 1⟩) =
      none := by
  decide +kernel

end Smil
