import Verif.LabelWith
import Verif.PropsBlobMeasures

/-!
# Labelling with a measure: what the four functions share
-/

namespace Smil
section
variable {t l u v : PT}

theorem labReps_length {N : IntPoint → IntPoint → Prop} {α : Type} {keep : α → Prop} {im : Img α} (hN : ∀ p q, N p q → N q p)
    {r r' : List IntPoint} (hr : IsReps N (· = ·) keep im r) (hr' : IsReps N (· = ·) keep im r') : r.length = r'.length := by
  have hs : ∀ p q, LinkPath N (· = ·) im p q → LinkPath N (· = ·) im q p :=
    fun p q hpq => hpq.symm hN fun _ _ h => h.symm
  have hmem : ∀ (r r' : List IntPoint), IsReps N (· = ·) keep im r → IsReps N (· = ·) keep im r' → ∀ p ∈ r, p ∈ r' := by
    intro r r' hr hr' p hp
    obtain ⟨a, ha, hka⟩ := hr.kept p hp
    obtain ⟨q, hq, hqp⟩ := hr'.all p a ha hka
    obtain ⟨b, hb, hkb⟩ := hr'.kept q hq
    have h1 := hr'.first q hq p a ha hka hqp
    have h2 := hr.first p hp q b hb hkb (hs _ _ hqp)
    have := offOf_inj (im.at?_eq_some_in _ _ ha) (im.at?_eq_some_in _ _ hb) (by omega)
    rw [this]; exact hq
  have hnd : ∀ (r : List IntPoint), IsReps N (· = ·) keep im r → r.Nodup := by
    intro r hr
    refine hr.apart.imp ?_
    rintro p q ⟨hlt, -⟩ rfl
    omega
  exact ((List.perm_ext_iff_of_nodup (hnd _ hr) (hnd _ hr')).mpr
    fun p => ⟨hmem _ _ hr hr' p, hmem _ _ hr' hr p⟩).length_eq

/-- The labels as pixels: zero on the zeros, and the same label exactly on the component. -/
structure IsPxLab (N : IntPoint → IntPoint → Prop) (imL : Img (Px l)) (lab : Img (Px u)) : Prop where
  dims : lab.dims = imL.dims
  zero : ∀ p a k, imL.at? p = some a → lab.at? p = some k → (k = Px.zero ↔ a = Px.zero)
  comp : ∀ p a k, imL.at? p = some a → a ≠ Px.zero → lab.at? p = some k → ∀ q, lab.at? q = some k ↔ FlatPath N imL p q

theorem labPx_spec (auto : Bool) (dflt se : StrElt) (imL : Img (Px l)) (dout : Dims)
    (hN : ∀ p q, seRel (execSe se) p q → seRel (execSe se) q p) (hM : 2 ≤ u.hi.toNat) (hacc : AcceptsD auto imL.dims dout)
    (reps : List IntPoint) (hreps : IsReps (seRel (execSe se)) (· = ·) (· ≠ Px.zero) imL reps) (hn : reps.length < u.hi.toNat) :
    ∃ out, label auto u.hi.toNat false dflt se imL dout = some (.ok (reps.length, out)) ∧
      IsPxLab (seRel (execSe se)) imL (⟨out.dims, fun i => u.wrap (out.buf i)⟩ : Img (Px u)) := by
  obtain ⟨n, lab, l1, l2, ⟨reps', l3, l4⟩, l5, l6⟩ := C39_label auto u.hi.toNat dflt se imL dout hN hM hacc
  have hlen := labReps_length hN l3 hreps
  have hlab := l6 (by omega)
  refine ⟨lab, by rw [l1, ← hlen, l4], ?_⟩
  have hle : ∀ q k, lab.at? q = some k → k ≤ n := by
    intro q k hq
    by_cases hk : k = 0
    · omega
    · exact ((hlab.labels k).mpr ⟨hk, q, hq⟩).2
  have hval : ∀ q k, lab.at? q = some k → (u.wrap (k : Int)).val = k := by
    intro q k hq
    have := hle q k hq
    have := u.lo_nonpos
    have := u.hi_nonneg
    exact u.wrap_of_mem (by omega) (by omega)
  have hat : ∀ q (k : Px u), (⟨lab.dims, fun i => u.wrap (lab.buf i)⟩ : Img (Px u)).at? q = some k ↔
      ∃ j, lab.at? q = some j ∧ k = u.wrap (j : Int) := by
    intro q k
    constructor
    · intro h
      have hin : Img.In lab.dims q := Img.at?_eq_some_in (⟨lab.dims, fun i => u.wrap (lab.buf i)⟩ : Img (Px u)) _ _ h
      rw [Img.buf_offOf (⟨lab.dims, fun i => u.wrap (lab.buf i)⟩ : Img (Px u)) q hin] at h
      exact ⟨_, Img.buf_offOf lab q hin, (Option.some.inj h).symm⟩
    · rintro ⟨j, hj, rfl⟩
      have hin := lab.at?_eq_some_in _ _ hj
      rw [Img.buf_offOf lab q hin] at hj
      rw [Img.buf_offOf (⟨lab.dims, fun i => u.wrap (lab.buf i)⟩ : Img (Px u)) q hin]
      cases hj
      rfl
  refine ⟨l2, ?_, ?_⟩
  · intro p a k ha hk
    obtain ⟨j, hj, rfl⟩ := (hat p k).mp hk
    rw [← l5 p a j ha hj]
    constructor
    · intro he
      have := congrArg Px.val he
      rw [hval p j hj] at this
      have hz : (Px.zero : Px u).val = 0 := rfl
      omega
    · rintro rfl
      exact wrap_zero u
  · intro p a k ha hne hk q
    obtain ⟨j, hj, rfl⟩ := (hat p k).mp hk
    have hj0 : j ≠ 0 := fun h0 => hne ((l5 p a j ha hj).mp h0)
    rw [hat]
    constructor
    · rintro ⟨i, hi, he⟩
      have := congrArg Px.val he
      rw [hval p j hj, hval q i hi] at this
      exact (hlab.same p q j i hj hi hj0).mp (by omega)
    · intro hf
      have hin : Img.In lab.dims q := by rw [l2]; exact hf.in.2
      have hq := Img.buf_offOf lab q hin
      refine ⟨_, hq, ?_⟩
      rw [(hlab.same p q j _ hj hq hj0).mpr hf]

/-- The pixels of a component, each once. -/
def IsComp {α : Type} (N : IntPoint → IntPoint → Prop) (im : Img α) (p : IntPoint) (pts : List IntPoint) : Prop :=
  pts.Nodup ∧ ∀ q, q ∈ pts ↔ FlatPath N im p q

theorem blobPts_comp {N : IntPoint → IntPoint → Prop} {imL : Img (Px l)} {lab : Img (Px u)} (h : IsPxLab N imL lab) {α : Type} (im : Img α)
    (hd : im.dims = imL.dims) {p : IntPoint} {a : Px l} {k : Px u} (ha : imL.at? p = some a) (hne : a ≠ Px.zero) (hk : lab.at? p = some k) :
    IsComp N imL p ((blobPts lab k im).map Prod.fst) := by
  constructor
  · rw [blobPts_eq lab k im (by rw [hd, h.dims]), List.map_map]
    refine List.Nodup.map_on ?_ (List.nodup_range.filter _)
    intro i hi j hj hij
    rw [List.mem_filter, List.mem_range] at hi hj
    have e1 := (coordPt_in hi.1).2
    have e2 := (coordPt_in hj.1).2
    simp only [Function.comp_apply] at hij
    rw [← e1, ← e2, hij]
  · intro q
    rw [← h.comp p a k ha hne hk]
    simp only [List.mem_map, Prod.exists, exists_and_right, exists_eq_right]
    constructor
    · rintro ⟨w, hw⟩
      exact ((mem_blobPts lab k im q w).mp hw).2
    · intro hq
      have hin := lab.at?_eq_some_in _ _ hq
      have hin' : Img.In im.dims q := by rw [hd, ← h.dims]; exact hin
      exact ⟨_, (mem_blobPts lab k im q _).mpr ⟨Img.buf_offOf im q hin', hq⟩⟩

theorem blobsArea_pts {κ α : Type} [LinearOrder κ] (zero : κ) (onlyNZ : Bool) (lab : Img κ) (im : Img α) (hd : im.dims = lab.dims) :
    IsPerBlob zero onlyNZ lab (fun k => ((blobPts lab k im).map Prod.fst).length) (blobsArea (computeBlobs zero onlyNZ lab)) := by
  have h := C19_blobsArea zero onlyNZ lab
  refine ⟨h.sorted, fun k s => ?_⟩
  rw [h.entries, blobPts_eq lab k im hd, lab.vals_eq, List.count_eq_countP, List.countP_map, List.countP_eq_length_filter,
    List.length_map, List.length_map]
  have : (List.range lab.dims.count).filter ((fun x => x == k) ∘ lab.buf) = (List.range lab.dims.count).filter fun i => decide (lab.buf i = k) := by
    apply List.filter_congr
    intro i _
    simp [beq_eq_decide]
  rw [this]

/-- Any two listings of a component are permutations of each other. -/
theorem IsComp.perm {α : Type} {N : IntPoint → IntPoint → Prop} {im : Img α} {p : IntPoint} {a b : List IntPoint}
    (ha : IsComp N im p a) (hb : IsComp N im p b) : a.Perm b :=
  (List.perm_ext_iff_of_nodup ha.1 hb.1).mpr fun q => (ha.2 q).trans (hb.2 q).symm

/-- The four functions when everything fits. -/
theorem labelWith_spec (auto : Bool) (raw : Nat → Px u) (dflt se : StrElt) (im : Img (Px t)) (imL : Img (Px l)) (dout : Dims)
    (meas : BlobMap (Px u) → Option (List (Px u × ℚ))) (F : Img (Px u) → Px u → ℚ)
    (hmeas : ∀ lab : Img (Px u), lab.dims = im.dims → ∃ res, meas (computeBlobs (u.wrap 0) true lab) = some res ∧
      IsPerBlob (u.wrap 0) true lab (F lab) res)
    (hN : ∀ p q, seRel (execSe se) p q → seRel (execSe se) q p) (hM : 2 ≤ u.hi.toNat) (hacc : AcceptsD auto im.dims dout)
    (hd : imL.dims = im.dims) (hnz : ∃ p a, imL.at? p = some a ∧ a ≠ Px.zero)
    (reps : List IntPoint) (hreps : IsReps (seRel (execSe se)) (· = ·) (· ≠ Px.zero) imL reps) (hn : reps.length < u.hi.toNat) :
    ∃ lab : Img (Px u), IsPxLab (seRel (execSe se)) imL lab ∧
      ((∀ p a k, imL.at? p = some a → a ≠ Px.zero → lab.at? p = some k → F lab k < u.hi ∧ F lab k ≤ v.hi ∧
          ∃ w, truncPx v (F lab k) = some w) →
        ∃ out, labelWith v auto raw dflt se im imL dout meas = some (0, some out) ∧ out.dims = im.dims ∧
          ∀ p a k, imL.at? p = some a → lab.at? p = some k →
            out.at? p = if a = Px.zero then some Px.zero else truncPx v (F lab k)) ∧
      ((∃ p a k, imL.at? p = some a ∧ a ≠ Px.zero ∧ lab.at? p = some k ∧ (u.hi : ℚ) ≤ F lab k) →
        labelWith v auto raw dflt se im imL dout meas = some (0, none)) := by
  have hacc' : AcceptsD auto imL.dims im.dims := ⟨by rw [hd]; exact hacc.1, hacc.1, Or.inl hd.symm⟩
  obtain ⟨out, h1, h2⟩ := labPx_spec (u := u) auto dflt se imL im.dims hN hM hacc' reps hreps hn
  have hdims : (⟨out.dims, fun i => u.wrap (out.buf i)⟩ : Img (Px u)).dims = im.dims := by rw [h2.dims, hd]
  obtain ⟨res, r1, r2⟩ := hmeas _ hdims
  generalize hlab : (⟨out.dims, fun i => u.wrap (out.buf i)⟩ : Img (Px u)) = lab at *
  have hlen : reps.length ≠ 0 := by
    obtain ⟨p, a, hp, ha⟩ := hnz
    obtain ⟨r, hr, -⟩ := hreps.all p a hp ha
    intro h0
    rw [List.length_eq_zero_iff.mp h0] at hr
    simp at hr
  have hent : ∀ e, e ∈ res ↔ ∃ p a, imL.at? p = some a ∧ a ≠ Px.zero ∧ lab.at? p = some e.1 ∧ e.2 = F lab e.1 := by
    rintro ⟨k, s⟩
    rw [r2.entries, wrap_zero]
    constructor
    · rintro ⟨⟨hk, p, hp⟩, hs⟩
      have hin : Img.In imL.dims p := by rw [← h2.dims]; exact lab.at?_eq_some_in _ _ hp
      have ha := Img.buf_offOf imL p hin
      exact ⟨p, _, ha, fun h0 => hk rfl ((h2.zero p _ k ha hp).mpr h0), hp, hs⟩
    · rintro ⟨p, a, ha, hne, hp, hs⟩
      exact ⟨⟨fun _ h0 => hne ((h2.zero p a k ha hp).mp h0), p, hp⟩, hs⟩
  have hat : ∀ p, Img.In imL.dims p → lab.at? p = some (lab.buf (offOf im.dims p)) := by
    intro p hp
    rw [Img.buf_offOf lab p (by rw [h2.dims]; exact hp), hdims]
  have hne : res ≠ [] := by
    obtain ⟨p, a, hp, ha⟩ := hnz
    have hk := hat p (imL.at?_eq_some_in _ _ hp)
    have := (hent (_, F lab _)).mpr ⟨p, a, hp, ha, hk, rfl⟩
    intro h0
    rw [h0] at this
    simp at this
  have hcd : checkDims auto lab.dims im.dims = .ok () := checkDims_ok ⟨by rw [hdims]; exact hacc.1, hacc.1, Or.inl hdims.symm⟩
  refine ⟨lab, h2, ?_, ?_⟩
  · intro hfit
    have hall : ∀ e ∈ res, e.2 < u.hi ∧ e.2 ≤ v.hi ∧ ∃ w, truncPx v e.2 = some w := by
      intro e he
      obtain ⟨p, a, ha, hne, hp, hs⟩ := (hent e).mp he
      rw [hs]
      exact hfit p a e.1 ha hne hp
    unfold labelWith
    rw [checkDims_ok hacc]
    simp only [h1, Option.bind_some, hlab]
    rw [if_neg (show ¬ labelRet (.ok (reps.length, out)) = 0 from hlen), r1]
    simp only [Option.bind_some]
    rw [if_neg hne, if_neg (by
      rw [List.any_eq_true]
      rintro ⟨e, he, h⟩
      rw [decide_eq_true_eq] at h
      exact absurd (hall e he).1 (not_lt.mpr h)), show out.dims = lab.dims by rw [← hlab], hcd]
    simp only
    rw [if_neg (by
      rw [List.any_eq_true]
      rintro ⟨e, he, h⟩
      rw [decide_eq_true_eq] at h
      exact absurd (hall e he).2.1 (not_le.mpr h))]
    unfold lookPx
    rw [if_pos (by
      rw [List.all_eq_true]
      intro e he
      obtain ⟨w, hw⟩ := (hall e he).2.2
      rw [hw]
      rfl)]
    refine ⟨_, rfl, hdims, fun p a k ha hk => ?_⟩
    have hin := imL.at?_eq_some_in _ _ ha
    rw [Img.buf_offOf (⟨lab.dims, _⟩ : Img (Px v)) p (by rw [h2.dims]; exact hin)]
    simp only [hdims]
    have hk' := hat p hin
    rw [hk] at hk'
    rw [← Option.some.inj hk']
    by_cases hz : a = Px.zero
    · rw [if_pos hz]
      have : res.find? (fun e => decide (e.1 = k)) = none := by
        rw [List.find?_eq_none]
        intro e he
        rw [decide_eq_true_eq]
        rintro rfl
        obtain ⟨q, b, hb, hbne, hq, -⟩ := (hent e).mp he
        have hkz := (h2.zero p a e.1 ha hk).mpr hz
        exact hbne ((h2.zero q b e.1 hb hq).mp hkz)
      rw [this]
      simp only
      rw [wrap_zero]
    · rw [if_neg hz]
      have hmem := (hent (k, F lab k)).mpr ⟨p, a, ha, hz, hk, rfl⟩
      obtain ⟨e, he⟩ : ∃ e, res.find? (fun e => decide (e.1 = k)) = some e := by
        rw [← Option.isSome_iff_exists, List.find?_isSome]
        exact ⟨_, hmem, by simp⟩
      have he1 : e.1 = k := by simpa using List.find?_some he
      obtain ⟨-, -, -, -, -, he2⟩ := (hent e).mp (List.mem_of_find?_eq_some he)
      rw [he]
      simp only
      rw [he2, he1]
      obtain ⟨-, -, w, hw⟩ := hfit p a k ha hz hk
      rw [hw]
      rfl
  · rintro ⟨p, a, k, ha, hz, hk, hle⟩
    unfold labelWith
    rw [checkDims_ok hacc]
    simp only [h1, Option.bind_some, hlab]
    rw [if_neg (show ¬ labelRet (.ok (reps.length, out)) = 0 from hlen), r1]
    simp only [Option.bind_some]
    rw [if_neg hne, if_pos (by
      rw [List.any_eq_true]
      exact ⟨_, (hent (k, F lab k)).mpr ⟨p, a, ha, hz, hk, rfl⟩, by rw [decide_eq_true_eq]; exact hle⟩)]

/-- A measure that is an integer. -/
theorem truncPx_int {z : Int} (h1 : v.lo ≤ z) (h2 : z ≤ v.hi) : ∃ w : Px v, truncPx v (z : ℚ) = some w ∧ w.val = z := by
  refine ⟨v.wrap z, ?_, v.wrap_of_mem h1 h2⟩
  unfold truncPx
  simp only [Int.floor_intCast, Int.ceil_intCast, ite_self]
  rw [if_pos ⟨h1, h2⟩]

/-- A quotient is truncated. -/
theorem truncPx_div {z : Int} {n : Nat} (hn : 0 < n) (h1 : v.lo ≤ Int.tdiv z n) (h2 : Int.tdiv z n ≤ v.hi) :
    ∃ w : Px v, truncPx v ((z : ℚ) / (n : ℚ)) = some w ∧ w.val = Int.tdiv z n := by
  refine ⟨v.wrap (Int.tdiv z n), ?_, v.wrap_of_mem h1 h2⟩
  have hq : (0 : ℚ) < n := by exact_mod_cast hn
  have e : (if (0 : ℚ) ≤ (z : ℚ) / (n : ℚ) then ⌊(z : ℚ) / (n : ℚ)⌋ else ⌈(z : ℚ) / (n : ℚ)⌉) = Int.tdiv z n := by
    by_cases hz : 0 ≤ z
    · rw [if_pos (div_nonneg (by exact_mod_cast hz) hq.le), Int.tdiv_eq_ediv_of_nonneg hz]
      exact Rat.floor_intCast_div_natCast z n
    · rw [if_neg (not_le.mpr (div_neg_of_neg_of_pos (by exact_mod_cast (not_le.mp hz)) hq))]
      have : ⌊((-z : Int) : ℚ) / (n : ℚ)⌋ = (-z) / (n : Int) := Rat.floor_intCast_div_natCast (-z) n
      have hc : ⌈(z : ℚ) / (n : ℚ)⌉ = -⌊((-z : Int) : ℚ) / (n : ℚ)⌋ := by
        rw [← Int.ceil_neg]
        congr 1
        push_cast
        ring
      rw [hc, this, ← Int.tdiv_eq_ediv_of_nonneg (by omega : 0 ≤ -z), Int.neg_tdiv, neg_neg]
  unfold truncPx
  simp only [e]
  rw [if_pos ⟨h1, h2⟩]

end
end Smil
