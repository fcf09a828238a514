import Verif.PropsBlob

/-!
# C19: measures on blobs and area threshold
-/

namespace Smil

/-! ### Measures -/

section
variable {κ σ α : Type} [LinearOrder κ]

/-- The pixels of `im` where the label image has the value `k`, with their values, slice by slice and
line by line. -/
def blobPts (lab : Img κ) (k : κ) (im : Img α) : List (IntPoint × α) :=
  im.scan.filter fun e => decide (lab.at? e.1 = some k)

theorem mem_blobPts (lab : Img κ) (k : κ) (im : Img α) (p : IntPoint) (v : α) :
    (p, v) ∈ blobPts lab k im ↔ im.at? p = some v ∧ lab.at? p = some k := by
  unfold blobPts
  rw [List.mem_filter, im.mem_scan, decide_eq_true_eq]

theorem blobPts_eq (lab : Img κ) (k : κ) (im : Img α) (hd : im.dims = lab.dims) :
    blobPts lab k im = ((List.range lab.dims.count).filter fun i => lab.buf i = k).map
      fun i => (coordPt lab.dims i, im.buf i) := by
  unfold blobPts
  rw [im.scan_eq, List.filter_map, hd]
  congr 1
  apply List.filter_congr
  intro i hi
  rw [List.mem_range] at hi
  obtain ⟨h1, h2⟩ := coordPt_in hi
  simp only [Function.comp_apply]
  rw [Img.buf_offOf lab _ h1, h2]
  simp only [Option.some.injEq]

/-- `res` has one entry for each label present, in increasing order, and `f k` is that of the label `k`. -/
structure IsPerBlob (zero : κ) (onlyNZ : Bool) (lab : Img κ) (f : κ → σ) (res : List (κ × σ)) : Prop where
  sorted : res.Pairwise fun a b => a.1 < b.1
  entries : ∀ k s, (k, s) ∈ res ↔
    ((onlyNZ = true → k ≠ zero) ∧ ∃ p, lab.at? p = some k) ∧ s = f k

theorem perBlob_of {zero : κ} {onlyNZ : Bool} {lab : Img κ} (g : List PixSeq → σ) (f : κ → σ)
    (hg : ∀ k l, (k, l) ∈ computeBlobs zero onlyNZ lab → g l = f k) :
    IsPerBlob zero onlyNZ lab f ((computeBlobs zero onlyNZ lab).map fun b => (b.1, g b.2)) := by
  have h := C18_computeBlobs zero onlyNZ lab
  refine ⟨List.pairwise_map.mpr h.sorted, fun k s => ?_⟩
  rw [← h.keys]
  simp only [List.mem_map, Prod.exists, Prod.mk.injEq]
  constructor
  · rintro ⟨k', l, hl, rfl, rfl⟩
    exact ⟨⟨l, hl⟩, hg _ l hl⟩
  · rintro ⟨⟨l, hl⟩, rfl⟩
    exact ⟨k, l, hl, rfl, hg k l hl⟩

theorem mapM_total {γ δ : Type} (l : List γ) (f : γ → Option δ) (g : γ → δ)
    (h : ∀ a ∈ l, f a = some (g a)) : l.mapM f = some (l.map g) := by
  induction l with
  | nil => rfl
  | cons a l ih =>
    rw [List.mapM_cons, h a List.mem_cons_self, ih fun b hb => h b (List.mem_cons_of_mem _ hb)]
    rfl

/-- A functor that processes the pixels one after the other, on a list of sequences inside the
image. -/
theorem measBlob_eq (F : MeasFn σ α) (step : σ → α → σ)
    (hF : ∀ s l, l ≠ [] → F.seq s l = l.foldl step s) (im : Img α) (l : List PixSeq)
    (hl : ∀ s ∈ l, 0 < s.size ∧ s.offset + s.size ≤ im.dims.count) :
    measBlob F im l = some (((seqOffs l).map im.buf).foldl step F.init) := by
  unfold measBlob
  generalize F.init = s0
  induction l generalizing s0 with
  | nil => rfl
  | cons q l ih =>
    obtain ⟨h1, h2⟩ := hl q List.mem_cons_self
    rw [List.foldlM_cons]
    unfold blobSeq
    rw [if_pos h2, hF _ _ (seqOf_ne _ _ _ h1)]
    change List.foldlM (blobSeq F im.dims.count im.buf) _ l = _
    rw [ih fun s hs => hl s (List.mem_cons_of_mem _ hs)]
    unfold seqOffs seqOf
    rw [List.flatMap_cons, List.map_append, List.foldl_append, List.map_map]
    rfl

/-- **C19**, measures: on an image of the size of the label image, a functor that processes the pixels one
after the other gives for each label its value on the pixels of the label in raster order; on an image
that is not allocated, nothing. -/
theorem C19_measure (zero : κ) (onlyNZ : Bool) (lab : Img κ) (im : Img α) (hd : im.dims = lab.dims)
    (F : MeasFn σ α) (step : σ → α → σ) (hF : ∀ s l, l ≠ [] → F.seq s l = l.foldl step s) :
    ∃ res, blobMeasure F im (computeBlobs zero onlyNZ lab) = some res ∧
      IsPerBlob zero onlyNZ lab
        (fun k => ((blobPts lab k im).map Prod.snd).foldl step F.init) res := by
  have h := computeBlobs_ok zero onlyNZ lab
  have hper := perBlob_of (zero := zero) (onlyNZ := onlyNZ) (lab := lab)
    (fun l => ((seqOffs l).map im.buf).foldl step F.init)
    (fun k => ((blobPts lab k im).map Prod.snd).foldl step F.init) (by
      intro k l hl
      rw [blobPts_eq lab k im hd, h.offs k l hl, List.map_map]
      rfl)
  refine ⟨_, ?_, hper⟩
  unfold blobMeasure
  by_cases hc : im.dims.count = 0
  · rw [if_pos hc]
    unfold computeBlobs
    rw [if_pos (by rw [← hd]; exact hc)]
    rfl
  · rw [if_neg hc]
    apply mapM_total
    rintro ⟨k, l⟩ hl
    simp only
    rw [measBlob_eq F step hF im l fun s hs => ⟨(h.line k l hl s hs).1, by
      rw [hd]; exact (h.line k l hl s hs).2.1⟩]
    rfl

theorem seqPos_run (D : Dims) (f : Nat → α) (i n r x : Nat) (he : i = r * D.w + x) (hx : x + n ≤ D.w)
    (hi : i + n ≤ D.count) :
    seqPos (seqOf f i n) (i % D.w) (i % (D.w * D.h) / D.w) (i / (D.w * D.h)) =
      (List.range n).map fun j => (coordPt D (i + j), f (i + j)) := by
  induction n with
  | zero => rfl
  | succ n ih =>
    rw [seqOf_succ, seqPos_append, ih (by omega) (by omega), List.range_succ, List.map_append, seqOf_length]
    congr 1
    simp only [seqPos, List.map_cons, List.map_nil]
    have hlt : i + n < D.count := by omega
    have hlt0 : i < D.count := by omega
    have c0 := coordPt_in hlt0
    have c1 := coordPt_in hlt
    have hx0 := line_coords hlt0 he (by omega)
    have hin : Img.In D ⟨(coordPt D i).x + n, (coordPt D i).y, (coordPt D i).z⟩ := by
      have := c0.1
      unfold Img.In at this ⊢
      simp only
      omega
    have e : (⟨(coordPt D i).x + n, (coordPt D i).y, (coordPt D i).z⟩ : IntPoint) = coordPt D (i + n) := by
      apply offOf_inj hin c1.1
      have e1 := offOf_int hin
      have e2 := offOf_int c0.1
      simp only at e1
      rw [c1.2]
      rw [c0.2] at e2
      omega
    rw [← e]
    simp only [coordPt, Nat.cast_add]

/-- **C19**, measures with positions: the same for a functor that also receives the coordinates. -/
theorem C19_measure_pos (zero : κ) (onlyNZ : Bool) (lab : Img κ) (im : Img α) (hd : im.dims = lab.dims)
    (F : MeasPos σ α) (step : σ → IntPoint × α → σ)
    (hF : ∀ s l x y z, l ≠ [] → F.seq s l x y z = (seqPos l x y z).foldl step s) :
    ∃ res, posBlobMeasure F im (computeBlobs zero onlyNZ lab) = some res ∧
      IsPerBlob zero onlyNZ lab (fun k => (blobPts lab k im).foldl step F.init) res := by
  have h := computeBlobs_ok zero onlyNZ lab
  have hper := perBlob_of (zero := zero) (onlyNZ := onlyNZ) (lab := lab)
    (fun l => ((seqOffs l).map fun i => (coordPt lab.dims i, im.buf i)).foldl step F.init)
    (fun k => (blobPts lab k im).foldl step F.init) (by
      intro k l hl
      rw [blobPts_eq lab k im hd, h.offs k l hl])
  refine ⟨_, ?_, hper⟩
  unfold posBlobMeasure
  by_cases hc : im.dims.count = 0
  · rw [if_pos hc]
    unfold computeBlobs
    rw [if_pos (by rw [← hd]; exact hc)]
    rfl
  · rw [if_neg hc]
    apply mapM_total
    rintro ⟨k, l⟩ hl
    simp only
    have hline := h.line k l hl
    suffices hs : posMeasBlob F im l =
        some (((seqOffs l).map fun i => (coordPt lab.dims i, im.buf i)).foldl step F.init) by
      rw [hs]; rfl
    unfold posMeasBlob
    rw [hd]
    generalize F.init = s0
    clear hl hper
    induction l generalizing s0 with
    | nil => rfl
    | cons q l ih =>
      obtain ⟨h1, h2, r, x, h3, h4, -⟩ := hline q List.mem_cons_self
      rw [List.foldlM_cons]
      unfold posBlobSeq
      rw [if_pos h2, hF _ _ _ _ _ (seqOf_ne _ _ _ h1), seqPos_run lab.dims im.buf q.offset q.size r x h3 h4 h2]
      change List.foldlM (posBlobSeq F lab.dims im.buf) _ l = _
      rw [ih fun s hs => hline s (List.mem_cons_of_mem _ hs)]
      unfold seqOffs
      rw [List.flatMap_cons, List.map_append, List.foldl_append, List.map_map]
      rfl

theorem blobArea_eq (l : List PixSeq) : blobArea l = (seqOffs l).length := by
  unfold blobArea
  have : ∀ (l : List PixSeq) n, l.foldl (fun s q => s + q.size) n = n + (seqOffs l).length := by
    intro l
    induction l with
    | nil => intro n; rfl
    | cons q l ih =>
      intro n
      rw [List.foldl_cons, ih]
      unfold seqOffs
      rw [List.flatMap_cons, List.length_append, List.length_map, List.length_range]
      omega
  rw [this, Nat.zero_add]

/-- **C19**, area: `blobsArea` gives for each label the number of its pixels. -/
theorem C19_blobsArea (zero : κ) (onlyNZ : Bool) (lab : Img κ) :
    IsPerBlob zero onlyNZ lab (fun k => lab.vals.count k) (blobsArea (computeBlobs zero onlyNZ lab)) := by
  have h := computeBlobs_ok zero onlyNZ lab
  refine perBlob_of (fun l => blobArea l) _ fun k l hl => ?_
  rw [blobArea_eq, h.offs k l hl, lab.vals_eq, List.count_eq_countP, List.countP_map,
    List.countP_eq_length_filter]
  congr 1

end

section
variable {κ : Type} [LinearOrder κ] {t : PT}

/-- The values of `im` on the pixels of label `k`. -/
def blobVals (lab : Img κ) (k : κ) (im : Img (Px t)) : List (Px t) := (blobPts lab k im).map Prod.snd

theorem mem_blobVals (lab : Img κ) (k : κ) (im : Img (Px t)) (v : Px t) :
    v ∈ blobVals lab k im ↔ ∃ p, im.at? p = some v ∧ lab.at? p = some k := by
  unfold blobVals
  simp only [List.mem_map, Prod.exists, mem_blobPts]
  constructor
  · rintro ⟨p, w, h, rfl⟩; exact ⟨p, h⟩
  · rintro ⟨p, h⟩; exact ⟨p, v, h, rfl⟩

/-- **C19**, volume: `blobsVolume` gives for each label the sum of the values on its pixels. -/
theorem C19_blobsVolume (zero : κ) (onlyNZ : Bool) (lab : Img κ) (im : Img (Px t)) (hd : im.dims = lab.dims) :
    ∃ res, blobMeasure volFn im (computeBlobs zero onlyNZ lab) = some res ∧
      IsPerBlob zero onlyNZ lab (fun k => ((blobVals lab k im).map Px.val).sum) res := by
  obtain ⟨res, h1, h2⟩ := C19_measure zero onlyNZ lab im hd volFn (fun s v => s + v.val) (fun s l _ => rfl)
  refine ⟨res, h1, h2.sorted, fun k s => ?_⟩
  rw [h2.entries, foldl_add]
  simp [volFn, blobVals]

/-- **C19**, extreme values: `blobsMinVal`, `blobsMaxVal` and `blobsRangeVal` give for each label the least and
the greatest of the values on its pixels. -/
theorem C19_blobsExtremes (zero : κ) (onlyNZ : Bool) (lab : Img κ) (im : Img (Px t)) (hd : im.dims = lab.dims) :
    ∃ lo hi : κ → Px t,
      (∃ res, blobMeasure minFn im (computeBlobs zero onlyNZ lab) = some res ∧
        IsPerBlob zero onlyNZ lab lo res) ∧
      (∃ res, blobMeasure maxFn im (computeBlobs zero onlyNZ lab) = some res ∧
        IsPerBlob zero onlyNZ lab hi res) ∧
      (∃ res, blobMeasure minMaxFn im (computeBlobs zero onlyNZ lab) = some res ∧
        IsPerBlob zero onlyNZ lab (fun k => (lo k, hi k)) res) ∧
      ∀ k p, lab.at? p = some k → IsLeast {v | v ∈ blobVals lab k im} (lo k) ∧
        IsGreatest {v | v ∈ blobVals lab k im} (hi k) := by
  refine ⟨fun k => (blobVals lab k im).foldl (fun s v => if v < s then v else s) ⊤,
    fun k => (blobVals lab k im).foldl (fun s v => if v > s then v else s) ⊥,
    C19_measure zero onlyNZ lab im hd minFn _ (fun s l _ => rfl),
    C19_measure zero onlyNZ lab im hd maxFn _ (fun s l _ => rfl), ?_, ?_⟩
  · obtain ⟨res, h1, h2⟩ := C19_measure zero onlyNZ lab im hd minMaxFn _ (fun s l _ => rfl)
    refine ⟨res, h1, h2.sorted, fun k s => ?_⟩
    rw [h2.entries, foldl_minMax]
    rfl
  · intro k p hp
    have hin := lab.at?_eq_some_in p k hp
    have hv : im.px p.x.toNat p.y.toNat p.z.toNat ∈ blobVals lab k im :=
      (mem_blobVals _ _ _ _).mpr ⟨p, im.at?_some p (by rw [hd]; exact hin), hp⟩
    generalize im.px p.x.toNat p.y.toNat p.z.toNat = v at hv
    obtain ⟨-, a2, a3⟩ := foldl_min (blobVals lab k im) ⊤
    obtain ⟨-, b2, b3⟩ := foldl_max (blobVals lab k im) ⊥
    refine ⟨⟨?_, fun w hw => a2 w hw⟩, ⟨?_, fun w hw => b2 w hw⟩⟩
    · rcases a3 with a3 | a3
      · have := a2 v hv
        rw [a3, top_le_iff] at this
        subst this
        show (blobVals lab k im).foldl (fun s v => if v < s then v else s) ⊤ ∈ blobVals lab k im
        rw [a3]; exact hv
      · exact a3
    · rcases b3 with b3 | b3
      · have := b2 v hv
        rw [b3, le_bot_iff] at this
        subst this
        show (blobVals lab k im).foldl (fun s v => if v > s then v else s) ⊥ ∈ blobVals lab k im
        rw [b3]; exact hv
      · exact b3

/-- **C19**, moments: `blobsMoments` sums, for each label, the same terms as `measMoments`, over the pixels of
the label. -/
theorem C19_blobsMoments (zero : κ) (onlyNZ : Bool) (lab : Img κ) (im : Img (Px t)) (hd : im.dims = lab.dims)
    (im3d : Bool) :
    ∃ res, posBlobMeasure (momFn im3d) im (computeBlobs zero onlyNZ lab) = some res ∧
      (res.Pairwise fun a b => a.1 < b.1) ∧
      ∀ k s, (k, s) ∈ res → s.m000 = ((blobVals lab k im).map Px.val).sum ∧
        s.m100 = ((blobPts lab k im).map fun e => e.2.val * e.1.x).sum ∧
        s.m010 = ((blobPts lab k im).map fun e => e.2.val * e.1.y).sum := by
  obtain ⟨res, h1, h2⟩ := C19_measure_pos zero onlyNZ lab im hd (momFn im3d) (momStep im3d)
    (fun s l x y z _ => rfl)
  refine ⟨res, h1, h2.sorted, fun k s hs => ?_⟩
  have := ((h2.entries k s).mp hs).2
  have key : ∀ (l : List (IntPoint × Px t)) (s : MomSt),
      (l.foldl (momStep im3d) s).m000 = s.m000 + (l.map fun e => e.2.val).sum ∧
      (l.foldl (momStep im3d) s).m100 = s.m100 + (l.map fun e => e.2.val * e.1.x).sum ∧
      (l.foldl (momStep im3d) s).m010 = s.m010 + (l.map fun e => e.2.val * e.1.y).sum := by
    intro l
    induction l with
    | nil => intro s; simp
    | cons e l ih =>
      intro s
      rw [List.foldl_cons]
      obtain ⟨i1, i2, i3⟩ := ih (momStep im3d s e)
      rw [i1, i2, i3]
      simp only [momStep, List.map_cons, List.sum_cons]
      refine ⟨by ring, by ring, by ring⟩
  obtain ⟨k1, k2, k3⟩ := key (blobPts lab k im) (momFn (t := t) im3d).init
  rw [this, k1, k2, k3]
  unfold blobVals
  rw [List.map_map]
  refine ⟨by simp [momFn, Function.comp_def], by simp [momFn], by simp [momFn]⟩

end

/-! ### Area threshold -/

section
variable {t u : PT}

/-- The blobs of area `n` are kept. -/
def AreaKept (thr : Int) (gt : Bool) (n : Nat) : Prop := if gt then thr ≤ n else (n : Int) ≤ thr

instance (thr : Int) (gt : Bool) (n : Nat) : Decidable (AreaKept thr gt n) := by
  unfold AreaKept; infer_instance

theorem areaOut_iff (thr : Int) (gt : Bool) (n : Nat) : areaOut thr gt n = true ↔ ¬ AreaKept thr gt n := by
  unfold areaOut AreaKept
  cases gt <;> simp

theorem wrap_zero (u : PT) : u.wrap 0 = Px.zero := Px.ext (u.wrap_of_mem u.lo_nonpos u.hi_nonneg)

/-- The result of the last loop in terms of the label image. -/
theorem areaLutAt_eq (bin : Bool) (thr : Int) (gt : Bool) (lab : Img (Px u)) (i : Nat)
    (hi : i < lab.dims.count) :
    areaLutAt (areaLut bin thr gt (blobsArea (computeBlobs (u.wrap 0) true lab))) (lab.buf i) =
      if lab.buf i ≠ Px.zero ∧ AreaKept thr gt (lab.vals.count (lab.buf i)) then
        (if bin then ⊤ else lab.buf i) else Px.zero := by
  have h := C19_blobsArea (u.wrap 0) true lab
  rw [wrap_zero] at *
  set ar := blobsArea (computeBlobs (Px.zero : Px u) true lab) with har
  have hfind : ∀ k, (areaLut bin thr gt ar).find? (fun e => e.1 = k) =
      (ar.find? fun e => e.1 = k).map fun e =>
        (e.1, if areaOut thr gt e.2 then u.wrap 0 else if bin then ⊤ else e.1) := by
    intro k
    unfold areaLut
    rw [List.find?_map]
    rfl
  unfold areaLutAt
  rw [hfind, wrap_zero]
  by_cases hz : lab.buf i = Px.zero
  · rw [if_neg fun h => h.1 hz]
    have : ar.find? (fun e => e.1 = lab.buf i) = none := by
      rw [List.find?_eq_none]
      rintro ⟨k, n⟩ hk
      have := ((h.entries k n).mp hk).1.1 rfl
      simp only [decide_eq_true_eq]
      intro he
      exact this (he.trans hz)
    rw [this]
    rfl
  · have hp : ∃ p, lab.at? p = some (lab.buf i) := (exists_buf_iff lab _).mp ⟨i, hi, rfl⟩
    have hmem : (lab.buf i, lab.vals.count (lab.buf i)) ∈ ar :=
      (h.entries _ _).mpr ⟨⟨fun _ => hz, hp⟩, by congr!⟩
    obtain ⟨e, he⟩ : ∃ e, ar.find? (fun e => e.1 = lab.buf i) = some e := by
      rw [← Option.isSome_iff_exists, List.find?_isSome]
      exact ⟨_, hmem, by simp⟩
    have he1 : e.1 = lab.buf i := by simpa using List.find?_some he
    have he2 : e.2 = lab.vals.count (lab.buf i) := by
      have := ((h.entries e.1 e.2).mp (List.mem_of_find?_eq_some he)).2
      rw [this, he1]
      congr!
    rw [he]
    simp only [Option.map_some, Option.getD_some, he1, he2]
    by_cases hk : AreaKept thr gt (lab.vals.count (lab.buf i))
    · rw [if_neg fun h => (areaOut_iff _ _ _).mp h hk]
      exact (if_pos (⟨hz, hk⟩ : lab.buf i ≠ Px.zero ∧ _)).symm
    · rw [if_pos ((areaOut_iff _ _ _).mpr hk), if_neg fun h => hk h.2]

/-- The image has exactly two values, zero being one of them. -/
def TwoValued (im : Img (Px t)) : Prop :=
  ∃ v : Px t, v ≠ Px.zero ∧ (∃ p, im.at? p = some v) ∧ (∃ p, im.at? p = some Px.zero) ∧
    ∀ p w, im.at? p = some w → w = Px.zero ∨ w = v

theorem isBinary_iff (im : Img (Px t)) : isBinary im = true ↔ TwoValued im := by
  unfold isBinary TwoValued
  simp only [Bool.and_eq_true, List.contains_iff_mem, beq_iff_eq]
  rw [← im.vals_eq]
  constructor
  · rintro ⟨h1, h2⟩
    obtain ⟨a, b, hab⟩ := List.length_eq_two.mp h2
    have hnd := List.nodup_dedup im.vals
    rw [hab] at hnd h1
    have hne : a ≠ b := by
      intro h; subst h; simp at hnd
    have hm : ∀ w, (∃ p, im.at? p = some w) ↔ w = a ∨ w = b := by
      intro w
      rw [← im.mem_vals, ← List.mem_dedup, hab]
      simp
    have hz : Px.zero = a ∨ Px.zero = b := by simpa using h1
    rcases hz with hz | hz
    · exact ⟨b, by rw [hz]; exact hne.symm, (hm b).mpr (Or.inr rfl), (hm _).mpr (Or.inl hz),
        fun p w hw => by rw [hz]; exact (hm w).mp ⟨p, hw⟩⟩
    · exact ⟨a, by rw [hz]; exact hne, (hm a).mpr (Or.inl rfl), (hm _).mpr (Or.inr hz),
        fun p w hw => by rw [hz]; exact ((hm w).mp ⟨p, hw⟩).symm⟩
  · rintro ⟨v, h1, h2, h3, h4⟩
    have hp : im.vals.dedup.Perm [Px.zero, v] := by
      apply (List.perm_ext_iff_of_nodup (List.nodup_dedup _) (by simpa using Ne.symm h1)).mpr
      intro w
      rw [List.mem_dedup, im.mem_vals]
      simp only [List.mem_cons, List.not_mem_nil, or_false]
      constructor
      · rintro ⟨p, hp⟩; exact h4 p w hp
      · rintro (rfl | rfl)
        · exact h3
        · exact h2
    exact ⟨by rw [hp.mem_iff]; simp, by rw [hp.length_eq]; rfl⟩

/-- **C19**, area threshold of a labelled image: an image that does not have exactly two values, zero being one of
them. Each pixel keeps its label, converted to the output type, if it is not zero and the number of
pixels carrying it compares with the threshold; the others get zero. -/
theorem C19_areaThreshold_labels (auto : Bool) (dflt : StrElt) (thr : Int) (gt : Bool) (im : Img (Px t))
    (dout : Dims) (h : AcceptsD auto im.dims dout) (hb : ¬ TwoValued im) :
    ∃ out : Img (Px u), areaThreshold auto dflt thr gt im dout = some (.ok out) ∧ out.dims = im.dims ∧
      ∀ p v, im.at? p = some v → out.at? p = some
        (if u.wrap v.val ≠ Px.zero ∧
          AreaKept thr gt (im.vals.countP fun w => decide (u.wrap w.val = u.wrap v.val))
         then u.wrap v.val else Px.zero) := by
  unfold areaThreshold
  rw [checkDims_ok h]
  have hbin : isBinary im = false := by
    cases hx : isBinary im with
    | false => rfl
    | true => exact absurd ((isBinary_iff im).mp hx) hb
  simp only [areaLabels, hbin, Bool.false_eq_true, if_false, Option.map_some]
  refine ⟨_, rfl, rfl, fun p v hp => ?_⟩
  have hin := im.at?_eq_some_in p v hp
  rw [Img.buf_offOf im p hin] at hp
  rw [Img.buf_offOf (⟨im.dims, _⟩ : Img (Px u)) p hin]
  simp only
  have := areaLutAt_eq false thr gt (⟨im.dims, fun i => u.wrap (im.buf i).val⟩ : Img (Px u))
    (offOf im.dims p) (offOf_lt hin)
  simp only at this
  rw [this]
  have hv : im.buf (offOf im.dims p) = v := Option.some.inj hp
  rw [hv]
  have hcount : (⟨im.dims, fun i => u.wrap (im.buf i).val⟩ : Img (Px u)).vals.count (u.wrap v.val) =
      im.vals.countP fun w => decide (u.wrap w.val = u.wrap v.val) := by
    rw [Img.vals_eq, Img.vals_eq, List.count_eq_countP, List.countP_map, List.countP_map]
    apply List.countP_congr
    intro i _
    simp
  rw [hcount]
  simp

/-- **C19**, area threshold when the labels fit the output type: the labels whose numbers of pixels compare are kept. -/
theorem C19_areaThreshold (auto : Bool) (dflt : StrElt) (thr : Int) (gt : Bool) (im : Img (Px t))
    (dout : Dims) (h : AcceptsD auto im.dims dout) (hb : ¬ TwoValued im)
    (hfit : ∀ p v, im.at? p = some v → u.lo ≤ v.val ∧ v.val ≤ u.hi) :
    ∃ out : Img (Px u), areaThreshold auto dflt thr gt im dout = some (.ok out) ∧ out.dims = im.dims ∧
      ∀ p v, im.at? p = some v → ∃ w, out.at? p = some w ∧
        w.val = if AreaKept thr gt (im.vals.count v) then v.val else 0 := by
  obtain ⟨out, h1, h2, h3⟩ := C19_areaThreshold_labels (u := u) auto dflt thr gt im dout h hb
  refine ⟨out, h1, h2, fun p v hp => ⟨_, h3 p v hp, ?_⟩⟩
  have hval : ∀ p w, im.at? p = some w → (u.wrap w.val).val = w.val := fun p w hw =>
    u.wrap_of_mem (hfit p w hw).1 (hfit p w hw).2
  have hcount : (im.vals.countP fun w => decide (u.wrap w.val = u.wrap v.val)) = im.vals.count v := by
    rw [List.count_eq_countP]
    apply List.countP_congr
    intro w hw
    obtain ⟨q, hq⟩ := (im.mem_vals w).mp hw
    simp only [decide_eq_true_eq, beq_iff_eq]
    constructor
    · intro he
      have := congrArg Px.val he
      rw [hval q w hq, hval p v hp] at this
      exact Px.ext this
    · rintro rfl; rfl
  rw [hcount]
  by_cases hk : AreaKept thr gt (im.vals.count v)
  · rw [if_pos hk]
    by_cases hz : u.wrap v.val = Px.zero
    · rw [if_neg fun h => h.1 hz]
      have := congrArg Px.val hz
      rw [hval p v hp] at this
      exact this.symm
    · rw [if_pos ⟨hz, hk⟩, hval p v hp]
  · rw [if_neg hk, if_neg fun h => hk h.2]
    rfl

/-- The number of points of the image satisfying a condition. -/
noncomputable def pointCount (D : Dims) (P : IntPoint → Prop) : Nat :=
  open Classical in ((scanPts D).filter fun p => decide (P p)).length

/-- **C19**, area threshold of a binary image: an image with exactly two values, zero being one of them.
A pixel gets the maximum of the output type if it is not zero and the number of pixels of its
connected component compares with the threshold, and zero otherwise, when there are fewer components
than the maximum of the output type. The neighbourhood is the default structuring element. -/
theorem C19_areaThreshold_binary_partial (auto : Bool) (dflt : StrElt) (thr : Int) (gt : Bool)
    (im : Img (Px t)) (dout : Dims) (h : AcceptsD auto im.dims dout) (hb : TwoValued im)
    (hN : ∀ p q, seRel (execSe dflt) p q → seRel (execSe dflt) q p) (hM : 2 ≤ u.hi.toNat)
    (reps : List IntPoint) (hreps : IsReps (seRel (execSe dflt)) (· = ·) (· ≠ Px.zero) im reps)
    (hn : reps.length < u.hi.toNat) :
    ∃ out : Img (Px u), areaThreshold auto dflt thr gt im dout = some (.ok out) ∧ out.dims = im.dims ∧
      ∀ p v, im.at? p = some v → out.at? p = some
        (if v ≠ Px.zero ∧
          AreaKept thr gt (pointCount im.dims fun q => FlatPath (seRel (execSe dflt)) im p q)
         then ⊤ else Px.zero) := by
  classical
  have hacc : AcceptsD auto im.dims im.dims := ⟨h.1, h.1, Or.inl rfl⟩
  obtain ⟨n, lab, l1, l2, ⟨reps', l3, l4⟩, l5, l6⟩ :=
    C39_label auto u.hi.toNat dflt dflt im im.dims hN hM hacc
  have hlen : reps'.length = reps.length := by
    have hs : ∀ p q, LinkPath (seRel (execSe dflt)) (· = ·) im p q →
        LinkPath (seRel (execSe dflt)) (· = ·) im q p :=
      fun p q hpq => hpq.symm hN fun _ _ h => h.symm
    have hmem : ∀ (r r' : List IntPoint), IsReps (seRel (execSe dflt)) (· = ·) (· ≠ Px.zero) im r →
        IsReps (seRel (execSe dflt)) (· = ·) (· ≠ Px.zero) im r' → ∀ p ∈ r, p ∈ r' := by
      intro r r' hr hr' p hp
      obtain ⟨a, ha, hka⟩ := hr.kept p hp
      obtain ⟨q, hq, hqp⟩ := hr'.all p a ha hka
      obtain ⟨b, hb, hkb⟩ := hr'.kept q hq
      have h1 := hr'.first q hq p a ha hka hqp
      have h2 := hr.first p hp q b hb hkb (hs _ _ hqp)
      have := offOf_inj (im.at?_eq_some_in _ _ ha) (im.at?_eq_some_in _ _ hb) (by omega)
      rw [this]; exact hq
    have hnd : ∀ (r : List IntPoint), IsReps (seRel (execSe dflt)) (· = ·) (· ≠ Px.zero) im r →
        r.Nodup := by
      intro r hr
      refine hr.apart.imp ?_
      rintro p q ⟨hlt, -⟩ rfl
      omega
    exact ((List.perm_ext_iff_of_nodup (hnd _ l3) (hnd _ hreps)).mpr
      fun p => ⟨hmem _ _ l3 hreps p, hmem _ _ hreps l3 p⟩).length_eq
  have hlab := l6 (by omega)
  unfold areaThreshold
  rw [checkDims_ok h]
  have hbin : isBinary im = true := (isBinary_iff im).mpr hb
  simp only [areaLabels, hbin, if_true, l1, Option.map_some]
  refine ⟨_, rfl, rfl, fun p v hp => ?_⟩
  have hin := im.at?_eq_some_in p v hp
  rw [Img.buf_offOf (⟨im.dims, _⟩ : Img (Px u)) p hin]
  simp only
  have := areaLutAt_eq true thr gt (⟨im.dims, fun i => u.wrap (lab.buf i)⟩ : Img (Px u))
    (offOf im.dims p) (offOf_lt hin)
  simp only at this
  rw [this]
  -- the labels are below the maximum of the type
  have hle : ∀ q k, lab.at? q = some k → k ≤ n := by
    intro q k hq
    by_cases hk : k = 0
    · omega
    · exact ((hlab.labels k).mpr ⟨hk, q, hq⟩).2
  have hval : ∀ q k, lab.at? q = some k → (u.wrap (k : Int)).val = k := by
    intro q k hq
    have := hle q k hq
    have := u.lo_nonpos
    have := u.hi_nonneg
    exact u.wrap_of_mem (by omega) (by omega)
  have hbuf : ∀ q, Img.In im.dims q → lab.at? q = some (lab.buf (offOf im.dims q)) := by
    intro q hq
    rw [Img.buf_offOf lab q (by rw [l2]; exact hq), l2]
  set k := lab.buf (offOf im.dims p) with hk
  have hkp : lab.at? p = some k := hbuf p hin
  have hzero : u.wrap (k : Int) = Px.zero ↔ v = Px.zero := by
    rw [← l5 p v k hp hkp]
    constructor
    · intro he
      have := congrArg Px.val he
      rw [hval p k hkp] at this
      have hz : (Px.zero : Px u).val = 0 := rfl
      omega
    · intro he
      rw [he]
      exact wrap_zero u
  by_cases hvz : v = Px.zero
  · rw [if_neg fun h => h.1 (hzero.mpr hvz), if_neg fun h => h.1 hvz]
  · have hkz : k ≠ 0 := fun h0 => hvz ((l5 p v k hp hkp).mp h0)
    have hcount : (⟨im.dims, fun i => u.wrap (lab.buf i)⟩ : Img (Px u)).vals.count (u.wrap (k : Int)) =
        pointCount im.dims fun q => FlatPath (seRel (execSe dflt)) im p q := by
      unfold pointCount
      rw [Img.vals_eq, List.count_eq_countP, List.countP_map, List.countP_eq_length_filter, scanPts_eq,
        List.filter_map, List.length_map]
      congr 1
      apply List.filter_congr
      intro i hi
      rw [List.mem_range] at hi
      obtain ⟨c1, c2⟩ := coordPt_in hi
      have hq := hbuf _ c1
      rw [c2] at hq
      have hs := hlab.same p (coordPt im.dims i) k (lab.buf i) hkp hq hkz
      simp only [Function.comp_apply]
      have e : ((u.wrap (lab.buf i : Int)) == u.wrap (k : Int)) =
          decide (FlatPath (seRel (execSe dflt)) im p (coordPt im.dims i)) := by
        by_cases hf : FlatPath (seRel (execSe dflt)) im p (coordPt im.dims i)
        · rw [← hs.mpr hf]; simp [hf]
        · have hne : k ≠ lab.buf i := fun he => hf (hs.mp he)
          have : u.wrap (lab.buf i : Int) ≠ u.wrap (k : Int) := by
            intro he
            have := congrArg Px.val he
            rw [hval _ _ hq, hval p k hkp] at this
            omega
          simp [hf, this]
      exact e
    rw [hcount]
    by_cases hkept : AreaKept thr gt (pointCount im.dims fun q => FlatPath (seRel (execSe dflt)) im p q)
    · rw [if_pos ⟨fun h => hvz (hzero.mp h), hkept⟩, if_pos trivial, if_pos ⟨hvz, hkept⟩]
    · rw [if_neg fun h => hkept h.2, if_neg fun h => hkept h.2]

/-- **C19**, errors: images that are not allocated or, without automatic resizing, of different sizes. -/
theorem C19_errors (auto : Bool) (dflt : StrElt) (thr : Int) (gt : Bool) (im : Img (Px t)) (dout : Dims) :
    ((im.dims.count = 0 ∨ dout.count = 0) →
      areaThreshold (u := u) auto dflt thr gt im dout = some (.error (-99))) ∧
    (im.dims.count ≠ 0 → dout.count ≠ 0 → dout ≠ im.dims → auto = false →
      areaThreshold (u := u) auto dflt thr gt im dout = some (.error (-98))) := by
  unfold areaThreshold checkDims
  constructor
  · intro h; rw [if_pos h]; rfl
  · intro h1 h2 h3 h4
    rw [if_neg (by tauto), if_neg h3, h4]; rfl

/-- **C19, data race**: before the last loop the lookup map has no entry for the label 0, so on any image
with a pixel of label 0 `lut[pl[i]]` (DBlobOperations.hpp:119) inserts into the shared `std::map`
inside the parallel loop, without a lock. -/
theorem C19_race_bug (bin : Bool) (thr : Int) (gt : Bool) (lab : Img (Px u)) :
    ∀ e ∈ areaLut bin thr gt (blobsArea (computeBlobs (u.wrap 0) true lab)), e.1 ≠ Px.zero := by
  have h := C19_blobsArea (u.wrap 0) true lab
  intro e he
  obtain ⟨⟨k, n⟩, hm, rfl⟩ := List.mem_map.mp he
  have := ((h.entries k n).mp hm).1.1 rfl
  rwa [wrap_zero] at this

end

/-- A labelled image with one label, 5, on two components of one and of two pixels. -/
def exOneLabel : Img (Px UINT8) := im8 ⟨4, 1, 1⟩ [5, 0, 5, 5]

/-- **C19, one label**: a labelled image with one label value is taken for a binary one. Three pixels carry the
label 5, so it should be kept by the threshold 2; one pixel is lost and the others get 255. -/
theorem C19_single_label_bug :
    exOneLabel.vals.count (UINT8.wrap 5) = 3 ∧
    vals8 (areaThreshold (u := UINT8) false (SquSE 1) 2 true exOneLabel ⟨4, 1, 1⟩) = [0, 0, 255, 255] := by
  decide +kernel

/-! ### Examples -/

/-- Labels 1 on three pixels and 2 on two. -/
def exLabels : Img (Px UINT8) := im8 ⟨3, 2, 1⟩ [1, 0, 2, 1, 1, 2]

example : blobsArea (computeBlobs (UINT8.wrap 0) true exLabels) =
    [(UINT8.wrap 1, 3), (UINT8.wrap 2, 2)] := by decide +kernel

example : blobMeasure volFn (im8 ⟨3, 2, 1⟩ [10, 20, 30, 40, 50, 60])
    (computeBlobs (UINT8.wrap 0) true exLabels) = some [(UINT8.wrap 1, 100), (UINT8.wrap 2, 90)] := by
  decide +kernel

example : ¬ TwoValued exLabels := by
  rw [← isBinary_iff]; decide +kernel

/-- A threshold equal to the area keeps the label in both directions. -/
example : vals8 (areaThreshold (u := UINT8) false (SquSE 1) 3 true exLabels ⟨3, 2, 1⟩) = [1, 0, 0, 1, 1, 0] ∧
    vals8 (areaThreshold (u := UINT8) false (SquSE 1) 2 false exLabels ⟨3, 2, 1⟩) = [0, 0, 2, 0, 0, 2] := by
  decide +kernel

/-- A binary image. -/
example : TwoValued (im8 ⟨4, 1, 1⟩ [255, 0, 255, 255]) ∧
    vals8 (areaThreshold (u := UINT8) false (SquSE 1) 2 true (im8 ⟨4, 1, 1⟩ [255, 0, 255, 255]) ⟨4, 1, 1⟩) = [0, 0, 255, 255] := by
  rw [← isBinary_iff]; decide +kernel

end Smil
