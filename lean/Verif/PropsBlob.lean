import Verif.BlobLemmas
import Verif.PropsMeasures

/-!
# C18 and C19: blobs
-/

namespace Smil

section
variable {κ : Type} [LinearOrder κ]

/-- The pixel `p` of an image of dimensions `D` belongs to the sequence. -/
def PixSeq.Has (D : Dims) (s : PixSeq) (p : IntPoint) : Prop :=
  Img.In D p ∧ (s.offset : Int) ≤ p.x + p.y * D.w + p.z * D.w * D.h ∧
    p.x + p.y * D.w + p.z * D.w * D.h < s.offset + s.size

theorem PixSeq.has_iff {D : Dims} {s : PixSeq} {p : IntPoint} :
    s.Has D p ↔ Img.In D p ∧ s.offset ≤ offOf D p ∧ offOf D p < s.offset + s.size := by
  unfold PixSeq.Has
  refine and_congr_right fun h => ?_
  rw [← offOf_int h]
  omega

/-- `m` describes the regions of equal value of `im`, the value `zero` excepted if `onlyNZ`. -/
structure IsBlobs (zero : κ) (onlyNZ : Bool) (im : Img κ) (m : BlobMap κ) : Prop where
  /-- the keys, each once, are the values present -/
  sorted : m.Pairwise fun a b => a.1 < b.1
  keys : ∀ k, (∃ l, (k, l) ∈ m) ↔ (onlyNZ = true → k ≠ zero) ∧ ∃ p, im.at? p = some k
  /-- the sequences of a key cover the pixels of that value and nothing else -/
  cover : ∀ k l, (k, l) ∈ m → ∀ p, im.at? p = some k ↔ ∃ s ∈ l, s.Has im.dims p
  /-- a sequence is a non-empty part of one line -/
  line : ∀ k l, (k, l) ∈ m → ∀ s ∈ l, 0 < s.size ∧ ∃ x y z : Nat, x + s.size ≤ im.dims.w ∧
    y < im.dims.h ∧ z < im.dims.d ∧ s.offset = x + y * im.dims.w + z * im.dims.w * im.dims.h
  /-- the sequences are disjoint and in increasing order -/
  disjoint : ∀ k l, (k, l) ∈ m → l.Pairwise fun a b => a.offset + a.size ≤ b.offset
  /-- they are maximal: horizontal neighbours of the same value are in the same sequence -/
  maximal : ∀ k l, (k, l) ∈ m → ∀ s ∈ l, ∀ p q, im.at? p = some k → im.at? q = some k →
    q.x = p.x + 1 → q.y = p.y → q.z = p.z → (s.Has im.dims p ↔ s.Has im.dims q)

theorem exists_buf_iff (im : Img κ) (k : κ) :
    (∃ i < im.dims.count, im.buf i = k) ↔ ∃ p, im.at? p = some k := by
  constructor
  · rintro ⟨i, hi, rfl⟩
    obtain ⟨h1, h2⟩ := coordPt_in hi
    exact ⟨_, by rw [Img.buf_offOf im _ h1, h2]⟩
  · rintro ⟨p, hp⟩
    have hin := im.at?_eq_some_in p k hp
    rw [Img.buf_offOf im p hin] at hp
    exact ⟨_, offOf_lt hin, Option.some.inj hp⟩

theorem line_coords {D : Dims} {i r x : Nat} (hi : i < D.count) (he : i = r * D.w + x) (hx : x < D.w) :
    (coordPt D i).x = x := by
  have : i % D.w = x := by
    rw [he, Nat.mul_comm, Nat.mul_add_mod, Nat.mod_eq_of_lt hx]
  unfold coordPt
  simp only [this]

/-- **C18**, decomposition: for every image, allocated or not, with or without the value zero. -/
theorem C18_computeBlobs (zero : κ) (onlyNZ : Bool) (im : Img κ) :
    IsBlobs zero onlyNZ im (computeBlobs zero onlyNZ im) := by
  have h := computeBlobs_ok zero onlyNZ im
  refine ⟨h.sorted, fun k => ?_, fun k l hl p => ?_, fun k l hl s hs => ?_, h.sep,
    fun k l hl s hs p q hp hq hx hy hz => ?_⟩
  · rw [h.keys, exists_buf_iff]
    refine and_congr ?_ Iff.rfl
    cases onlyNZ <;> simp [blobKeep]
  · constructor
    · intro hp
      have hin := im.at?_eq_some_in p k hp
      rw [Img.buf_offOf im p hin] at hp
      have : offOf im.dims p ∈ seqOffs l := by
        rw [h.offs k l hl, List.mem_filter, List.mem_range, decide_eq_true_eq]
        exact ⟨offOf_lt hin, Option.some.inj hp⟩
      obtain ⟨s, hs, h1⟩ := (mem_seqOffs l _).mp this
      exact ⟨s, hs, PixSeq.has_iff.mpr ⟨hin, h1⟩⟩
    · rintro ⟨s, hs, hp⟩
      obtain ⟨hin, h1⟩ := PixSeq.has_iff.mp hp
      have : offOf im.dims p ∈ seqOffs l := (mem_seqOffs l _).mpr ⟨s, hs, h1⟩
      rw [h.offs k l hl, List.mem_filter, List.mem_range, decide_eq_true_eq] at this
      rw [Img.buf_offOf im p hin, this.2]
  · obtain ⟨h1, h2, r, x, h3, h4, -⟩ := h.line k l hl s hs
    have hlt : s.offset < im.dims.count := by omega
    obtain ⟨h5, h6⟩ := coordPt_in hlt
    have h7 := offOf_int h5
    have hx := line_coords hlt h3 (by omega)
    unfold Img.In at h5
    refine ⟨h1, x, (coordPt im.dims s.offset).y.toNat, (coordPt im.dims s.offset).z.toNat, h4,
      by omega, by omega, ?_⟩
    rw [h6, hx] at h7
    have e1 : ((coordPt im.dims s.offset).y.toNat : Int) = (coordPt im.dims s.offset).y := by omega
    have e2 : ((coordPt im.dims s.offset).z.toNat : Int) = (coordPt im.dims s.offset).z := by omega
    zify
    rw [h7, e1, e2]
  · obtain ⟨h1, h2, r, x, h3, h4, h5, h6⟩ := h.line k l hl s hs
    have hpi := im.at?_eq_some_in p k hp
    have hqi := im.at?_eq_some_in q k hq
    have hoff : offOf im.dims q = offOf im.dims p + 1 := by
      have e1 := offOf_int hpi
      have e2 := offOf_int hqi
      rw [hx, hy, hz] at e2
      omega
    rw [Img.buf_offOf im p hpi] at hp
    rw [Img.buf_offOf im q hqi] at hq
    rw [PixSeq.has_iff, PixSeq.has_iff, hoff]
    constructor
    · rintro ⟨-, h7, h8⟩
      refine ⟨hqi, by omega, ?_⟩
      by_contra hge
      have he : s.offset + s.size = offOf im.dims q := by omega
      rcases h6 with h6 | h6
      · have hpx := line_coords (offOf_lt hpi) (i := offOf im.dims p) (r := r) (x := im.dims.w - 1)
          (by omega) (by omega)
        rw [coordPt_offOf hpi] at hpx
        unfold Img.In at hqi
        omega
      · rw [he] at h6
        exact h6 (Option.some.inj hq)
    · rintro ⟨-, h7, h8⟩
      refine ⟨hpi, ?_, by omega⟩
      by_contra hge
      have he : s.offset = offOf im.dims p + 1 := by omega
      rcases h5 with h5 | h5
      · have hqx := line_coords (offOf_lt hqi) (i := offOf im.dims q) (r := r) (x := 0)
          (by omega) (by omega)
        rw [coordPt_offOf hqi] at hqx
        unfold Img.In at hpi
        omega
      · rw [he] at h5
        exact h5 (Option.some.inj hp)

/-- The blobs of different keys have no pixel in common. -/
theorem blobs_disjoint {zero : κ} {onlyNZ : Bool} {im : Img κ} {m : BlobMap κ}
    (h : BlobsOK zero onlyNZ im m) : m.Pairwise fun a b => ∀ i ∈ seqOffs a.2, i ∉ seqOffs b.2 := by
  refine h.sorted.imp_of_mem ?_
  rintro ⟨a, la⟩ ⟨b, lb⟩ ha hb hlt i hi hj
  rw [h.offs a la ha, List.mem_filter, decide_eq_true_eq] at hi
  rw [h.offs b lb hb, List.mem_filter, decide_eq_true_eq] at hj
  exact hlt.ne (hi.2.symm.trans hj.2)

/-! ### Drawing -/

section
variable {β : Type}

/-- **C18**, drawing never leaves the buffer, whatever the size of the output image, and answers
`RES_OK`, `RES_ERR` or, if the output is not allocated, `RES_ERR_BAD_ALLOCATION`. -/
theorem C18_draw_safe [DecidableEq β] (zero : κ) (onlyNZ : Bool) (im : Img κ) (conv : κ → β) (v dflt : β)
    (fillFirst : Bool) (out : Img β) :
    ∃ r, drawBlobs conv v fillFirst dflt out (computeBlobs zero onlyNZ im) = some r ∧
      r.2.dims = out.dims ∧ (out.dims.count = 0 → r = (-99, out)) ∧
      (out.dims.count ≠ 0 → r.1 = 1 ∨ r.1 = -100) := by
  have h := computeBlobs_ok zero onlyNZ im
  unfold drawBlobs drawWith
  by_cases hc : out.dims.count = 0
  · rw [if_pos hc]
    exact ⟨_, rfl, rfl, fun _ => rfl, fun h => absurd hc h⟩
  · rw [if_neg hc]
    obtain ⟨ok', g, h1, -⟩ := drawLoop out.dims.count
      (fun k => if v ≠ dflt then v else conv k) (computeBlobs zero onlyNZ im)
      (if fillFirst then fun _ => dflt else out.buf) true h.ne
      (fun k l hl s hs => (h.line k l hl s hs).1) h.sep (blobs_disjoint h)
    rw [h1]
    refine ⟨_, rfl, rfl, fun h => absurd h hc, fun _ => ?_⟩
    cases ok'
    · right; rfl
    · left; rfl

/-- The last pixel of an image, where the drawing test goes wrong. -/
def lastPt (D : Dims) : IntPoint := ⟨(D.w : Int) - 1, (D.h : Int) - 1, (D.d : Int) - 1⟩

theorem lastPt_off {D : Dims} (h : D.count ≠ 0) : Img.In D (lastPt D) ∧ offOf D (lastPt D) = D.count - 1 := by
  have hw : 0 < D.w := Nat.pos_of_ne_zero fun h0 => h (by unfold Dims.count; rw [h0, Nat.mul_zero])
  have hh : 0 < D.h := Nat.pos_of_ne_zero fun h0 => h (by unfold Dims.count; rw [h0]; simp)
  have hd : 0 < D.d := Nat.pos_of_ne_zero fun h0 => h (by unfold Dims.count; rw [h0]; simp)
  have hin : Img.In D (lastPt D) := by unfold Img.In lastPt; simp only; omega
  refine ⟨hin, ?_⟩
  have := offOf_int hin
  have hcount : (D.count : Int) = (D.d : Int) * D.h * D.w := by unfold Dims.count; push_cast; rfl
  have e : (offOf D (lastPt D) : Int) = D.count - 1 := by
    rw [this, hcount]; unfold lastPt; ring
  omega

/-- What drawing the blobs of `im` on an image of the same size does, as the code is. -/
theorem drawWith_spec (zero : κ) (onlyNZ : Bool) (im : Img κ) (val : κ → β) (fillFirst : Bool) (dflt : β)
    (out : Img β) (hd : out.dims = im.dims) (hc : im.dims.count ≠ 0) (a : κ)
    (ha : im.at? (lastPt im.dims) = some a) :
    ∃ out', drawWith val fillFirst dflt out (computeBlobs zero onlyNZ im) =
        some (if onlyNZ = true ∧ a = zero then 1 else -100, out') ∧ out'.dims = out.dims ∧
      ∀ p k, im.at? p = some k → out'.at? p =
        if (onlyNZ = true ∧ k = zero) ∨ k = a then (if fillFirst then some dflt else out.at? p)
        else some (val k) := by
  have h := computeBlobs_ok zero onlyNZ im
  obtain ⟨hl1, hl2⟩ := lastPt_off hc
  rw [Img.buf_offOf im _ hl1, hl2] at ha
  have ha' : im.buf (im.dims.count - 1) = a := Option.some.inj ha
  unfold drawWith
  rw [hd, if_neg hc]
  obtain ⟨ok', g, h1, h2, h3, h4⟩ := drawLoop im.dims.count val (computeBlobs zero onlyNZ im)
    (if fillFirst then fun _ => dflt else out.buf) true h.ne
    (fun k l hl s hs => (h.line k l hl s hs).1) h.sep (blobs_disjoint h)
  rw [h1]
  have hfit : ∀ k l, (k, l) ∈ computeBlobs zero onlyNZ im →
      ((∀ i ∈ seqOffs l, i + 1 < im.dims.count) ↔ k ≠ a) := by
    intro k l hl
    rw [h.offs k l hl]
    constructor
    · intro hall hka
      have := hall (im.dims.count - 1) (by
        rw [List.mem_filter, List.mem_range, decide_eq_true_eq]
        exact ⟨by omega, by rw [ha', hka]⟩)
      omega
    · intro hka i hi
      rw [List.mem_filter, List.mem_range, decide_eq_true_eq] at hi
      by_contra hlt
      exact hka (by rw [← hi.2, ← ha']; congr 1; omega)
  refine ⟨⟨im.dims, g⟩, ?_, rfl, fun p k hp => ?_⟩
  · have hok : ok' = true ↔ onlyNZ = true ∧ a = zero := by
      rw [h2]
      simp only [true_and]
      constructor
      · intro hall
        by_contra hk
        have hkeep : blobKeep zero onlyNZ a := by
          by_cases hz : a = zero
          · right
            cases honly : onlyNZ with
            | false => rfl
            | true => exact absurd ⟨honly, hz⟩ hk
          · exact Or.inl hz
        obtain ⟨l, hl⟩ := (h.keys a).mpr ⟨hkeep, im.dims.count - 1, by omega, ha'⟩
        exact (hfit a l hl).mp (hall a l hl) rfl
      · rintro ⟨h5, h6⟩ k l hl
        refine (hfit k l hl).mpr fun hka => ?_
        rcases ((h.keys k).mp ⟨l, hl⟩).1 with h7 | h7
        · exact h7 (hka.trans h6)
        · rw [h5] at h7; cases h7
    simp only [Option.map_some]
    by_cases hz : onlyNZ = true ∧ a = zero
    · rw [if_pos (hok.mpr hz), if_pos hz]
    · rw [if_neg fun hh => hz (hok.mp hh), if_neg hz]
  · have hin := im.at?_eq_some_in p k hp
    rw [Img.buf_offOf im p hin] at hp
    have hpk := Option.some.inj hp
    rw [Img.buf_offOf (⟨im.dims, g⟩ : Img β) p hin]
    simp only
    by_cases hkz : (onlyNZ = true ∧ k = zero) ∨ k = a
    · rw [if_pos hkz, h4]
      · cases fillFirst
        · simp only [Bool.false_eq_true, if_false]
          rw [Img.buf_offOf out p (by rw [hd]; exact hin), hd]
        · rfl
      · intro k' l hl hf hi
        rw [h.offs k' l hl, List.mem_filter, decide_eq_true_eq] at hi
        have hkk : k' = k := hi.2.symm.trans hpk
        subst hkk
        rcases hkz with hkz | hkz
        · rcases ((h.keys k').mp ⟨l, hl⟩).1 with h7 | h7
          · exact h7 hkz.2
          · rw [hkz.1] at h7; cases h7
        · exact (hfit k' l hl).mp hf hkz
    · rw [if_neg hkz]
      have hkeep : blobKeep zero onlyNZ k := by
        by_cases hz : k = zero
        · right
          cases honly : onlyNZ with
          | false => rfl
          | true => exact absurd (Or.inl ⟨honly, hz⟩) hkz
        · exact Or.inl hz
      obtain ⟨l, hl⟩ := (h.keys k).mpr ⟨hkeep, _, offOf_lt hin, hpk⟩
      rw [h3 k l hl ((hfit k l hl).mpr fun h => hkz (Or.inr h))]
      rw [h.offs k l hl, List.mem_filter, List.mem_range, decide_eq_true_eq]
      exact ⟨offOf_lt hin, hpk⟩

/-- **C18**, drawing on an image of the same size. Every pixel whose value is kept gets the value of its
blob (`blobsValue`, or the label if it equals `defaultValue`), the others the background. Missing: the
blob that contains the last pixel of the image is not drawn and the call fails
(`C18_last_pixel_bug`). -/
theorem C18_draw_partial [DecidableEq β] (zero : κ) (onlyNZ : Bool) (im : Img κ) (conv : κ → β) (v dflt : β)
    (fillFirst : Bool) (out : Img β) (hd : out.dims = im.dims) (hc : im.dims.count ≠ 0) (a : κ)
    (ha : im.at? (lastPt im.dims) = some a) :
    ∃ out', drawBlobs conv v fillFirst dflt out (computeBlobs zero onlyNZ im) =
        some (if onlyNZ = true ∧ a = zero then 1 else -100, out') ∧ out'.dims = out.dims ∧
      ∀ p k, im.at? p = some k → out'.at? p =
        if (onlyNZ = true ∧ k = zero) ∨ k = a then (if fillFirst then some dflt else out.at? p)
        else some (if v = dflt then conv k else v) := by
  obtain ⟨out', h1, h2, h3⟩ := drawWith_spec zero onlyNZ im
    (fun k => if v ≠ dflt then v else conv k) fillFirst dflt out hd hc a ha
  refine ⟨out', h1, h2, fun p k hp => ?_⟩
  rw [h3 p k hp]
  by_cases hv : v = dflt <;> simp [hv]

/-- **C18**, drawing with a lookup map: the value of a blob is looked up, the background if it has none. -/
theorem C18_drawLut_partial (zero : κ) (onlyNZ : Bool) (im : Img κ) (lut : κ → Option β) (dflt : β)
    (fillFirst : Bool) (out : Img β) (hd : out.dims = im.dims) (hc : im.dims.count ≠ 0) (a : κ)
    (ha : im.at? (lastPt im.dims) = some a) :
    ∃ out', drawBlobsLut lut fillFirst dflt out (computeBlobs zero onlyNZ im) =
        some (if onlyNZ = true ∧ a = zero then 1 else -100, out') ∧ out'.dims = out.dims ∧
      ∀ p k, im.at? p = some k → out'.at? p =
        if (onlyNZ = true ∧ k = zero) ∨ k = a then (if fillFirst then some dflt else out.at? p)
        else some ((lut k).getD dflt) :=
  drawWith_spec zero onlyNZ im _ fillFirst dflt out hd hc a ha

end

/-- **C18**, round trip: drawing the blobs of an image with their labels on a zero image gives the image back.
Missing: images whose last pixel is not zero (`C18_last_pixel_bug`). -/
theorem C18_drawBack_partial (zero : κ) (im out : Img κ) (hd : out.dims = im.dims)
    (hlast : im.at? (lastPt im.dims) = some zero) :
    ∃ out', drawBlobs id zero true zero out (computeBlobs zero true im) = some (1, out') ∧
      out'.Same im := by
  have hc : im.dims.count ≠ 0 := by
    have := offOf_lt (im.at?_eq_some_in _ _ hlast); omega
  obtain ⟨out', h1, h2, h3⟩ := C18_draw_partial zero true im id zero zero true out hd hc zero hlast
  refine ⟨out', by simpa using h1, h2.trans hd, fun p => ?_⟩
  by_cases hin : Img.In im.dims p
  · obtain ⟨k, hk⟩ : ∃ k, im.at? p = some k := ⟨_, im.at?_some p hin⟩
    rw [h3 p k hk, hk]
    by_cases hz : k = zero <;> simp [hz]
  · rw [im.at?_none p hin, out'.at?_none p (by rw [h2, hd]; exact hin)]

/-- **C18 fails** for every image whose last pixel is not zero: the test `offset + size >= pixCount`
(DBlob.hpp:167 and 223) should be `>`. Drawing answers `RES_ERR` and leaves out the whole blob of
that value. -/
theorem C18_last_pixel_bug (zero : κ) (im out : Img κ) (hd : out.dims = im.dims) (a : κ)
    (hlast : im.at? (lastPt im.dims) = some a) (ha : a ≠ zero) :
    ∃ out', drawBlobs id zero true zero out (computeBlobs zero true im) = some (-100, out') ∧
      ¬ out'.Same im ∧ ∀ p, im.at? p = some a → out'.at? p = some zero := by
  have hc : im.dims.count ≠ 0 := by
    have := offOf_lt (im.at?_eq_some_in _ _ hlast); omega
  obtain ⟨out', h1, h2, h3⟩ := C18_draw_partial zero true im id zero zero true out hd hc a hlast
  have h4 : ∀ p, im.at? p = some a → out'.at? p = some zero := by
    intro p hp
    rw [h3 p a hp, if_pos (Or.inr rfl), if_pos rfl]
  refine ⟨out', by rw [h1, if_neg (by simp [ha])], fun hs => ?_, h4⟩
  have := h4 _ hlast
  rw [hs.2, hlast] at this
  exact ha (Option.some.inj this)

end

/-- **C18**, arbitrary maps (blobs can be built by hand in Python): only the last sequence of a blob is
checked, a blob out of order is written past the end of the image. -/
theorem C18_unsorted_bug : drawBlobs id 1 true 0 (⟨⟨2, 2, 1⟩, fun _ => 0⟩ : Img Nat)
    [(1, [⟨3, 2⟩, ⟨0, 1⟩])] = none := by rfl

/-- **C18**, arbitrary maps: a blob without sequences is dereferenced. -/
theorem C18_empty_bug : drawBlobs id 1 true 0 (⟨⟨2, 2, 1⟩, fun _ => 0⟩ : Img Nat) [(1, [])] = none := by
  rfl

/-- Two lines, three labels; the run of 5 is cut at the end of the line. -/
example : computeBlobs 0 true (⟨⟨4, 2, 1⟩, fun i => [0, 3, 5, 5, 5, 0, 3, 0].getD i 0⟩ : Img Nat) =
    [(3, [⟨1, 1⟩, ⟨6, 1⟩]), (5, [⟨2, 2⟩, ⟨4, 1⟩])] := by decide

example : (drawBlobs id 0 true 0 (⟨⟨4, 2, 1⟩, fun _ => 9⟩ : Img Nat)
    (computeBlobs 0 true (⟨⟨4, 2, 1⟩, fun i => [0, 3, 5, 5, 5, 0, 3, 0].getD i 0⟩ : Img Nat))).map
    (fun r => (r.1, (List.range 8).map r.2.buf)) = some (1, [0, 3, 5, 5, 5, 0, 3, 0]) := by decide

example : (drawBlobs id 0 true 0 (⟨⟨4, 2, 1⟩, fun _ => 9⟩ : Img Nat)
    (computeBlobs 0 true (⟨⟨4, 2, 1⟩, fun i => [0, 3, 5, 5, 5, 0, 3, 3].getD i 0⟩ : Img Nat))).map
    (fun r => (r.1, (List.range 8).map r.2.buf)) = some (-100, [0, 0, 5, 5, 5, 0, 0, 0]) := by decide

end Smil
