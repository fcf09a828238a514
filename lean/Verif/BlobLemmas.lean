import Verif.Blob
import Verif.MeasureLemmas
import Mathlib.Data.List.Sort
import Mathlib.Data.List.Pairwise

/-!
# Lemmas on blobs
-/

namespace Smil

/-! ### The map of the runs -/

section
variable {κ : Type} [LinearOrder κ]

/-- The map holds, for each key of the list of pairs, the runs of that key in order. -/
def BlobTable (rs : List (κ × PixSeq)) (m : BlobMap κ) : Prop :=
  m.Pairwise (fun a b => a.1 < b.1) ∧
    ∀ k l, (k, l) ∈ m ↔ l ≠ [] ∧ l = (rs.filter fun r => r.1 = k).map Prod.snd

theorem blobTable_nil : BlobTable ([] : List (κ × PixSeq)) [] := by
  refine ⟨List.Pairwise.nil, fun k l => ?_⟩
  simp only [List.not_mem_nil, List.filter_nil, List.map_nil, false_iff]
  tauto

theorem mem_blobPush (k : κ) (s : PixSeq) (m : BlobMap κ) (hs : m.Pairwise (fun a b => a.1 < b.1))
    (a : κ) (l : List PixSeq) : (a, l) ∈ blobPush k s m ↔
      (a ≠ k ∧ (a, l) ∈ m) ∨
      (a = k ∧ ((∃ l', (k, l') ∈ m ∧ l = l' ++ [s]) ∨ ((∀ l', (k, l') ∉ m) ∧ l = [s]))) := by
  induction m with
  | nil => simp [blobPush]
  | cons e m ih =>
    obtain ⟨b, r⟩ := e
    have hs' := List.pairwise_cons.mp hs
    unfold blobPush
    split
    · rename_i h1
      have hno : ∀ l', (k, l') ∉ ((b, r) :: m) := by
        intro n' hm
        rcases List.mem_cons.mp hm with hm | hm
        · rw [Prod.mk.injEq] at hm; exact h1.ne hm.1
        · exact absurd (hs'.1 _ hm) (not_lt.mpr h1.le)
      rw [List.mem_cons, Prod.mk.injEq]
      constructor
      · rintro (⟨h, h'⟩ | h)
        · exact Or.inr ⟨h, Or.inr ⟨hno, h'⟩⟩
        · refine Or.inl ⟨?_, h⟩
          rintro rfl
          exact hno _ h
      · rintro (⟨-, h⟩ | ⟨h, ⟨l', h', -⟩ | ⟨-, h'⟩⟩)
        · exact Or.inr h
        · exact absurd h' (hno _)
        · exact Or.inl ⟨h, h'⟩
    · rename_i h1
      split
      · rename_i h2
        subst h2
        have hno : ∀ l', (k, l') ∉ m := fun l' h => absurd (hs'.1 _ h) (lt_irrefl _)
        simp only [List.mem_cons, Prod.mk.injEq]
        constructor
        · rintro (⟨rfl, rfl⟩ | h)
          · exact Or.inr ⟨rfl, Or.inl ⟨r, Or.inl ⟨trivial, rfl⟩, rfl⟩⟩
          · refine Or.inl ⟨?_, Or.inr h⟩
            rintro rfl
            exact hno _ h
        · rintro (⟨h, h' | h'⟩ | ⟨rfl, ⟨l', ⟨-, rfl⟩ | h', rfl⟩ | ⟨h', -⟩⟩)
          · exact absurd h'.1 h
          · exact Or.inr h'
          · exact Or.inl ⟨rfl, rfl⟩
          · exact absurd h' (hno _)
          · exact absurd (Or.inl ⟨trivial, rfl⟩) (h' r)
      · rename_i h2
        have ih := ih hs'.2
        simp only [List.mem_cons, Prod.mk.injEq, ih]
        constructor
        · rintro (⟨rfl, rfl⟩ | h | h)
          · exact Or.inl ⟨fun h => h2 h.symm, Or.inl ⟨rfl, rfl⟩⟩
          · exact Or.inl ⟨h.1, Or.inr h.2⟩
          · obtain ⟨h, ⟨l', h3, h4⟩ | ⟨h3, h4⟩⟩ := h
            · exact Or.inr ⟨h, Or.inl ⟨l', Or.inr h3, h4⟩⟩
            · refine Or.inr ⟨h, Or.inr ⟨fun l' h5 => ?_, h4⟩⟩
              rcases h5 with h5 | h5
              · exact h2 h5.1
              · exact h3 _ h5
        · rintro (⟨h, h3 | h3⟩ | ⟨h, ⟨l', h3 | h3, h4⟩ | ⟨h3, h4⟩⟩)
          · exact Or.inl h3
          · exact Or.inr (Or.inl ⟨h, h3⟩)
          · exact absurd h3.1 h2
          · exact Or.inr (Or.inr ⟨h, Or.inl ⟨l', h3, h4⟩⟩)
          · exact Or.inr (Or.inr ⟨h, Or.inr ⟨fun l' h5 => h3 l' (Or.inr h5), h4⟩⟩)

theorem sorted_blobPush (k : κ) (s : PixSeq) (m : BlobMap κ)
    (hs : m.Pairwise (fun a b => a.1 < b.1)) : (blobPush k s m).Pairwise (fun a b => a.1 < b.1) := by
  induction m with
  | nil => simp [blobPush]
  | cons e m ih =>
    obtain ⟨b, r⟩ := e
    have hs' := List.pairwise_cons.mp hs
    unfold blobPush
    split
    · rename_i h1
      refine List.pairwise_cons.mpr ⟨?_, hs⟩
      intro c hc
      rcases List.mem_cons.mp hc with hc | hc
      · rw [hc]; exact h1
      · exact lt_trans h1 (hs'.1 c hc)
    · rename_i h1
      split
      · exact List.pairwise_cons.mpr ⟨fun c hc => hs'.1 c hc, hs'.2⟩
      · rename_i h2
        refine List.pairwise_cons.mpr ⟨?_, ih hs'.2⟩
        rintro ⟨c, q⟩ hc
        rcases (mem_blobPush k s m hs'.2 c q).mp hc with ⟨-, hc⟩ | ⟨rfl, -⟩
        · exact hs'.1 _ hc
        · exact lt_of_le_of_ne (not_lt.mp h1) (Ne.symm h2)

theorem BlobTable.push {rs : List (κ × PixSeq)} {m : BlobMap κ} (h : BlobTable rs m) (k : κ)
    (s : PixSeq) : BlobTable (rs ++ [(k, s)]) (blobPush k s m) := by
  refine ⟨sorted_blobPush k s m h.1, fun a l => ?_⟩
  rw [mem_blobPush k s m h.1, List.filter_append, List.map_append]
  simp only [h.2]
  by_cases ha : a = k
  · subst ha
    simp only [ne_eq, not_true, false_and, false_or, true_and, List.filter_cons, decide_true, if_true,
      List.filter_nil, List.map_cons, List.map_nil]
    constructor
    · rintro (⟨l', ⟨-, h2⟩, h3⟩ | ⟨h1, h2⟩)
      · rw [h3, h2]; exact ⟨by simp, rfl⟩
      · have : (rs.filter fun r => r.1 = a).map Prod.snd = [] := by
          by_contra hne
          exact h1 _ ⟨hne, rfl⟩
        rw [h2, this]; exact ⟨by simp, rfl⟩
    · rintro ⟨-, h2⟩
      by_cases hne : (rs.filter fun r => r.1 = a).map Prod.snd = []
      · right
        refine ⟨fun l' h3 => h3.1 (h3.2.trans hne), ?_⟩
        rw [h2, hne]; rfl
      · left
        exact ⟨_, ⟨hne, rfl⟩, h2⟩
  · have : ¬ k = a := fun h => ha h.symm
    simp [ha, this]

/-! ### The runs of a line -/

/-- The list `rs` holds the maximal runs, inside lines of `w` pixels, of the kept values among the first
`n` pixels. -/
structure RunsOK (w : Nat) (f : Nat → κ) (keep : κ → Prop) (n : Nat) (rs : List (κ × PixSeq)) :
    Prop where
  run : ∀ r ∈ rs, keep r.1 ∧ 0 < r.2.size ∧ r.2.offset + r.2.size ≤ n ∧
    ∀ i, r.2.offset ≤ i → i < r.2.offset + r.2.size → f i = r.1
  line : ∀ r ∈ rs, ∃ l x, r.2.offset = l * w + x ∧ x + r.2.size ≤ w ∧
    (x = 0 ∨ f (r.2.offset - 1) ≠ r.1) ∧ (x + r.2.size = w ∨ f (r.2.offset + r.2.size) ≠ r.1)
  sep : rs.Pairwise fun a b => a.2.offset + a.2.size ≤ b.2.offset
  cover : ∀ i < n, keep (f i) → ∃ r ∈ rs, r.2.offset ≤ i ∧ i < r.2.offset + r.2.size

/-- `curVal != 0 || !onlyNonZero`. -/
abbrev blobKeep (zero : κ) (onlyNZ : Bool) (v : κ) : Prop := v ≠ zero ∨ onlyNZ = false

theorem blobFlush_spec {zero : κ} {onlyNZ : Bool} {w l x i : Nat} {f : Nat → κ} {st : BlobSt κ}
    {rs : List (κ × PixSeq)} (h1 : RunsOK w f (blobKeep zero onlyNZ) st.start rs)
    (h2 : BlobTable rs st.blobs) (h3 : st.start = l * w + x) (h4 : x < i)
    (h5 : ∀ j, st.start ≤ j → j < l * w + i → f j = st.val)
    (h6 : blobKeep zero onlyNZ st.val → st.size = i - x)
    (h7 : x = 0 ∨ f (st.start - 1) ≠ st.val) (h8 : i ≤ w) (h9 : i = w ∨ f (l * w + i) ≠ st.val) :
    ∃ rs', RunsOK w f (blobKeep zero onlyNZ) (l * w + i) rs' ∧
      BlobTable rs' (blobFlush zero onlyNZ st) := by
  unfold blobFlush
  by_cases hk : blobKeep zero onlyNZ st.val
  · rw [if_pos hk]
    have hsz := h6 hk
    have he : st.start + st.size = l * w + i := by omega
    refine ⟨rs ++ [(st.val, ⟨st.start, st.size⟩)], ⟨?_, ?_, ?_, ?_⟩, h2.push _ _⟩
    · intro r hr
      rcases List.mem_append.mp hr with hr | hr
      · obtain ⟨ha, hb, hc, hd⟩ := h1.run r hr
        exact ⟨ha, hb, by omega, hd⟩
      · rw [List.mem_singleton] at hr
        subst hr
        exact ⟨hk, by simp only; omega, by simp only; omega, fun j hj hj' => h5 j hj (by simp only at hj'; omega)⟩
    · intro r hr
      rcases List.mem_append.mp hr with hr | hr
      · exact h1.line r hr
      · rw [List.mem_singleton] at hr
        subst hr
        refine ⟨l, x, h3, by simp only; omega, h7, ?_⟩
        simp only [he]
        rcases h9 with h9 | h9
        · left; omega
        · right; exact h9
    · refine List.pairwise_append.mpr ⟨h1.sep, List.pairwise_singleton _ _, ?_⟩
      intro a ha b hb
      rw [List.mem_singleton] at hb
      subst hb
      exact (h1.run a ha).2.2.1
    · intro j hj hkj
      by_cases hjs : j < st.start
      · obtain ⟨r, hr, h⟩ := h1.cover j hjs hkj
        exact ⟨r, List.mem_append_left _ hr, h⟩
      · exact ⟨_, List.mem_append_right _ (List.mem_singleton.mpr rfl), by simp only; omega,
          by simp only; omega⟩
  · rw [if_neg hk]
    refine ⟨rs, ⟨?_, h1.line, h1.sep, ?_⟩, h2⟩
    · intro r hr
      obtain ⟨ha, hb, hc, hd⟩ := h1.run r hr
      exact ⟨ha, hb, by omega, hd⟩
    · intro j hj hkj
      by_cases hjs : j < st.start
      · exact h1.cover j hjs hkj
      · rw [h5 j (by omega) hj] at hkj
        exact absurd hkj hk

theorem blobLine_spec {zero : κ} {onlyNZ : Bool} {w l : Nat} (hw : 0 < w) {f : Nat → κ}
    {m : BlobMap κ} {rs : List (κ × PixSeq)}
    (h1 : RunsOK w f (blobKeep zero onlyNZ) (l * w) rs) (h2 : BlobTable rs m) :
    ∃ rs', RunsOK w f (blobKeep zero onlyNZ) ((l + 1) * w) rs' ∧
      BlobTable rs' (blobLine zero onlyNZ w f m l) := by
  have key : ∀ i, i + 1 ≤ w → ∃ rs x,
      let st := (List.range' 1 i).foldl (blobPixel zero onlyNZ (fun i => f (l * w + i)) (l * w))
        ⟨if f (l * w + 0) ≠ zero ∨ onlyNZ = false then 1 else 0, l * w, f (l * w + 0), m⟩
      RunsOK w f (blobKeep zero onlyNZ) st.start rs ∧ BlobTable rs st.blobs ∧ st.start = l * w + x ∧
        x < i + 1 ∧ (∀ j, st.start ≤ j → j < l * w + (i + 1) → f j = st.val) ∧
        (blobKeep zero onlyNZ st.val → st.size = i + 1 - x) ∧
        (x = 0 ∨ f (st.start - 1) ≠ st.val) := by
    intro i
    induction i with
    | zero =>
      intro _
      refine ⟨rs, 0, h1, h2, rfl, by omega, ?_, ?_, Or.inl rfl⟩
      · intro j hj hj'
        simp only [List.range'_zero, List.foldl_nil] at hj ⊢
        rw [show j = l * w + 0 by omega]
      · intro hk
        exact if_pos hk
    | succ i ih =>
      intro hi
      obtain ⟨rs, x, ih⟩ := ih (by omega)
      simp only at ih ⊢
      rw [List.range'_concat, List.foldl_append, List.foldl_cons, List.foldl_nil]
      set st := (List.range' 1 i).foldl (blobPixel zero onlyNZ (fun i => f (l * w + i)) (l * w))
        ⟨if f (l * w + 0) ≠ zero ∨ onlyNZ = false then 1 else 0, l * w, f (l * w + 0), m⟩ with hst
      obtain ⟨i1, i2, i3, i4, i5, i6, i7⟩ := ih
      unfold blobPixel
      simp only [show 1 + 1 * i = i + 1 by omega]
      by_cases hv : f (l * w + (i + 1)) = st.val
      · rw [if_pos hv]
        refine ⟨rs, x, i1, i2, i3, by omega, ?_, ?_, i7⟩
        · intro j hj hj'
          by_cases hje : j = l * w + (i + 1)
          · rw [hje]; exact hv
          · exact i5 j hj (by omega)
        · intro hk
          have := i6 hk
          simp only
          omega
      · rw [if_neg hv]
        obtain ⟨rs', r1, r2⟩ := blobFlush_spec i1 i2 i3 i4 i5 i6 i7 (by omega) (Or.inr hv)
        refine ⟨rs', i + 1, ?_, r2, by simp only; omega, by omega, ?_, ?_, ?_⟩
        · simp only
          rwa [Nat.add_comm (i + 1)]
        · intro j hj hj'
          simp only at hj ⊢
          rw [show j = l * w + (i + 1) by omega]
        · intro _
          simp only
          omega
        · right
          simp only
          rw [show i + 1 + l * w - 1 = l * w + i by omega, i5 _ (by omega) (by omega)]
          exact fun h => hv h.symm
  obtain ⟨rs', x, i1, i2, i3, i4, i5, i6, i7⟩ := key (w - 1) (by omega)
  rw [show w - 1 + 1 = w by omega] at *
  rw [Nat.add_mul, Nat.one_mul]
  exact blobFlush_spec i1 i2 i3 i4 i5 i6 i7 le_rfl (Or.inl rfl)

theorem computeBlobs_runs (zero : κ) (onlyNZ : Bool) (im : Img κ) (h : im.dims.count ≠ 0) :
    ∃ rs, RunsOK im.dims.w im.buf (blobKeep zero onlyNZ) im.dims.count rs ∧
      BlobTable rs (computeBlobs zero onlyNZ im) := by
  unfold computeBlobs
  rw [if_neg h]
  have hw : 0 < im.dims.w := by
    rcases Nat.eq_zero_or_pos im.dims.w with h0 | h0
    · exact absurd (by unfold Dims.count; rw [h0, Nat.mul_zero]) h
    · exact h0
  have key : ∀ n, ∃ rs, RunsOK im.dims.w im.buf (blobKeep zero onlyNZ) (n * im.dims.w) rs ∧
      BlobTable rs ((List.range n).foldl (blobLine zero onlyNZ im.dims.w im.buf) []) := by
    intro n
    induction n with
    | zero =>
      exact ⟨[], ⟨by simp, by simp, List.Pairwise.nil, by intro i hi; omega⟩, blobTable_nil⟩
    | succ n ih =>
      obtain ⟨rs, h1, h2⟩ := ih
      rw [List.range_succ, List.foldl_append]
      exact blobLine_spec hw h1 h2
  exact key (im.dims.d * im.dims.h)

/-! ### The offsets of a blob -/

/-- The offsets of the pixels of a list of sequences. -/
def seqOffs (l : List PixSeq) : List Nat := l.flatMap fun s => (List.range s.size).map (s.offset + ·)

theorem mem_seqOffs (l : List PixSeq) (i : Nat) :
    i ∈ seqOffs l ↔ ∃ s ∈ l, s.offset ≤ i ∧ i < s.offset + s.size := by
  unfold seqOffs
  simp only [List.mem_flatMap, List.mem_map, List.mem_range]
  constructor
  · rintro ⟨s, hs, j, hj, rfl⟩
    exact ⟨s, hs, by omega, by omega⟩
  · rintro ⟨s, hs, h1, h2⟩
    exact ⟨s, hs, i - s.offset, by omega, by omega⟩

theorem sorted_seqOffs (l : List PixSeq)
    (h : l.Pairwise fun a b => a.offset + a.size ≤ b.offset) : (seqOffs l).Pairwise (· < ·) := by
  induction l with
  | nil => exact List.Pairwise.nil
  | cons s l ih =>
    obtain ⟨h1, h2⟩ := List.pairwise_cons.mp h
    change ((List.range s.size).map (s.offset + ·) ++ seqOffs l).Pairwise (· < ·)
    refine List.pairwise_append.mpr ⟨?_, ih h2, ?_⟩
    · exact List.pairwise_map.mpr (List.pairwise_lt_range.imp fun h => by omega)
    · intro a ha b hb
      obtain ⟨j, hj, rfl⟩ := List.mem_map.mp ha
      rw [List.mem_range] at hj
      obtain ⟨q, hq, h3, -⟩ := (mem_seqOffs l b).mp hb
      have := h1 q hq
      omega

theorem lt_list_ext (a b : List Nat) (ha : a.Pairwise (· < ·)) (hb : b.Pairwise (· < ·))
    (h : ∀ i, i ∈ a ↔ i ∈ b) : a = b := by
  have hp : a.Perm b := (List.perm_ext_iff_of_nodup (ha.imp fun h => Nat.ne_of_lt h)
    (hb.imp fun h => Nat.ne_of_lt h)).mpr h
  exact hp.eq_of_pairwise (fun _ _ _ _ h h' => absurd h' (Nat.lt_asymm h)) ha hb

/-- The blobs of an image: the keys, the runs of each, and the offsets they hold. -/
structure BlobsOK (zero : κ) (onlyNZ : Bool) (im : Img κ) (m : BlobMap κ) : Prop where
  sorted : m.Pairwise (fun a b => a.1 < b.1)
  keys : ∀ k, (∃ l, (k, l) ∈ m) ↔ blobKeep zero onlyNZ k ∧ ∃ i < im.dims.count, im.buf i = k
  sep : ∀ k l, (k, l) ∈ m → l.Pairwise fun a b => a.offset + a.size ≤ b.offset
  offs : ∀ k l, (k, l) ∈ m → seqOffs l = (List.range im.dims.count).filter fun i => im.buf i = k
  line : ∀ k l, (k, l) ∈ m → ∀ s ∈ l, 0 < s.size ∧ s.offset + s.size ≤ im.dims.count ∧
    ∃ r x, s.offset = r * im.dims.w + x ∧ x + s.size ≤ im.dims.w ∧
      (x = 0 ∨ im.buf (s.offset - 1) ≠ k) ∧
      (x + s.size = im.dims.w ∨ im.buf (s.offset + s.size) ≠ k)
  ne : ∀ k l, (k, l) ∈ m → l ≠ []

theorem computeBlobs_ok (zero : κ) (onlyNZ : Bool) (im : Img κ) :
    BlobsOK zero onlyNZ im (computeBlobs zero onlyNZ im) := by
  by_cases hc : im.dims.count = 0
  · unfold computeBlobs
    rw [if_pos hc]
    refine ⟨List.Pairwise.nil, fun k => ?_, by simp, by simp, by simp, by simp⟩
    rw [hc]; simp
  obtain ⟨rs, h, ht⟩ := computeBlobs_runs zero onlyNZ im hc
  have hmem : ∀ k l, (k, l) ∈ computeBlobs zero onlyNZ im → ∀ s, s ∈ l ↔ (k, s) ∈ rs := by
    intro k l hl s
    obtain ⟨-, e⟩ := (ht.2 k l).mp hl
    rw [e]
    simp
  have hk : ∀ k i, i < im.dims.count → blobKeep zero onlyNZ k → im.buf i = k →
      ∃ s, (k, s) ∈ rs ∧ s.offset ≤ i ∧ i < s.offset + s.size := by
    intro k i hi hk he
    obtain ⟨⟨k', s⟩, hr, h1, h2⟩ := h.cover i hi (he ▸ hk)
    have := (h.run _ hr).2.2.2 i h1 h2
    obtain rfl : k' = k := by rw [← he, this]
    exact ⟨s, hr, h1, h2⟩
  have hsep : ∀ k l, (k, l) ∈ computeBlobs zero onlyNZ im →
      l.Pairwise fun a b => a.offset + a.size ≤ b.offset := by
    intro k l hl
    obtain ⟨-, e⟩ := (ht.2 k l).mp hl
    rw [e]
    exact List.pairwise_map.mpr (h.sep.filter _)
  refine ⟨ht.1, fun k => ?_, hsep, fun k l hl => ?_, fun k l hl s hs => ?_, fun k l hl => ((ht.2 k l).mp hl).1⟩
  · constructor
    · rintro ⟨l, hl⟩
      obtain ⟨s, hs⟩ := List.exists_mem_of_ne_nil l ((ht.2 k l).mp hl).1
      obtain ⟨h1, h2, h3, h4⟩ := h.run _ ((hmem k l hl s).mp hs)
      simp only at h2 h3
      exact ⟨h1, s.offset, by omega, h4 _ le_rfl (by simp only; omega)⟩
    · rintro ⟨h1, i, hi, h2⟩
      obtain ⟨s, hs, -⟩ := hk k i hi h1 h2
      refine ⟨_, (ht.2 k _).mpr ⟨?_, rfl⟩⟩
      intro he
      have : s ∈ (rs.filter fun r => r.1 = k).map Prod.snd :=
        List.mem_map.mpr ⟨(k, s), List.mem_filter.mpr ⟨hs, by simp⟩, rfl⟩
      rw [he] at this
      simp at this
  · refine lt_list_ext _ _ (sorted_seqOffs l (hsep k l hl)) (List.pairwise_lt_range.filter _) fun i => ?_
    rw [mem_seqOffs, List.mem_filter, List.mem_range, decide_eq_true_eq]
    constructor
    · rintro ⟨s, hs, h1, h2⟩
      obtain ⟨-, h4, h5, h6⟩ := h.run _ ((hmem k l hl s).mp hs)
      simp only at h4 h5
      exact ⟨by omega, h6 i h1 h2⟩
    · rintro ⟨hi, he⟩
      obtain ⟨s0, hs0⟩ := List.exists_mem_of_ne_nil l ((ht.2 k l).mp hl).1
      obtain ⟨s, hs, h1⟩ := hk k i hi (h.run _ ((hmem k l hl s0).mp hs0)).1 he
      exact ⟨s, (hmem k l hl s).mpr hs, h1⟩
  · have hr := (hmem k l hl s).mp hs
    obtain ⟨-, h4, h5, h6⟩ := h.run _ hr
    exact ⟨h4, h5, h.line _ hr⟩

end

/-! ### Drawing -/

section
variable {κ β : Type}

theorem foldlM_flat {γ δ σ : Type} (l : List γ) (g : γ → List δ) (step : σ → δ → Option σ) (s : σ) :
    l.foldlM (fun s a => (g a).foldlM step s) s = (l.flatMap g).foldlM step s := by
  induction l generalizing s with
  | nil => rfl
  | cons a l ih =>
    rw [List.flatMap_cons, List.foldlM_append, List.foldlM_cons]
    simp only [ih]

theorem drawSeqs_eq (n : Nat) (v : β) (l : List PixSeq) (f : Nat → β) :
    drawSeqs n v l f = (seqOffs l).foldlM (blobWrite n v) f := by
  unfold drawSeqs seqOffs
  rw [← foldlM_flat]
  congr 1
  funext f s
  rw [List.foldlM_map]

theorem blobWrites (n : Nat) (v : β) (l : List Nat) (f : Nat → β) (h : ∀ i ∈ l, i < n) :
    ∃ g, l.foldlM (blobWrite n v) f = some g ∧ ∀ i, g i = if i ∈ l then v else f i := by
  induction l generalizing f with
  | nil => exact ⟨f, rfl, by simp⟩
  | cons a l ih =>
    obtain ⟨g, h1, h2⟩ := ih (Function.update f a v) fun i hi => h i (List.mem_cons_of_mem _ hi)
    refine ⟨g, ?_, fun i => ?_⟩
    · rw [List.foldlM_cons]
      unfold blobWrite at *
      rw [if_pos (h a List.mem_cons_self)]
      exact h1
    · rw [h2]
      by_cases hi : i ∈ l
      · rw [if_pos hi, if_pos (List.mem_cons_of_mem _ hi)]
      · rw [if_neg hi]
        by_cases ha : i = a
        · rw [ha, Function.update_self, if_pos List.mem_cons_self]
        · rw [Function.update_of_ne ha, if_neg (by simp [ha, hi])]

/-- One past the last pixel of a list of sequences in increasing order. -/
theorem seqOffs_last (l : List PixSeq) (hs : l.Pairwise fun a b => a.offset + a.size ≤ b.offset)
    (hp : ∀ s ∈ l, 0 < s.size) (q : PixSeq) (hq : l.getLast? = some q) :
    q.offset + q.size - 1 ∈ seqOffs l ∧ ∀ i ∈ seqOffs l, i ≤ q.offset + q.size - 1 := by
  have hql : q ∈ l := List.mem_of_getLast? hq
  refine ⟨(mem_seqOffs _ _).mpr ⟨q, hql, ?_, ?_⟩, fun i hi => ?_⟩
  · have := hp q hql; omega
  · have := hp q hql; omega
  · obtain ⟨s, hs1, h1, h2⟩ := (mem_seqOffs _ _).mp hi
    obtain ⟨l', rfl⟩ : ∃ l', l = l' ++ [q] := by
      have hne : l ≠ [] := by rintro rfl; cases hql
      refine ⟨l.dropLast, ?_⟩
      rw [List.getLast?_eq_some_getLast hne] at hq
      cases hq
      exact (List.dropLast_append_getLast hne).symm
    rcases List.mem_append.mp hs1 with hs1 | hs1
    · have := (List.pairwise_append.mp hs).2.2 s hs1 q (List.mem_singleton.mpr rfl)
      omega
    · rw [List.mem_singleton] at hs1
      subst hs1
      omega

/-- The loop over the blobs. `F k l`: the blob is inside the image by the test of the code. -/
theorem drawLoop (n : Nat) (val : κ → β) (m : BlobMap κ) (base : Nat → β) (ok : Bool)
    (hne : ∀ k l, (k, l) ∈ m → l ≠ []) (hpos : ∀ k l, (k, l) ∈ m → ∀ s ∈ l, 0 < s.size)
    (hsep : ∀ k l, (k, l) ∈ m → l.Pairwise fun a b => a.offset + a.size ≤ b.offset)
    (hdis : m.Pairwise fun a b => ∀ i ∈ seqOffs a.2, i ∉ seqOffs b.2) :
    ∃ ok' g, m.foldlM (drawStep n val) (ok, base) = some (ok', g) ∧
      (ok' = true ↔ ok = true ∧ ∀ k l, (k, l) ∈ m → ∀ i ∈ seqOffs l, i + 1 < n) ∧
      (∀ k l, (k, l) ∈ m → (∀ i ∈ seqOffs l, i + 1 < n) → ∀ i ∈ seqOffs l, g i = val k) ∧
      ∀ i, (∀ k l, (k, l) ∈ m → (∀ i ∈ seqOffs l, i + 1 < n) → i ∉ seqOffs l) → g i = base i := by
  induction m generalizing base ok with
  | nil => exact ⟨ok, base, rfl, by simp, by simp, fun _ _ => rfl⟩
  | cons b m ih =>
    obtain ⟨k, l⟩ := b
    obtain ⟨hd1, hd2⟩ := List.pairwise_cons.mp hdis
    have hl := hne k l List.mem_cons_self
    obtain ⟨q, hq⟩ : ∃ q, l.getLast? = some q := ⟨_, List.getLast?_eq_some_getLast hl⟩
    have hp := hpos k l List.mem_cons_self
    obtain ⟨hq1, hq2⟩ := seqOffs_last l (hsep k l List.mem_cons_self) hp q hq
    have hq0 := hp q (List.mem_of_getLast? hq)
    have hfit : (q.offset + q.size ≥ n) ↔ ¬ ∀ i ∈ seqOffs l, i + 1 < n := by
      constructor
      · intro h hall
        have := hall _ hq1
        omega
      · intro h
        by_contra hlt
        exact h fun i hi => by have := hq2 i hi; omega
    have hstep : ∃ ok1 g1, drawStep n val (ok, base) (k, l) = some (ok1, g1) ∧
        (ok1 = true ↔ ok = true ∧ ∀ i ∈ seqOffs l, i + 1 < n) ∧
        (∀ i, g1 i = if (∀ i ∈ seqOffs l, i + 1 < n) ∧ i ∈ seqOffs l then val k else base i) := by
      unfold drawStep
      simp only [hq]
      by_cases hf : q.offset + q.size ≥ n
      · rw [if_pos hf]
        refine ⟨false, base, rfl, ?_, fun i => ?_⟩
        · simp only [Bool.false_eq_true, false_iff]
          exact fun h => hfit.mp hf h.2
        · rw [if_neg]
          exact fun h => hfit.mp hf h.1
      · rw [if_neg hf, drawSeqs_eq]
        have hf' : ∀ i ∈ seqOffs l, i + 1 < n := by
          by_contra hc
          exact hf (hfit.mpr hc)
        obtain ⟨g, h1, h2⟩ := blobWrites n (val k) (seqOffs l) base fun i hi => by
          have := hf' i hi; omega
        refine ⟨ok, g, ?_, ⟨fun h => ⟨h, hf'⟩, fun h => h.1⟩, fun i => ?_⟩
        · rw [h1]; rfl
        · rw [h2]
          by_cases hi : i ∈ seqOffs l
          · rw [if_pos hi, if_pos ⟨hf', hi⟩]
          · rw [if_neg hi, if_neg fun h => hi h.2]
    obtain ⟨ok1, g1, e1, e2, e3⟩ := hstep
    obtain ⟨ok', g, i1, i2, i3, i4⟩ := ih g1 ok1
      (fun k l h => hne k l (List.mem_cons_of_mem _ h))
      (fun k l h => hpos k l (List.mem_cons_of_mem _ h))
      (fun k l h => hsep k l (List.mem_cons_of_mem _ h)) hd2
    refine ⟨ok', g, ?_, ?_, ?_, ?_⟩
    · rw [List.foldlM_cons, e1]; exact i1
    · rw [i2, e2]
      constructor
      · rintro ⟨⟨h1, h2⟩, h3⟩
        refine ⟨h1, fun k' l' h => ?_⟩
        rcases List.mem_cons.mp h with h | h
        · cases h; exact h2
        · exact h3 k' l' h
      · rintro ⟨h1, h2⟩
        exact ⟨⟨h1, h2 k l List.mem_cons_self⟩, fun k' l' h => h2 k' l' (List.mem_cons_of_mem _ h)⟩
    · intro k' l' h hf i hi
      rcases List.mem_cons.mp h with h | h
      · cases h
        rw [i4 i fun k2 l2 h2 _ hi2 => hd1 (k2, l2) h2 i hi hi2, e3, if_pos ⟨hf, hi⟩]
      · exact i3 k' l' h hf i hi
    · intro i hi
      rw [i4 i fun k2 l2 h2 hf2 => hi k2 l2 (List.mem_cons_of_mem _ h2) hf2, e3, if_neg]
      rintro ⟨h1, h2⟩
      exact hi k l List.mem_cons_self h1 h2

end

end Smil
