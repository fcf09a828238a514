import Verif.PathOpFastLemmas
import Verif.PropsPathOp

/-!
# C112: grey path openings by queues
-/

namespace Smil
section
variable {u : PT}

/-! ### Specification -/

/-- The checks of `ImPathOpening` succeed: a plane image, allocated, an output of the same size (or resized), and `W * H * 8` is an `int`. -/
structure FastArgs (auto : Bool) (di dout : Dims) : Prop where
  alloc : di.count ≠ 0
  plane : di.d = 1
  size : dout = di ∨ auto = true
  int : di.w * di.h * 8 < 2 ^ 31

/-- The length of the longest path of points of `S` that ends at `p`: the relation says which point may follow another one. -/
def LongestEnd (R : Int × Int → Int × Int → Prop) (S : Int × Int → Prop) (p : Int × Int) (n : Nat) : Prop :=
  ∀ m, m < n ↔ ∃ l, l.length = m ∧ IsPathIn R S (l ++ [p])

/-- The relation of a direction: each of the four orientations, forwards and backwards. -/
def dirStep : Fin 8 → Int × Int → Int × Int → Prop
  | 0 => PathStep 0
  | 1 => fun a b => PathStep 0 b a
  | 2 => PathStep 1
  | 3 => fun a b => PathStep 1 b a
  | 4 => PathStep 2
  | 5 => fun a b => PathStep 2 b a
  | 6 => PathStep 3
  | 7 => fun a b => PathStep 3 b a

/-! ### Lemmas -/

theorem fast_checkOne {auto : Bool} {di dout : Dims} (h : FastArgs auto di dout) : checkOne auto di dout = .ok () := by
  unfold checkOne
  rw [if_neg h.alloc]
  rcases h.size with e | e
  · rw [if_pos e]
  · split
    · rfl
    · simp [e]

theorem dirStep_eq (k : Fin 8) : LamRel k = dirStep k := by
  funext q p
  have r := lamRel_step q p
  fin_cases k <;> simp only [dirStep, Fin.reduceFinMk] <;> refine propext ?_
  exacts [r.1, r.2.1, r.2.2.1, r.2.2.2.1, r.2.2.2.2.1, r.2.2.2.2.2.1, r.2.2.2.2.2.2.1, r.2.2.2.2.2.2.2]

theorem longestEnd_iff {W H : Nat} {k : Fin 8} {f : Int × Int → Int} {L : Int} {lam : Int × Int → Nat} {p : Int × Int} :
    LamAll W H k f L lam p ↔ LongestEnd (dirStep k) (fun q => (0 ≤ q.1 ∧ q.1 < W ∧ 0 ≤ q.2 ∧ q.2 < H) ∧ L ≤ f q) p (lam p) := by
  have hS : binSet W H (levelBin f L) = fun q : Int × Int => (0 ≤ q.1 ∧ q.1 < W ∧ 0 ≤ q.2 ∧ q.2 < H) ∧ L ≤ f q := by
    funext q
    unfold binSet levelBin
    rw [inWH_iff, decide_eq_true_eq]
  unfold LamAll LamOK LongestEnd
  rw [hS, dirStep_eq]
  refine forall_congr' fun m => iff_congr Iff.rfl ?_
  rw [lreach_iff]
  constructor
  · rintro ⟨l, h1, h2, h3⟩
    refine ⟨l.reverse, by simpa using h1, ?_, fun q hq => h3 q (by simpa [or_comm] using hq)⟩
    rw [← List.reverse_cons, List.isChain_reverse]
    exact h2
  · rintro ⟨l, h1, h2, h3⟩
    refine ⟨l.reverse, by simpa using h1, ?_, fun q hq => h3 q (by simpa [or_comm] using hq)⟩
    rw [← List.isChain_reverse]
    simpa using h2

theorem level_iff (im : Img (Px UINT8)) (hd : im.dims.d = 1) (M : Nat) (p : Int × Int) :
    binSet im.dims.w im.dims.h (levelBin (fun p => (im.buf (off2 im.dims.w p)).val) (M + 1)) p ↔ AboveThr im M p := by
  rw [← above_iff rfl (by decide) im hd M p]
  have e : levelBin (fun p => (im.buf (off2 im.dims.w p)).val) (M + 1) = fun p => gtU32 (im.buf (off2 im.dims.w p)) M := by
    funext q
    unfold levelBin gtU32
    rw [decide_eq_decide]
    have h1 := (im.buf (off2 im.dims.w q)).lo_le
    have h2 := (im.buf (off2 im.dims.w q)).le_hi
    rw [show UINT8.lo = 0 by decide] at h1
    rw [show UINT8.hi = 255 by decide] at h2
    rw [Int.emod_eq_of_lt h1 (by omega)]
    exact Int.add_one_le_iff
  rw [e]

/-! ### Properties -/

/-- **C112, the update of a level**: `Lambda` holds for each pixel the length of the longest path of pixels of value `L - 1` or more that ends there, and the queue of this direction
the pixels of value `L - 1`. After the update the lengths are those for the level `L`, whatever the image, and the queues are empty. -/
theorem C112_update (W H : Nat) (k : Fin 8) (f : Int × Int → Int) (L : Int) (st : DirSt)
    (hlen : ∀ p : Int × Int, 0 ≤ p.1 → p.1 < W → 0 ≤ p.2 → p.2 < H →
      LongestEnd (dirStep k) (fun q => (0 ≤ q.1 ∧ q.1 < W ∧ 0 ≤ q.2 ∧ q.2 < H) ∧ L - 1 ≤ f q) p (st.lam p))
    (hq : ∀ r l, l ∈ st.q r ↔ ∃ p : Int × Int, (0 ≤ p.1 ∧ p.1 < W ∧ 0 ≤ p.2 ∧ p.2 < H) ∧ rankQ W H k p = r ∧ encQ W H k p = l ∧ f p = L - 1)
    (hp : ∀ p : Int × Int, 0 ≤ p.1 → p.1 < W → 0 ≤ p.2 → p.2 < H → (st.push p = true ↔ f p < L)) :
    ∃ st', updateDir W H k f L st = some st' ∧ (∀ r, st'.q r = []) ∧
      ∀ p : Int × Int, 0 ≤ p.1 → p.1 < W → 0 ≤ p.2 → p.2 < H →
        LongestEnd (dirStep k) (fun q => (0 ≤ q.1 ∧ q.1 < W ∧ 0 ≤ q.2 ∧ q.2 < H) ∧ L ≤ f q) p (st'.lam p) := by
  have hl : ∀ p, inWH W H p = true → LamAll W H k f (L - 1) st.lam p := by
    intro p hp
    rw [inWH_iff] at hp
    exact longestEnd_iff.mpr (hlen p hp.1 hp.2.1 hp.2.2.1 hp.2.2.2)
  obtain ⟨st', e, h1, h2⟩ := updateDir_spec (W := W) (H := H) k.isLt (f := f) (L := L) (st := st)
    ⟨fun r l => by rw [hq]; exact exists_congr fun p => by rw [inWH_iff], fun p h => by rw [inWH_iff] at h; exact hp p h.1 h.2.1 h.2.2.1 h.2.2.2, fun p h hf => by
      by_contra h0
      exact absurd (((hl p h) 0).mp (Nat.pos_of_ne_zero h0)).mem.2 (by unfold levelBin; rw [decide_eq_true_eq]; omega)⟩
  refine ⟨st', e, h1.empty, fun p a b c d => longestEnd_iff.mp (h2 hl p ?_)⟩
  rw [inWH_iff]
  exact ⟨a, b, c, d⟩

theorem fast_result (auto : Bool) (im : Img (Px UINT8)) (len : Nat) (out : Img (Px u)) (ha : FastArgs auto im.dims out.dims) :
    ∃ st : (Nat → DirSt) × (Nat → Px u), fastPathOpening auto false im len out = some (.ok ⟨im.dims, st.2⟩) ∧
      FastPOInv im.dims.w im.dims.h len (fun p => (im.buf (off2 im.dims.w p)).val) 255 st := by
  have hf : ∀ p : Int × Int, 0 ≤ (im.buf (off2 im.dims.w p)).val := fun p => (im.buf (off2 im.dims.w p)).lo_le
  obtain ⟨d, e, h⟩ := fastInit (u := u) (W := im.dims.w) (H := im.dims.h) (len := len) hf
  obtain ⟨st, e', h'⟩ := FastPOInv.run (src := fun _ p => (im.buf (off2 im.dims.w p)).val) (fun _ => rfl) 255 h
  refine ⟨st, ?_, by simpa using h'⟩
  unfold fastPathOpening
  rw [fast_checkOne ha]
  simp only [Bool.false_eq_true, if_false]
  rw [if_pos ⟨ha.plane, ha.int⟩, e, Option.bind_some]
  simp only [Nat.zero_add] at e'
  rw [e']
  rfl

/-- **C112, what is proved of the result** (no in-place use). A pixel receives a level `j` with:
`j` is less than the value of the pixel, or zero; and `j` is at least the level `M` whenever the pixel lies on a path of `Lenght` pixels above `M`, in one of the first three orientations.
The opening would be the greatest of these `M`, plus one, in the four orientations: it is one level too low (`C112_level_bug`), and in the last orientation the first lengths are exchanged
(`C112_diagonal_bug`). -/
theorem C112_bounds_partial (auto : Bool) (im : Img (Px UINT8)) (len : Nat) (out : Img (Px u)) (ha : FastArgs auto im.dims out.dims) :
    ∃ r, fastPathOpening auto false im len out = some (.ok r) ∧ r.dims = im.dims ∧ ∀ p v, im.at? p = some v →
      ∃ j : Nat, r.at? p = some (u.wrap j) ∧ (j = 0 ∨ (j : Int) < v.val) ∧
        ∀ M : Nat, ∀ o : Fin 4, o ≠ 3 → (∃ l, IsPathIn (PathStep o) (AboveThr im M) l ∧ (p.x, p.y) ∈ l ∧ len ≤ l.length) → M ≤ j := by
  obtain ⟨st, e, h⟩ := fast_result auto im len out ha
  refine ⟨_, e, rfl, fun p v hv => ?_⟩
  have hin := Img.at?_eq_some_in _ _ _ hv
  have hw := hin
  unfold Img.In at hw
  have hp : inWH im.dims.w im.dims.h (p.x, p.y) = true := by
    rw [inWH_iff]
    dsimp only
    omega
  rw [Img.buf_offOf im _ hin, Option.some.injEq] at hv
  have ho := off2_eq ha.plane hin
  obtain ⟨j, j1, j2, j3⟩ := h.out (offOf im.dims p) (by rw [← ho]; exact off2_lt hp)
  rw [pt2_eq ha.plane hin] at j2 j3
  rw [ho, hv] at j2
  refine ⟨j, ?_, j2, fun M o ho' ⟨l, l1, l2, l3⟩ => ?_⟩
  · rw [Img.buf_offOf (⟨im.dims, st.2⟩ : Img (Px u)) p hin]
    exact congrArg some j1
  · have hM : M < 255 := by
      obtain ⟨w, hw, hlt⟩ := l1.2 _ l2
      have := w.le_hi
      rw [show UINT8.hi = 255 by decide] at this
      omega
    refine j3 M hM o ho' ⟨l, ⟨l1.1, fun q hq => ?_⟩, l2, l3⟩
    exact (level_iff im ha.plane M q).mpr (l1.2 q hq)

/-- **C112, one level too low**: every pixel that is not zero becomes smaller, even in a constant image with a criterion of one pixel. -/
theorem C112_level_bug (auto : Bool) (im : Img (Px UINT8)) (len : Nat) (out : Img (Px UINT8)) (ha : FastArgs auto im.dims out.dims) :
    ∃ r, fastPathOpening auto false im len out = some (.ok r) ∧ ∀ p v w, im.at? p = some v → r.at? p = some w → 0 < v.val → w.val < v.val := by
  obtain ⟨r, e, _, h⟩ := C112_bounds_partial auto im len out ha
  refine ⟨r, e, fun p v w hv hw h0 => ?_⟩
  obtain ⟨j, j1, j2, _⟩ := h p v hv
  rw [hw, Option.some.injEq] at j1
  have := v.le_hi
  have hlo : UINT8.lo = 0 := by decide
  rw [j1, UINT8.wrap_of_mem (by omega) (by omega)]
  omega

/-- **C112**, in place: the output is filled with zeros before the input is read, and stays so. -/
theorem C112_inplace_bug (auto : Bool) (im : Img (Px UINT8)) (len : Nat) (ha : FastArgs auto im.dims im.dims) :
    ∃ r, fastPathOpening auto true im len im = some (.ok r) ∧ r.dims = im.dims ∧ ∀ p w, r.at? p = some w → w.val = 0 := by
  have h0 : (UINT8.wrap 0).val = 0 := by decide
  obtain ⟨d, e, h⟩ := fastInit (u := UINT8) (W := im.dims.w) (H := im.dims.h) (len := len) (f := fun _ => 0) (fun _ => le_rfl)
  obtain ⟨d', e'⟩ := fastZero_run (u := UINT8) (W := im.dims.w) (H := im.dims.h) (len := len) (src := fun o p => (o (off2 im.dims.w p)).val) (z := fun _ => UINT8.wrap 0)
    (by funext _; exact h0) 255 (L := 0) (d := d) (fun k hk => by simpa using h.seeded k hk)
  refine ⟨⟨im.dims, fun _ => UINT8.wrap 0⟩, ?_, rfl, fun p w hw => ?_⟩
  · unfold fastPathOpening
    rw [fast_checkOne ha]
    simp only [if_true]
    simp only [h0]
    rw [if_pos ⟨ha.plane, ha.int⟩, e, Option.bind_some]
    simp only [Nat.zero_add] at e'
    rw [e']
    rfl
  · rw [Img.buf_offOf _ _ (Img.at?_eq_some_in _ _ _ hw), Option.some.injEq] at hw
    rw [← hw]
    exact h0

/-- **C112**, the errors: an input that is not allocated, an output of another size that may not be resized. More than one slice, and sizes for which `W * H * 8` is not an `int`, are undefined. -/
theorem C112_errors (auto inPl : Bool) (im : Img (Px UINT8)) (len : Nat) (out : Img (Px u)) :
    (im.dims.count = 0 → fastPathOpening auto inPl im len out = some (.error errBadAllocation)) ∧
    (im.dims.count ≠ 0 → out.dims ≠ im.dims → auto = false → fastPathOpening auto inPl im len out = some (.error errBadSize)) ∧
    (im.dims.count ≠ 0 → out.dims = im.dims → (im.dims.d ≠ 1 ∨ 2 ^ 31 ≤ im.dims.w * im.dims.h * 8) → fastPathOpening auto inPl im len out = none) := by
  unfold fastPathOpening checkOne
  refine ⟨fun h => by rw [if_pos h], fun h1 h2 h3 => ?_, fun h1 h2 h3 => ?_⟩
  · rw [if_neg h1, if_neg h2, h3]
    rfl
  · rw [if_neg h1, if_pos h2]
    simp only
    rw [if_neg (by omega)]

/-- **C112, the closing** (`ImPathClosing` between images of bytes): no pixel decreases, and each pixel that is not 255 increases: one level too high. -/
theorem C112_closing_partial (auto : Bool) (im : Img (Px UINT8)) (len : Nat) (out : Img (Px UINT8)) (ha : FastArgs auto im.dims out.dims) :
    ∃ r, fastPathClosing auto im len out = some (.ok r) ∧ r.dims = im.dims ∧ ∀ p v w, im.at? p = some v → r.at? p = some w →
      v.val ≤ w.val ∧ (v.val < 255 → v.val < w.val) := by
  obtain ⟨neg, e1⟩ := Img.mapK_total (kInv (t := UINT8)) im (fun p u _ => by rw [kInv_eq (.inl rfl)]; rfl)
  obtain ⟨d1, n1⟩ := Img.mapK_some _ _ _ e1
  obtain ⟨o, e2, d2, h2⟩ := C112_bounds_partial auto neg len (⟨im.dims, out.buf⟩ : Img (Px UINT8)) ⟨by rw [d1]; exact ha.alloc, by rw [d1]; exact ha.plane, .inl d1.symm, by rw [d1]; exact ha.int⟩
  obtain ⟨r, e3⟩ := Img.mapK_total (kInv (t := UINT8)) o (fun p u _ => by rw [kInv_eq (.inl rfl)]; rfl)
  obtain ⟨d3, n3⟩ := Img.mapK_some _ _ _ e3
  refine ⟨r, ?_, d3.trans (d2.trans d1), fun p v w hv hw => ?_⟩
  · unfold fastPathClosing andThen
    rw [fast_checkOne ha]
    simp only [e1, Option.bind_some, e2, e3, Option.map_some]
  · obtain ⟨a, a1, a2⟩ := n1 p v hv
    obtain ⟨j, j1, j2, _⟩ := h2 p a a2
    obtain ⟨b, b1, b2⟩ := n3 p _ j1
    rw [kInv_eq (.inl rfl), Option.some.injEq] at a1 b1
    rw [hw, Option.some.injEq] at b2
    have ea : a.val = UINT8.hi + UINT8.lo - v.val := by rw [← a1]
    have eb : w.val = UINT8.hi + UINT8.lo - (UINT8.wrap j).val := by rw [b2, ← b1]
    have hlo : UINT8.lo = 0 := by decide
    have hhi : UINT8.hi = 255 := by decide
    have := v.lo_le
    have := v.le_hi
    have := a.le_hi
    rw [UINT8.wrap_of_mem (by omega) (by omega)] at eb
    omega

end

set_option maxRecDepth 100000 in
/-- **C112, the last orientation**: the row 5, 0, 5 holds no path of three pixels that are not zero. The opening of criterion three gives 4 to two pixels: `Lambda[6]` begins with
`W - x + y` and `Lambda[7]` with `H + x - y`, each has the value of the other. -/
theorem C112_diagonal_bug :
    let im : Img (Px UINT8) := im8 ⟨3, 1, 1⟩ [5, 0, 5]
    (∀ p, ¬ OnLongPath (AboveThr im 0) p 3) ∧
      (fastPathOpening (u := UINT8) false false im 3 im).map (fun r => r.toOption.map fun r => (List.range 3).map fun i => (r.buf i).val) = some (some [4, 0, 4]) := by
  refine ⟨?_, by decide +kernel⟩
  rintro p ⟨o, l, ⟨hc, hl⟩, hp, hn⟩
  have hall : ∀ q ∈ l, q = (0, 0) ∨ q = (2, 0) := by
    intro q hq
    obtain ⟨v, hv, hlt⟩ := hl q hq
    have hi := Img.at?_eq_some_in _ _ _ hv
    rw [Img.buf_offOf _ _ hi, Option.some.injEq] at hv
    unfold Img.In at hi
    simp only [im8] at hi
    obtain ⟨x, y⟩ := q
    dsimp only at hi
    have hy : y = 0 := by omega
    subst hy
    have hx : x = 0 ∨ x = 1 ∨ x = 2 := by omega
    rcases hx with rfl | rfl | rfl
    · exact .inl rfl
    · exfalso
      have : v.val = 0 := by rw [← hv]; decide +kernel
      omega
    · exact .inr rfl
  match l, hn with
  | a :: b :: c :: l, _ =>
    have ha := hall a (by simp)
    have hb := hall b (by simp)
    have h := (List.isChain_cons_cons.mp hc).1
    rcases ha with rfl | rfl <;> rcases hb with rfl | rfl <;> fin_cases o <;> simp [PathStep] at h

set_option maxRecDepth 100000 in
/-- **C112, a lost path**: the exchanged values can be too small as well. The last row and the pixel above its end form a path of five pixels of value 5; with the criterion five the corner
where it turns becomes 0. -/
theorem C112_lost_bug :
    let im : Img (Px UINT8) := im8 ⟨4, 3, 1⟩ [0, 0, 0, 0, 0, 0, 0, 5, 5, 5, 5, 5]
    OnLongPath (AboveThr im 4) (3, 2) 5 ∧
      (fastPathOpening (u := UINT8) false false im 5 im).map (fun r => r.toOption.map fun r => (r.at? ⟨3, 2, 0⟩).map Px.val) = some (some (some 0)) := by
  refine ⟨⟨3, [(0, 2), (1, 2), (2, 2), (3, 2), (3, 1)], ⟨?_, ?_⟩, by simp, by simp⟩, by decide +kernel⟩
  · simp [PathStep]
  · intro q hq
    simp only [List.mem_cons, List.not_mem_nil, or_false] at hq
    rcases hq with rfl | rfl | rfl | rfl | rfl <;> exact ⟨UINT8.wrap 5, by decide +kernel, by decide⟩

set_option maxRecDepth 100000 in
/-- **C112, a closing with a wider output**: the second `inv` is that of the output. A constant image of bytes with value 250 becomes 65531 in an image of 16 bits. -/
theorem C112_closing_type_bug :
    (fastPathClosing (u := UINT16) false (im8 ⟨2, 1, 1⟩ [250, 250]) 1 ⟨⟨2, 1, 1⟩, fun _ => UINT16.wrap 0⟩).map (fun r => r.toOption.map fun r => (List.range 2).map fun i => (r.buf i).val) =
      some (some [65531, 65531]) := by decide +kernel

set_option maxRecDepth 100000 in
/-- A row with a path of three pixels above 6: it is kept at the level 6, where the opening would give 7. The isolated pixel disappears. -/
example :
    let im : Img (Px UINT8) := im8 ⟨4, 2, 1⟩ [7, 9, 8, 0, 0, 0, 0, 0]
    FastArgs false im.dims im.dims ∧ (∃ l, IsPathIn (PathStep 1) (AboveThr im 6) l ∧ ((1 : Int), (0 : Int)) ∈ l ∧ 3 ≤ l.length) ∧
      vals8 (fastPathOpening (u := UINT8) false false im 3 im) = [6, 6, 6, 0, 0, 0, 0, 0] := by
  refine ⟨⟨by decide, rfl, .inl rfl, by decide⟩, ⟨[(0, 0), (1, 0), (2, 0)], ⟨?_, ?_⟩, by simp, by simp⟩, by decide +kernel⟩
  · simp [PathStep]
  · intro q hq
    simp only [List.mem_cons, List.not_mem_nil, or_false] at hq
    rcases hq with rfl | rfl | rfl
    exacts [⟨UINT8.wrap 7, by decide +kernel, by decide⟩, ⟨UINT8.wrap 9, by decide +kernel, by decide⟩, ⟨UINT8.wrap 8, by decide +kernel, by decide⟩]

/-- The update of the first direction in an image of two rows, at the level 1: the point above is zero. -/
example :
    let f : Int × Int → Int := fun p => if p.2 = 0 then 0 else 3
    (updateDir 1 2 0 f 1 ⟨fun p => (p.2 + 1).toNat, fun p => decide (f p < 1), fun r => if r = 0 then [0] else []⟩).map (fun st => (st.lam (0, 0), st.lam (0, 1))) = some (0, 1) := by
  decide +kernel

end Smil
