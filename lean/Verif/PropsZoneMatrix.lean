import Verif.ZoneMatrixLemmas
import Verif.PropsGeoMeas
import Mathlib.Data.List.Perm.Basic
import Mathlib.Data.Finset.Card

/-!
# C95: features of the grey level size zone matrix
-/

namespace Smil
open Relation
variable {t : PT}

/-! ### Specification -/

/-- The pixel `p` of the slice `z` reaches the level `l` of `N`: its value is above `(l - 1/2) / N` of 255. -/
def Reaches (im : Img (Px t)) (N l z : Nat) (p : IntPoint) : Prop :=
  ∃ v, (planeOf im z).at? p = some v ∧ 255 * (2 * (l : Int) - 1) < 2 * v.val * N

/-- A list of the zones of all levels, each with its level, its slice and its pixels: the connected components of the pixels of a slice
that reach the level. -/
structure IsZones (im : Img (Px t)) (N : Nat) (zs : List (Nat × Nat × List IntPoint)) : Prop where
  lev : ∀ e ∈ zs, 1 ≤ e.1 ∧ e.1 ≤ N ∧ e.2.1 < im.dims.d
  comp : ∀ e ∈ zs, e.2.2.Nodup ∧ ∃ p, Reaches im N e.1 e.2.1 p ∧ ∀ q, q ∈ e.2.2 ↔ SetPath Touch26 (Reaches im N e.1 e.2.1) p q
  all : ∀ l z p, 1 ≤ l → l ≤ N → z < im.dims.d → Reaches im N l z p → ∃ pts, (l, z, pts) ∈ zs ∧ p ∈ pts
  disj : zs.Pairwise fun a b => a.1 = b.1 → a.2.1 = b.2.1 → ∀ x ∈ a.2.2, x ∉ b.2.2

/-- The greatest number of pixels of a zone, 0 if there is no zone. -/
def IsMaxSize (zs : List (Nat × Nat × List IntPoint)) (W : Nat) : Prop :=
  (∀ e ∈ zs, e.2.2.length ≤ W) ∧ (W = 0 ∨ ∃ e ∈ zs, e.2.2.length = W)

/-- The twelve features, not normalised, of zones of given levels and sizes: emphases of small and of large sizes, of low and of high levels,
of the four combinations, the two non-uniformities, and the two sums. -/
def zoneFeatures (N W : Nat) (cs : List (Nat × Nat)) : List ℚ :=
  [(cs.map fun c => 1 / (c.2 : ℚ) ^ 2).sum, (cs.map fun c => (c.2 : ℚ) ^ 2).sum,
   (cs.map fun c => 1 / (c.1 : ℚ) ^ 2).sum, (cs.map fun c => (c.1 : ℚ) ^ 2).sum,
   (cs.map fun c => 1 / ((c.1 : ℚ) ^ 2 * (c.2 : ℚ) ^ 2)).sum, (cs.map fun c => ((c.1 : ℚ) / c.2) ^ 2).sum,
   (cs.map fun c => ((c.2 : ℚ) / c.1) ^ 2).sum, (cs.map fun c => (c.1 : ℚ) ^ 2 * (c.2 : ℚ) ^ 2).sum,
   ((List.range N).map fun i => ((cs.countP fun c => decide (c.1 = i + 1) : Nat) : ℚ) ^ 2).sum,
   ((List.range W).map fun i => ((cs.countP fun c => decide (c.2 = i + 1) : Nat) : ℚ) ^ 2).sum,
   (cs.map fun c => (c.1 : ℚ)).sum, (cs.map fun c => (c.2 : ℚ)).sum]

/-- The levels and sizes of the zones. -/
def trueCells (zs : List (Nat × Nat × List IntPoint)) : List (Nat × Nat) := zs.map fun e => (e.1, e.2.2.length)

/-- The levels and sizes for which the zones are counted: the size is too large by one, and the zones of the greatest size `W` go for single
pixels of the next level. -/
def shiftedCells (W : Nat) (zs : List (Nat × Nat × List IntPoint)) : List (Nat × Nat) :=
  zs.map fun e => if e.2.2.length = W then (e.1 + 1, 1) else (e.1, e.2.2.length + 1)

/-! ### The levels -/

theorem zmQuant_spec {N : Nat} (hN : N ≤ 255) {v : Px t} (h0 : 0 ≤ v.val) (h1 : v.val ≤ 255) :
    ∃ q : Nat, zmQuant N v = some q ∧ ∀ l : Nat, l ≤ q ↔ 255 * (2 * (l : Int) - 1) < 2 * v.val * N := by
  have hx : (0 : ℚ) ≤ (v.val : ℚ) / 255 * N := by
    have : (0 : ℚ) ≤ v.val := by exact_mod_cast h0
    have : (0 : ℚ) ≤ N := by positivity
    positivity
  have hle : ∀ l : Int, l ≤ ⌊(v.val : ℚ) / 255 * N + 1 / 2⌋ ↔ 255 * (2 * l - 1) < 2 * v.val * N := by
    intro l
    rw [Int.le_floor]
    have e : ((l : ℚ) ≤ (v.val : ℚ) / 255 * N + 1 / 2) ↔ 255 * (2 * l - 1) ≤ 2 * v.val * N := by
      constructor
      · intro h
        have : (255 * (2 * (l : ℚ) - 1)) ≤ 2 * v.val * N := by linarith
        exact_mod_cast this
      · intro h
        have : (255 * (2 * (l : ℚ) - 1)) ≤ 2 * v.val * N := by exact_mod_cast h
        linarith
    rw [e]
    have e2 : 2 * v.val * N = 2 * (v.val * N) := by ring
    rw [e2]
    omega
  have hb0 : 0 ≤ ⌊(v.val : ℚ) / 255 * N + 1 / 2⌋ := by
    rw [Int.floor_nonneg]
    linarith
  have hb1 : ¬ 256 ≤ ⌊(v.val : ℚ) / 255 * N + 1 / 2⌋ := by
    rw [hle]
    have : v.val * N ≤ 255 * 255 := mul_le_mul h1 (by exact_mod_cast hN) (by positivity) (by norm_num)
    have e2 : 2 * v.val * N = 2 * (v.val * N) := by ring
    rw [e2]
    omega
  refine ⟨(⌊(v.val : ℚ) / 255 * N + 1 / 2⌋).toNat, ?_, fun l => ?_⟩
  · unfold zmQuant roundC
    rw [if_pos hx]
    simp only
    rw [if_pos (by constructor <;> omega)]
    congr 2
    omega
  · rw [← hle]
    omega

/-! ### The zones -/

theorem pairwise_turns (N d : Nat) : (zmTurns N d).Pairwise fun a b => ¬ (a.1 = b.1 ∧ a.2 = b.2) := by
  unfold zmTurns
  rw [List.pairwise_flatMap]
  constructor
  · intro n _
    rw [List.pairwise_map]
    refine List.Pairwise.imp ?_ (List.nodup_range (n := d))
    rintro a b hab ⟨-, h⟩
    exact hab h
  · refine List.Pairwise.imp ?_ (List.nodup_range (n := N))
    intro a b hab x hx y hy h
    obtain ⟨_, _, rfl⟩ := List.mem_map.mp hx
    obtain ⟨_, _, rfl⟩ := List.mem_map.mp hy
    exact hab h.1

theorem mem_zmTurns {N d : Nat} {e : Nat × Nat} : e ∈ zmTurns N d ↔ e.1 < N ∧ e.2 < d := by
  unfold zmTurns
  simp only [List.mem_flatMap, List.mem_map, List.mem_range]
  constructor
  · rintro ⟨n, hn, k, hk, rfl⟩; exact ⟨hn, hk⟩
  · rintro ⟨h1, h2⟩; exact ⟨e.1, h1, e.2, h2, rfl⟩

/-- The zones that are found. -/
theorem zmZones_spec {N : Nat} (hN : N ≤ 255) (im : Img (Px t)) (hv : ∀ p v, im.at? p = some v → 0 ≤ v.val ∧ v.val ≤ 255) :
    ∃ b zs, im.mapK (zmQuant N) = some b ∧ zmZones N b = some (zs.map fun e => (e.1 - 1, e.2.2.length)) ∧ IsZones im N zs := by
  have hbuf : ∀ i < im.dims.count, 0 ≤ (im.buf i).val ∧ (im.buf i).val ≤ 255 := by
    intro i hi
    obtain ⟨p, hp, _⟩ := Img.buf_at? im i hi
    exact hv p _ hp
  have hq : ∀ i < im.dims.count, ∃ q : Nat, zmQuant N (im.buf i) = some q ∧ ∀ l : Nat, l ≤ q ↔ 255 * (2 * (l : Int) - 1) < 2 * (im.buf i).val * N :=
    fun i hi => zmQuant_spec hN (hbuf i hi).1 (hbuf i hi).2
  have hb : im.mapK (zmQuant N) = some ⟨im.dims, fun i => (zmQuant N (im.buf i)).getD default⟩ := by
    unfold Img.mapK
    rw [if_pos]
    intro i hi
    obtain ⟨q, h, -⟩ := hq i hi
    rw [h]; rfl
  have hturn : ∀ e : Nat × Nat, ∃ L, e ∈ zmTurns N im.dims.d →
      zmTurn ⟨im.dims, fun i => (zmQuant N (im.buf i)).getD default⟩ e = some (L.map List.length) ∧ IsComps Touch26 (Reaches im N (e.1 + 1) e.2) L := by
    intro e
    by_cases he : e ∈ zmTurns N im.dims.d
    · obtain ⟨he1, he2⟩ := mem_zmTurns.mp he
      have hlink : GmLink ⟨im.dims.w, im.dims.h, 1⟩ (fun _ => 0)
          (fun i => i < Dims.count ⟨im.dims.w, im.dims.h, 1⟩ ∧
            decide (e.1 + 1 ≤ (zmQuant N (im.buf (e.2 * im.dims.w * im.dims.h + i))).getD default) = true)
          (Reaches im N (e.1 + 1) e.2) Touch26 := by
        refine ⟨fun i hi => hi.1, fun p ⟨v, h, _⟩ => Img.at?_eq_some_in (planeOf im e.2) _ _ h, fun p hp => ?_, fun p q _ _ => by simp⟩
        have hlt : offOf ⟨im.dims.w, im.dims.h, 1⟩ p < Dims.count ⟨im.dims.w, im.dims.h, 1⟩ := offOf_lt hp
        have hlt' : e.2 * im.dims.w * im.dims.h + offOf ⟨im.dims.w, im.dims.h, 1⟩ p < im.dims.count := by
          rw [← count_whd] at hlt ⊢
          simp only [Nat.mul_one] at hlt
          have : im.dims.w * im.dims.h * (e.2 + 1) ≤ im.dims.w * im.dims.h * im.dims.d := Nat.mul_le_mul_left _ he2
          have e' : e.2 * im.dims.w * im.dims.h = im.dims.w * im.dims.h * e.2 := by ring
          rw [Nat.mul_add, Nat.mul_one] at this
          omega
        obtain ⟨q, h1, h2⟩ := hq _ hlt'
        unfold Reaches
        rw [Img.buf_offOf (planeOf im e.2) p hp, h1, decide_eq_true_iff, Option.getD_some, h2]
        constructor
        · rintro ⟨-, h⟩; exact ⟨_, rfl, h⟩
        · rintro ⟨v, h1, h2⟩
          cases h1
          exact ⟨hlt, h2⟩
      obtain ⟨L, h1, h2⟩ := zmBinary_spec ⟨im.dims.w, im.dims.h, 1⟩ rfl _ _ hlink
      exact ⟨L, fun _ => ⟨h1, h2⟩⟩
    · exact ⟨[], fun h => absurd h he⟩
  choose L hL using hturn
  refine ⟨_, (zmTurns N im.dims.d).flatMap fun e => (L e).map fun pts => (e.1 + 1, e.2, pts), hb, ?_, ?_, ?_, ?_, ?_⟩
  · unfold zmZones
    rw [if_pos]
    · congr 1
      simp only [List.map_flatMap, List.map_map]
      rw [List.flatMap_congr]
      intro e he
      rw [(hL e he).1]
      simp [Function.comp_def]
    · rw [List.all_eq_true]
      intro e he
      rw [(hL e he).1]; rfl
  · intro e he
    obtain ⟨d, hd, he⟩ := List.mem_flatMap.mp he
    obtain ⟨pts, _, rfl⟩ := List.mem_map.mp he
    have := mem_zmTurns.mp hd
    exact ⟨by simp, this.1, this.2⟩
  · intro e he
    obtain ⟨d, hd, he⟩ := List.mem_flatMap.mp he
    obtain ⟨pts, hpts, rfl⟩ := List.mem_map.mp he
    exact (hL d hd).2.comp pts hpts
  · intro l z p h1 h2 h3 h4
    have hd : ((l - 1, z) : Nat × Nat) ∈ zmTurns N im.dims.d := mem_zmTurns.mpr ⟨by simp; omega, h3⟩
    have hl : l - 1 + 1 = l := by omega
    obtain ⟨pts, k1, k2⟩ := (hL _ hd).2.all p (by simp only [hl]; exact h4)
    refine ⟨pts, List.mem_flatMap.mpr ⟨_, hd, List.mem_map.mpr ⟨pts, k1, by simp only [hl]⟩⟩, k2⟩
  · rw [List.pairwise_flatMap]
    constructor
    · intro e he
      rw [List.pairwise_map]
      exact (hL e he).2.disj.imp fun h _ _ => h
    · refine (pairwise_turns N im.dims.d).imp ?_
      intro a b hab x hx y hy h1 h2
      obtain ⟨_, _, rfl⟩ := List.mem_map.mp hx
      obtain ⟨_, _, rfl⟩ := List.mem_map.mp hy
      exact absurd ⟨by simpa using h1, h2⟩ hab

/-! ### There is but one list of zones, up to the order -/

/-- A zone as a set. -/
def zoneKey (e : Nat × Nat × List IntPoint) : Nat × Nat × Finset IntPoint := (e.1, e.2.1, e.2.2.toFinset)

theorem IsZones.keys_nodup {im : Img (Px t)} {N : Nat} {zs : List (Nat × Nat × List IntPoint)} (h : IsZones im N zs) : (zs.map zoneKey).Nodup := by
  rw [List.Nodup, List.pairwise_map]
  refine List.Pairwise.imp_of_mem ?_ h.disj
  intro a b ha _ hab he
  obtain ⟨-, p, hp, hq⟩ := h.comp a ha
  unfold zoneKey at he
  simp only [Prod.mk.injEq] at he
  have h1 : p ∈ a.2.2 := (hq p).mpr (.refl hp)
  have h2 : p ∈ b.2.2.toFinset := by rw [← he.2.2]; simpa using h1
  exact hab he.1 he.2.1 p h1 (by simpa using h2)

theorem IsZones.keys_sub {im : Img (Px t)} {N : Nat} {zs zs' : List (Nat × Nat × List IntPoint)} (h : IsZones im N zs) (h' : IsZones im N zs') :
    ∀ k ∈ zs.map zoneKey, k ∈ zs'.map zoneKey := by
  intro k hk
  obtain ⟨e, he, rfl⟩ := List.mem_map.mp hk
  obtain ⟨l1, l2, l3⟩ := h.lev e he
  obtain ⟨-, p, hp, hq⟩ := h.comp e he
  obtain ⟨pts, k1, k2⟩ := h'.all _ _ _ l1 l2 l3 hp
  obtain ⟨-, p', hp', hq'⟩ := h'.comp _ k1
  refine List.mem_map.mpr ⟨_, k1, ?_⟩
  unfold zoneKey
  simp only [Prod.mk.injEq, true_and]
  ext q
  rw [List.mem_toFinset, List.mem_toFinset, hq, hq' q]
  have hpp := (hq' p).mp k2
  have hs : ∀ a b, Touch26 a b → Touch26 b a := by
    rintro a b ⟨h0, h1, h2, h3⟩
    exact ⟨h0.symm, by omega, by omega, by omega⟩
  exact ⟨fun h => (hpp.symm hs).trans h, fun h => hpp.trans h⟩

theorem IsZones.perm {im : Img (Px t)} {N : Nat} {zs zs' : List (Nat × Nat × List IntPoint)} (h : IsZones im N zs) (h' : IsZones im N zs') :
    (trueCells zs).Perm (trueCells zs') := by
  have hp : (zs.map zoneKey).Perm (zs'.map zoneKey) :=
    (List.perm_ext_iff_of_nodup h.keys_nodup h'.keys_nodup).mpr fun k => ⟨h.keys_sub h' k, h'.keys_sub h k⟩
  have e : ∀ {zs : List (Nat × Nat × List IntPoint)}, IsZones im N zs → trueCells zs = (zs.map zoneKey).map fun k => (k.1, k.2.2.card) := by
    intro zs h
    unfold trueCells
    rw [List.map_map]
    apply List.map_congr_left
    intro e he
    simp only [Function.comp_def, zoneKey, Prod.mk.injEq, true_and]
    exact (List.toFinset_card_of_nodup (h.comp e he).1).symm
  rw [e h, e h']
  exact hp.map _

theorem shiftedCells_eq (W : Nat) (zs : List (Nat × Nat × List IntPoint)) :
    shiftedCells W zs = (trueCells zs).map fun c => if c.2 = W then (c.1 + 1, 1) else (c.1, c.2 + 1) := by
  unfold shiftedCells trueCells
  rw [List.map_map]
  rfl

theorem zoneFeatures_perm (N W : Nat) {cs cs' : List (Nat × Nat)} (h : cs.Perm cs') : zoneFeatures N W cs = zoneFeatures N W cs' := by
  unfold zoneFeatures
  have hs : ∀ f : Nat × Nat → ℚ, (cs.map f).sum = (cs'.map f).sum := fun f => (h.map f).sum_eq
  have hc : ∀ f : Nat × Nat → Bool, cs.countP f = cs'.countP f := fun f => h.countP_eq f
  simp only [hs, hc]

theorem mem_trueCells {zs : List (Nat × Nat × List IntPoint)} {P : Nat × Nat → Prop} :
    (∃ e ∈ zs, P (e.1, e.2.2.length)) ↔ ∃ c ∈ trueCells zs, P c := by
  unfold trueCells
  simp

theorem isMaxSize_cells (zs : List (Nat × Nat × List IntPoint)) (W : Nat) :
    IsMaxSize zs W ↔ (∀ c ∈ trueCells zs, c.2 ≤ W) ∧ (W = 0 ∨ ∃ c ∈ trueCells zs, c.2 = W) := by
  unfold IsMaxSize trueCells
  simp only [List.mem_map, exists_exists_and_eq_and]
  refine and_congr ?_ Iff.rfl
  constructor
  · rintro h _ ⟨a, ha, rfl⟩; exact h a ha
  · intro h e he; exact h _ ⟨e, he, rfl⟩

theorem IsMaxSize.uniq {zs : List (Nat × Nat × List IntPoint)} {W W' : Nat} (h : IsMaxSize zs W) (h' : IsMaxSize zs W') : W = W' := by
  have key : ∀ {W W'}, IsMaxSize zs W → IsMaxSize zs W' → W ≤ W' := by
    rintro W W' ⟨-, h | ⟨e, he, h⟩⟩ ⟨h1, -⟩
    · omega
    · have := h1 e he
      omega
  exact le_antisymm (key h h') (key h' h)

theorem foldl_max_mem : ∀ (l : List Nat) (a : Nat), a ≤ l.foldl max a ∧ (∀ x ∈ l, x ≤ l.foldl max a) ∧ (l.foldl max a = a ∨ l.foldl max a ∈ l)
  | [], a => by simp
  | b :: l, a => by
    obtain ⟨h1, h2, h3⟩ := foldl_max_mem l (max a b)
    rw [List.foldl_cons]
    refine ⟨by omega, fun x hx => ?_, ?_⟩
    · rcases List.mem_cons.mp hx with rfl | hx
      · omega
      · exact h2 x hx
    · rcases h3 with h3 | h3
      · rcases Nat.le_total a b with hab | hab
        · right; rw [h3, Nat.max_eq_right hab]; simp
        · left; rw [h3, Nat.max_eq_left hab]
      · right; simp [h3]

theorem zmMax_spec (zs : List (Nat × Nat × List IntPoint)) : IsMaxSize zs (zmMax (zs.map fun e => (e.1 - 1, e.2.2.length))) := by
  unfold zmMax
  rw [List.map_map]
  obtain ⟨-, h2, h3⟩ := foldl_max_mem (zs.map (Prod.snd ∘ fun e => (e.1 - 1, e.2.2.length))) 0
  refine ⟨fun e he => h2 _ (List.mem_map.mpr ⟨e, he, rfl⟩), ?_⟩
  rcases h3 with h3 | h3
  · exact .inl h3
  · obtain ⟨e, he, h⟩ := List.mem_map.mp h3
    exact .inr ⟨e, he, h⟩

/-! ### The features of the matrix -/

theorem zmFeatures_cells (W N : Nat) (l : List Nat) (hl : ∀ i ∈ l, i < W * N) :
    zmFeatures (fun i => l.count i) W N = zoneFeatures N W (l.map fun i => (i / W + 1, i % W + 1)) := by
  have hc := fun w => zmSum_cells W N w l hl
  have hW : l ≠ [] → 0 < W := by
    intro h
    obtain ⟨a, ha⟩ := List.exists_mem_of_ne_nil _ h
    have := hl a ha
    rcases Nat.eq_zero_or_pos W with e | e
    · rw [e] at this; simp at this
    · exact e
  unfold zmFeatures zoneFeatures
  simp only [List.map_map, Function.comp_def, List.countP_map]
  refine congrArg₂ List.cons ?_ (congrArg₂ List.cons ?_ (congrArg₂ List.cons ?_ (congrArg₂ List.cons ?_ (congrArg₂ List.cons ?_
    (congrArg₂ List.cons ?_ (congrArg₂ List.cons ?_ (congrArg₂ List.cons ?_ (congrArg₂ List.cons ?_ (congrArg₂ List.cons ?_
    (congrArg₂ List.cons ?_ (congrArg₂ List.cons ?_ rfl)))))))))))
  · rw [← hc fun n s => 1 / ((s + 1 : Nat) : ℚ) ^ 2]
    exact zmSum_congr fun n s => by ring
  · rw [← hc fun n s => ((s + 1 : Nat) : ℚ) ^ 2]
  · rw [← hc fun n s => 1 / ((n + 1 : Nat) : ℚ) ^ 2]
    exact zmSum_congr fun n s => by ring
  · rw [← hc fun n s => ((n + 1 : Nat) : ℚ) ^ 2]
  · rw [← hc fun n s => 1 / (((n + 1 : Nat) : ℚ) ^ 2 * ((s + 1 : Nat) : ℚ) ^ 2)]
    exact zmSum_congr fun n s => by rw [div_eq_mul_one_div]
  · rw [← hc fun n s => (((n + 1 : Nat) : ℚ) / ((s + 1 : Nat) : ℚ)) ^ 2]
  · rw [← hc fun n s => (((s + 1 : Nat) : ℚ) / ((n + 1 : Nat) : ℚ)) ^ 2]
  · rw [← hc fun n s => ((n + 1 : Nat) : ℚ) ^ 2 * ((s + 1 : Nat) : ℚ) ^ 2]
    exact zmSum_congr fun n s => by ring
  · congr 1
    apply List.map_congr_left
    intro n _
    by_cases he : l = []
    · subst he; simp
    · rw [row_sum W (hW he), sq]
      simp
  · congr 1
    apply List.map_congr_left
    intro s hs
    rw [col_sum W N l hl s (List.mem_range.mp hs), sq]
    simp
  · rw [← hc fun n s => ((n + 1 : Nat) : ℚ)]
    exact zmSum_congr fun n s => by ring
  · rw [← hc fun n s => ((s + 1 : Nat) : ℚ)]
    exact zmSum_congr fun n s => by ring

theorem zone_pos {im : Img (Px t)} {N : Nat} {zs : List (Nat × Nat × List IntPoint)} (h : IsZones im N zs) {e} (he : e ∈ zs) : 0 < e.2.2.length := by
  obtain ⟨-, p, hp, hq⟩ := h.comp e he
  exact List.length_pos_of_mem ((hq p).mpr (.refl hp))

/-- The index in the matrix. -/
theorem index_lt {l W N s : Nat} (h1 : 1 ≤ l) (h2 : l ≤ N) (h3 : s ≤ W) (hs : 0 < s) : s + (l - 1) * W < W * N ↔ ¬ (l = N ∧ s = W) := by
  obtain ⟨n, rfl⟩ : ∃ n, l = n + 1 := ⟨l - 1, by omega⟩
  obtain ⟨d, rfl⟩ : ∃ d, N = n + 1 + d := ⟨N - (n + 1), by omega⟩
  have e : W * (n + 1 + d) = n * W + W + d * W := by ring
  rw [e, Nat.add_sub_cancel]
  constructor
  · rintro h ⟨h4, rfl⟩
    have : d = 0 := by omega
    subst this
    omega
  · intro h
    rcases Nat.eq_zero_or_pos d with rfl | hd
    · have : s ≠ W := fun e => h ⟨by omega, e⟩
      omega
    · have : 1 * W ≤ d * W := Nat.mul_le_mul_right _ hd
      omega

theorem index_cell {l W s : Nat} (h1 : 1 ≤ l) (h3 : s ≤ W) (hs : 0 < s) :
    ((s + (l - 1) * W) / W + 1, (s + (l - 1) * W) % W + 1) = if s = W then (l + 1, 1) else (l, s + 1) := by
  have hW : 0 < W := by omega
  rw [Nat.add_mul_div_right _ _ hW, Nat.add_mul_mod_self_right]
  split
  · rename_i h
    subst h
    rw [Nat.div_self hW, Nat.mod_self]
    simp only [Prod.mk.injEq, and_true]
    omega
  · rw [Nat.div_eq_of_lt (by omega), Nat.mod_eq_of_lt (by omega)]
    simp only [Prod.mk.injEq, and_true]
    omega

/-! ### Theorems -/

/-- There is a list of the zones. -/
theorem C95_zones {N : Nat} (hN : N ≤ 255) (im : Img (Px t)) (hv : ∀ p v, im.at? p = some v → 0 ≤ v.val ∧ v.val ≤ 255) :
    ∃ zs W, IsZones im N zs ∧ IsMaxSize zs W := by
  obtain ⟨_, zs, -, -, h⟩ := zmZones_spec hN im hv
  exact ⟨zs, _, h, zmMax_spec zs⟩

/-- The features are sums over the zones of all levels, with sizes too large by one, except that the zones of the greatest size count as single
pixels of the next level; if one of these is at the last level, the matrix is written out of bounds. -/
theorem C95_partial {N : Nat} (hN : N ≤ 255) (im : Img (Px t)) (hc : im.dims.count ≠ 0) (hv : ∀ p v, im.at? p = some v → 0 ≤ v.val ∧ v.val ≤ 255)
    {zs : List (Nat × Nat × List IntPoint)} {W : Nat} (hz : IsZones im N zs) (hW : IsMaxSize zs W) :
    ((∃ e ∈ zs, e.1 = N ∧ e.2.2.length = W) → grayLevelZMSize N im = none) ∧
      ((¬ ∃ e ∈ zs, e.1 = N ∧ e.2.2.length = W) → grayLevelZMSize N im = some (zoneFeatures N W (shiftedCells W zs))) := by
  obtain ⟨b, zs0, hb, hzs, hz0⟩ := zmZones_spec hN im hv
  have hperm := hz.perm hz0
  have hW0 : IsMaxSize zs0 W := by
    rw [isMaxSize_cells] at hW ⊢
    exact ⟨fun c hc => hW.1 c (hperm.mem_iff.mpr hc), hW.2.imp id fun ⟨c, h1, h2⟩ => ⟨c, hperm.mem_iff.mp h1, h2⟩⟩
  have hWe : zmMax (zs0.map fun e => (e.1 - 1, e.2.2.length)) = W := (zmMax_spec zs0).uniq hW0
  have hlast : (∃ e ∈ zs, e.1 = N ∧ e.2.2.length = W) ↔ ∃ e ∈ zs0, e.1 = N ∧ e.2.2.length = W := by
    rw [mem_trueCells (P := fun c => c.1 = N ∧ c.2 = W), mem_trueCells (P := fun c => c.1 = N ∧ c.2 = W)]
    exact ⟨fun ⟨c, h1, h2⟩ => ⟨c, hperm.mem_iff.mp h1, h2⟩, fun ⟨c, h1, h2⟩ => ⟨c, hperm.mem_iff.mpr h1, h2⟩⟩
  have hidx : ∀ e ∈ zs0, (e.2.2.length + (e.1 - 1) * W < W * N ↔ ¬ (e.1 = N ∧ e.2.2.length = W)) := fun e he =>
    index_lt (hz0.lev e he).1 (hz0.lev e he).2.1 (hW0.1 e he) (zone_pos hz0 he)
  unfold grayLevelZMSize
  rw [if_neg hc, hb, Option.bind_some, hzs, Option.bind_some, zmMatrix, hWe, List.map_map]
  constructor
  · intro h
    obtain ⟨e, he, h⟩ := hlast.mp h
    rw [zmAcc_none]
    · rfl
    · refine ⟨_, List.mem_map.mpr ⟨e, he, rfl⟩, ?_⟩
      have := (hidx e he).not.mpr (by simpa using h)
      simp only [Function.comp_def]
      omega
  · intro h
    have h' : ∀ e ∈ zs0, ¬ (e.1 = N ∧ e.2.2.length = W) := fun e he hn => h (hlast.mpr ⟨e, he, hn⟩)
    have hall : ∀ i ∈ zs0.map ((fun e : Nat × Nat => e.2 + e.1 * W) ∘ fun e => (e.1 - 1, e.2.2.length)), i < W * N := by
      intro i hi
      obtain ⟨e, he, rfl⟩ := List.mem_map.mp hi
      exact (hidx e he).mpr (h' e he)
    rw [zmAcc_fold _ _ _ hall, Option.map_some]
    congr 1
    simp only [Nat.zero_add]
    have hp : (shiftedCells W zs).Perm (shiftedCells W zs0) := by
      rw [shiftedCells_eq, shiftedCells_eq]
      exact hperm.map _
    rw [zmFeatures_cells W N _ hall, zoneFeatures_perm N W hp]
    congr 1
    unfold shiftedCells
    rw [List.map_map]
    apply List.map_congr_left
    intro e he
    exact index_cell (hz0.lev e he).1 (hW0.1 e he) (zone_pos hz0 he)

/-- With one level, an image with a pixel of the level always makes the program write out of bounds. -/
theorem C95_one_level_ub (im : Img (Px t)) (hv : ∀ p v, im.at? p = some v → 0 ≤ v.val ∧ v.val ≤ 255) {p : IntPoint} {v : Px t}
    (hp : im.at? p = some v) (h : 128 ≤ v.val) : grayLevelZMSize 1 im = none := by
  have hpi := Img.at?_eq_some_in im _ _ hp
  have hc : im.dims.count ≠ 0 := by
    have := offOf_lt hpi
    omega
  obtain ⟨zs, W, hz, hW⟩ := C95_zones (N := 1) (by norm_num) im hv
  obtain ⟨z, hz'⟩ : ∃ z : Nat, p.z = z := ⟨p.z.toNat, by have := hpi; unfold Img.In at this; omega⟩
  have hzd : z < im.dims.d := by
    have := hpi
    unfold Img.In at this
    omega
  have hpe : p = ⟨p.x, p.y, z⟩ := by rw [← hz']
  rw [hpe] at hp
  obtain ⟨pts, h1, h2⟩ := hz.all 1 z ⟨p.x, p.y, 0⟩ (le_refl _) (le_refl _) hzd ⟨v, by rw [planeOf_at im hzd]; exact hp, by push_cast; omega⟩
  refine (C95_partial (by norm_num) im hc hv hz hW).1 ?_
  rcases hW.2 with h0 | ⟨e, he, h3⟩
  · have := hW.1 _ h1
    have := List.length_pos_of_mem h2
    simp only at *
    omega
  · have := hz.lev e he
    exact ⟨e, he, by omega, h3⟩

/-- An image that is not allocated gives no features. -/
theorem C95_errors (N : Nat) (im : Img (Px t)) (h : im.dims.count = 0) : grayLevelZMSize N im = some [] := by
  unfold grayLevelZMSize
  rw [if_pos h]

/-! ### Concrete cases -/

/-- A row of four pixels: one of the second level of two, a hole, two of the first level. -/
def exZoneRow : Img (Px UINT8) := im8 ⟨4, 1, 1⟩ [255, 0, 128, 128]

def exZones : List (Nat × Nat × List IntPoint) :=
  [(1, 0, [⟨0, 0, 0⟩]), (1, 0, [⟨2, 0, 0⟩, ⟨3, 0, 0⟩]), (2, 0, [⟨0, 0, 0⟩])]

theorem exZoneRow_reaches (l : Nat) (p : IntPoint) :
    Reaches exZoneRow 2 l 0 p ↔ p = ⟨0, 0, 0⟩ ∧ l ≤ 2 ∨ p = ⟨1, 0, 0⟩ ∧ l = 0 ∨ (p = ⟨2, 0, 0⟩ ∨ p = ⟨3, 0, 0⟩) ∧ l ≤ 1 := by
  constructor
  · rintro ⟨v, h1, h2⟩
    have hi := Img.at?_eq_some_in (planeOf exZoneRow 0) _ _ h1
    obtain ⟨x, y, z⟩ := p
    have hx : 0 ≤ x ∧ x < 4 ∧ 0 ≤ y ∧ y < 1 ∧ 0 ≤ z ∧ z < 1 := by
      unfold Img.In planeOf exZoneRow im8 at hi
      simp only at hi
      omega
    obtain ⟨a1, a2, a3, a4, a5, a6⟩ := hx
    have hy : y = 0 := by omega
    have hz : z = 0 := by omega
    subst hy hz
    obtain rfl | rfl | rfl | rfl : x = 0 ∨ x = 1 ∨ x = 2 ∨ x = 3 := by omega
    · have : (planeOf exZoneRow 0).at? ⟨0, 0, 0⟩ = some ⟨255, by decide, by decide⟩ := by decide +kernel
      rw [this] at h1; cases h1
      simp only at h2
      left; exact ⟨rfl, by omega⟩
    · have : (planeOf exZoneRow 0).at? ⟨1, 0, 0⟩ = some ⟨0, by decide, by decide⟩ := by decide +kernel
      rw [this] at h1; cases h1
      simp only at h2
      right; left; exact ⟨rfl, by omega⟩
    · have : (planeOf exZoneRow 0).at? ⟨2, 0, 0⟩ = some ⟨128, by decide, by decide⟩ := by decide +kernel
      rw [this] at h1; cases h1
      simp only at h2
      right; right; exact ⟨.inl rfl, by omega⟩
    · have : (planeOf exZoneRow 0).at? ⟨3, 0, 0⟩ = some ⟨128, by decide, by decide⟩ := by decide +kernel
      rw [this] at h1; cases h1
      simp only at h2
      right; right; exact ⟨.inr rfl, by omega⟩
  · rintro (⟨rfl, h⟩ | ⟨rfl, h⟩ | ⟨rfl | rfl, h⟩)
    · exact ⟨⟨255, by decide, by decide⟩, by decide +kernel, by simp only; omega⟩
    · exact ⟨⟨0, by decide, by decide⟩, by decide +kernel, by simp only; omega⟩
    · exact ⟨⟨128, by decide, by decide⟩, by decide +kernel, by simp only; omega⟩
    · exact ⟨⟨128, by decide, by decide⟩, by decide +kernel, by simp only; omega⟩

theorem exZones_is : IsZones exZoneRow 2 exZones := by
  have stay : ∀ (l : Nat) (A : IntPoint → Prop), (∀ p q, A p → Touch26 p q → Reaches exZoneRow 2 l 0 q → A q) → ∀ p q, A p →
      SetPath Touch26 (Reaches exZoneRow 2 l 0) p q → A q := by
    intro l A hA p q hp h
    induction h with
    | refl _ => exact hp
    | step _ h1 h2 ih => exact hA _ _ ih h1 h2
  have R := fun l p => exZoneRow_reaches l p
  refine ⟨?_, ?_, ?_, ?_⟩
  · intro e he
    simp only [exZones, List.mem_cons, List.not_mem_nil, or_false] at he
    rcases he with rfl | rfl | rfl <;> decide
  · intro e he
    simp only [exZones, List.mem_cons, List.not_mem_nil, or_false] at he
    have one : ∀ l, 1 ≤ l → l ≤ 2 → ∀ q, q ∈ [(⟨0, 0, 0⟩ : IntPoint)] ↔ SetPath Touch26 (Reaches exZoneRow 2 l 0) ⟨0, 0, 0⟩ q := by
      intro l h1 h2 q
      constructor
      · intro h
        rw [List.mem_singleton] at h
        subst h
        exact .refl ((R _ _).mpr (.inl ⟨rfl, h2⟩))
      · intro h
        refine stay l (· ∈ [(⟨0, 0, 0⟩ : IntPoint)]) ?_ _ _ (by simp) h
        intro p q hp ht hq
        rw [List.mem_singleton] at hp
        subst hp
        rcases (R _ _).mp hq with ⟨rfl, -⟩ | ⟨rfl, h⟩ | ⟨rfl | rfl, h⟩
        · simp
        · omega
        · have := ht.2.1; simp only at this; omega
        · have := ht.2.1; simp only at this; omega
    rcases he with rfl | rfl | rfl
    · exact ⟨by simp, ⟨0, 0, 0⟩, (R _ _).mpr (.inl ⟨rfl, by norm_num⟩), one 1 (by norm_num) (by norm_num)⟩
    · refine ⟨by decide, ⟨2, 0, 0⟩, (R _ _).mpr (.inr (.inr ⟨.inl rfl, by norm_num⟩)), fun q => ?_⟩
      constructor
      · intro h
        have h2 : SetPath Touch26 (Reaches exZoneRow 2 1 0) ⟨2, 0, 0⟩ ⟨2, 0, 0⟩ := .refl ((R _ _).mpr (.inr (.inr ⟨.inl rfl, by norm_num⟩)))
        simp only [List.mem_cons, List.not_mem_nil, or_false] at h
        rcases h with rfl | rfl
        · exact h2
        · exact h2.step ⟨by decide, by decide, by decide, by decide⟩ ((R _ _).mpr (.inr (.inr ⟨.inr rfl, by norm_num⟩)))
      · intro h
        refine stay 1 (· ∈ [(⟨2, 0, 0⟩ : IntPoint), ⟨3, 0, 0⟩]) ?_ _ _ (by simp) h
        intro p q hp ht hq
        simp only [List.mem_cons, List.not_mem_nil, or_false] at hp
        rcases (R _ _).mp hq with ⟨rfl, -⟩ | ⟨rfl, h⟩ | ⟨rfl | rfl, h⟩
        · have := ht.2.1
          rcases hp with rfl | rfl <;> simp only at this <;> omega
        · omega
        · simp
        · simp
    · exact ⟨by simp, ⟨0, 0, 0⟩, (R _ _).mpr (.inl ⟨rfl, by norm_num⟩), one 2 (by norm_num) (by norm_num)⟩
  · intro l z p h1 h2 h3 h4
    have : z = 0 := by
      simp only [exZoneRow, im8] at h3
      omega
    subst this
    rcases (R _ _).mp h4 with ⟨rfl, h⟩ | ⟨rfl, h⟩ | ⟨hp, h⟩
    · obtain rfl | rfl : l = 1 ∨ l = 2 := by omega
      · exact ⟨[⟨0, 0, 0⟩], by simp [exZones], by simp⟩
      · exact ⟨[⟨0, 0, 0⟩], by simp [exZones], by simp⟩
    · omega
    · obtain rfl : l = 1 := by omega
      exact ⟨[⟨2, 0, 0⟩, ⟨3, 0, 0⟩], by simp [exZones], by rcases hp with rfl | rfl <;> simp⟩
  · unfold exZones
    simp

theorem exZones_max : IsMaxSize exZones 2 := by
  unfold IsMaxSize exZones
  simp

/-- The hypotheses are met: three zones, two of one pixel and one of two, that is not of the last level. -/
example : ∃ f, grayLevelZMSize 2 exZoneRow = some f ∧ f = zoneFeatures 2 2 [(1, 2), (2, 1), (2, 2)] :=
  ⟨_, (C95_partial (by norm_num) exZoneRow (by decide) (fun _ v _ => ⟨v.lo_le, v.le_hi⟩) exZones_is exZones_max).2 (by simp [exZones]),
    by simp [shiftedCells, exZones]⟩

/-- The features are not those of the zones: the emphasis of the small sizes is 3/2, not 1 + 1/4 + 1. -/
theorem C95_size_bug : IsZones exZoneRow 2 exZones ∧ IsMaxSize exZones 2 ∧
    grayLevelZMSize 2 exZoneRow ≠ some (zoneFeatures 2 2 (trueCells exZones)) ∧
      (∃ f, grayLevelZMSize 2 exZoneRow = some f ∧ f.head? = some (3 / 2)) ∧ (zoneFeatures 2 2 (trueCells exZones)).head? = some (9 / 4) := by
  have h := (C95_partial (by norm_num) exZoneRow (by decide) (fun _ v _ => ⟨v.lo_le, v.le_hi⟩) exZones_is exZones_max).2 (by simp [exZones])
  have h1 : (zoneFeatures 2 2 (shiftedCells 2 exZones)).head? = some (3 / 2) := by decide +kernel
  have h2 : (zoneFeatures 2 2 (trueCells exZones)).head? = some (9 / 4) := by decide +kernel
  refine ⟨exZones_is, exZones_max, ?_, ⟨_, h, h1⟩, h2⟩
  rw [h]
  intro e
  have e' := Option.some.inj e
  rw [e', h2] at h1
  revert h1
  decide +kernel

/-- A flat image, here of one white pixel, makes the program write out of bounds at any number of levels tried. -/
theorem C95_flat_ub : (grayLevelZMSize 2 (im8 ⟨1, 1, 1⟩ [255])).isNone = true ∧ (grayLevelZMSize 8 (im8 ⟨2, 2, 1⟩ [255, 255, 255, 255])).isNone = true := by
  decide +kernel

/-- A row of two pixels of 16 bits. -/
def exZone16 : Img (Px UINT16) := ⟨⟨2, 1, 1⟩, fun i => if i = 0 then ⟨32640, by decide, by decide⟩ else ⟨0, by decide, by decide⟩⟩

/-- In a larger type the levels are kept modulo 256: a pixel of level 256 is taken for a black one. -/
theorem C95_types_bug : Reaches exZone16 2 2 0 ⟨0, 0, 0⟩ ∧ grayLevelZMSize 2 exZone16 = some (List.replicate 12 0) :=
  ⟨⟨⟨32640, by decide, by decide⟩, by decide +kernel, by decide⟩, by decide +kernel⟩

end Smil
