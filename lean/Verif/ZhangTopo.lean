import Mathlib.Logic.Relation
import Mathlib.Data.Set.Card
import Mathlib.Data.Fin.VecNotation
import Mathlib.Tactic.FinCases
import Mathlib.Tactic.Linarith
import Mathlib.Tactic.Ring
import Mathlib.Algebra.BigOperators.Fin

/-! # Thinning sets of points of the plane

The specification of the thinning of Zhang and Suen on sets of points, and the proof that it changes neither
the connectivity of what it keeps nor the holes. -/

namespace Smil

/-- Points of the plane. -/
abbrev Pt2 := Int × Int

/-- Distinct points at distance at most one along each axis: 8-connectivity. -/
def Near8 (p q : Pt2) : Prop := p ≠ q ∧ |p.1 - q.1| ≤ 1 ∧ |p.2 - q.2| ≤ 1
/-- Points that differ by one along one axis: 4-connectivity. -/
def Near4 (p q : Pt2) : Prop := |p.1 - q.1| + |p.2 - q.2| = 1

/-- Two points of `S` joined by a path of points of `S`. -/
def JoinedIn (near : Pt2 → Pt2 → Prop) (S : Set Pt2) (p q : Pt2) : Prop :=
  p ∈ S ∧ Relation.ReflTransGen (fun a b => near a b ∧ b ∈ S) p q

/-- The eight neighbours, clockwise from the upper left one; lines go down. -/
def ringPt (p : Pt2) : Fin 8 → Pt2
  | 0 => (p.1 - 1, p.2 - 1) | 1 => (p.1, p.2 - 1) | 2 => (p.1 + 1, p.2 - 1) | 3 => (p.1 + 1, p.2)
  | 4 => (p.1 + 1, p.2 + 1) | 5 => (p.1, p.2 + 1) | 6 => (p.1 - 1, p.2 + 1) | 7 => (p.1 - 1, p.2)

/-- What both phases ask: two to six neighbours in the set, and only one transition from outside to inside
around the point. -/
def ThinCommon (S : Set Pt2) (p : Pt2) : Prop :=
  p ∈ S ∧ 2 ≤ {k | ringPt p k ∈ S}.ncard ∧ {k | ringPt p k ∈ S}.ncard ≤ 6 ∧
    {k | ringPt p k ∉ S ∧ ringPt p (k + 1) ∈ S}.ncard = 1

/-- Removed by the first phase: north, east, south not all in the set, nor east, south, west. -/
def Removable1 (S : Set Pt2) (p : Pt2) : Prop :=
  ThinCommon S p ∧ ¬ (ringPt p 1 ∈ S ∧ ringPt p 3 ∈ S ∧ ringPt p 5 ∈ S) ∧
    ¬ (ringPt p 3 ∈ S ∧ ringPt p 5 ∈ S ∧ ringPt p 7 ∈ S)

/-- Removed by the second phase: north, east, west not all in the set, nor north, south, west. -/
def Removable2 (S : Set Pt2) (p : Pt2) : Prop :=
  ThinCommon S p ∧ ¬ (ringPt p 1 ∈ S ∧ ringPt p 3 ∈ S ∧ ringPt p 7 ∈ S) ∧
    ¬ (ringPt p 1 ∈ S ∧ ringPt p 5 ∈ S ∧ ringPt p 7 ∈ S)

/-- The first phase: all removable points are removed at once. -/
def thin1 (S : Set Pt2) : Set Pt2 := {p | p ∈ S ∧ ¬ Removable1 S p}
/-- The second phase. -/
def thin2 (S : Set Pt2) : Set Pt2 := {p | p ∈ S ∧ ¬ Removable2 S p}

/-! ### Paths -/

theorem Near8.symm {p q : Pt2} (h : Near8 p q) : Near8 q p :=
  ⟨h.1.symm, by rw [abs_sub_comm]; exact h.2.1, by rw [abs_sub_comm]; exact h.2.2⟩
theorem Near4.symm {p q : Pt2} (h : Near4 p q) : Near4 q p := by
  unfold Near4 at *; rw [abs_sub_comm, abs_sub_comm q.2]; exact h

namespace JoinedIn
variable {near : Pt2 → Pt2 → Prop} {S T : Set Pt2} {p q r : Pt2}

theorem refl (h : p ∈ S) : JoinedIn near S p p := ⟨h, .refl⟩
theorem right (h : JoinedIn near S p q) : q ∈ S := by
  rcases Relation.ReflTransGen.cases_tail h.2 with h' | ⟨_, _, h'⟩
  · exact h' ▸ h.1
  · exact h'.2
theorem trans (h : JoinedIn near S p q) (h' : JoinedIn near S q r) : JoinedIn near S p r :=
  ⟨h.1, h.2.trans h'.2⟩
theorem single (hp : p ∈ S) (hq : q ∈ S) (h : near p q) : JoinedIn near S p q := ⟨hp, .single ⟨h, hq⟩⟩
theorem symm (hs : ∀ a b, near a b → near b a) (h : JoinedIn near S p q) : JoinedIn near S q p := by
  have key : ∀ q, Relation.ReflTransGen (fun a b => near a b ∧ b ∈ S) p q → JoinedIn near S q p := by
    intro q hq
    induction hq with
    | refl => exact refl h.1
    | tail h1 h2 ih => exact (single h2.2 ih.1 (hs _ _ h2.1)).trans ih
  exact key q h.2
theorem mono (hST : S ⊆ T) (h : JoinedIn near S p q) : JoinedIn near T p q :=
  ⟨hST h.1, Relation.ReflTransGen.mono (fun _ _ hab => ⟨hab.1, hST hab.2⟩) _ _ h.2⟩
end JoinedIn

/-- Removing a point whose remaining neighbours stay joined to each other does not separate anything. -/
theorem remove_point {near : Pt2 → Pt2 → Prop} (hs : ∀ a b, near a b → near b a) {S : Set Pt2} {p : Pt2}
    (h : ∀ a b, a ∈ S \ {p} → b ∈ S \ {p} → near p a → near p b → JoinedIn near (S \ {p}) a b)
    {u v : Pt2} (hu : u ∈ S \ {p}) (hv : v ∈ S \ {p}) (huv : JoinedIn near S u v) :
    JoinedIn near (S \ {p}) u v := by
  have key : ∀ v, Relation.ReflTransGen (fun a b => near a b ∧ b ∈ S) u v →
      (v ≠ p → JoinedIn near (S \ {p}) u v) ∧
        (v = p → ∃ a, near p a ∧ JoinedIn near (S \ {p}) u a) := by
    intro v hv
    induction hv with
    | refl => exact ⟨fun _ => .refl hu, fun e => absurd e hu.2⟩
    | @tail b c h1 h2 ih =>
      refine ⟨fun hc => ?_, fun hc => ?_⟩
      · have hcS : c ∈ S \ {p} := ⟨h2.2, hc⟩
        by_cases hb : b = p
        · obtain ⟨a, ha, hj⟩ := ih.2 hb
          exact hj.trans (h a c hj.right hcS ha (hb ▸ h2.1))
        · have := ih.1 hb
          exact this.trans (.single this.right hcS h2.1)
      · by_cases hb : b = p
        · exact ih.2 hb
        · exact ⟨b, hs _ _ (hc ▸ h2.1), ih.1 hb⟩
  exact (key v huv.2).1 hv.2

/-! ### The ring -/

/-- The ring from `a` on. -/
def cyc8 (a : Fin 8) : List (Fin 8) := [a, a + 1, a + 2, a + 3, a + 4, a + 5, a + 6, a + 7]

/-- Neighbours on the ring that are 8-neighbours. -/
def ringAdj (i j : Fin 8) : Bool := j == i + 1 || (j == i + 2 && i.val % 2 == 1)

def chainB (r : Fin 8 → Fin 8 → Bool) : List (Fin 8) → Bool
  | a :: b :: l => r a b && chainB r (b :: l)
  | _ => true

def r8 (a0 a1 a2 a3 a4 a5 a6 a7 : Bool) : Fin 8 → Bool
  | 0 => a0 | 1 => a1 | 2 => a2 | 3 => a3 | 4 => a4 | 5 => a5 | 6 => a6 | 7 => a7

/-- Number of `true`s. -/
def cnt8 (f : Fin 8 → Bool) : Nat := (cyc8 0).countP f

def rem1B (f : Fin 8 → Bool) : Bool :=
  (2 ≤ cnt8 f && cnt8 f ≤ 6) && (cnt8 (fun k => !f k && f (k + 1)) == 1 && !(f 1 && f 3 && f 5) &&
    !(f 3 && f 5 && f 7))

theorem ring_obj : ∀ a0 a1 a2 a3 a4 a5 a6 a7 : Bool, rem1B (r8 a0 a1 a2 a3 a4 a5 a6 a7) = true →
    ∀ d0 d1 d2 d7 : Bool, (d1 && a0 && a2) = false → (d7 && a0 && a6) = false →
    ∃ s : Fin 8, chainB ringAdj ((cyc8 s).filter
      (r8 (a0 && !d0) (a1 && !d1) (a2 && !d2) a3 a4 a5 a6 (a7 && !d7))) = true := by decide +kernel

theorem ring_bg : ∀ a0 a1 a2 a3 a4 a5 a6 a7 : Bool, rem1B (r8 a0 a1 a2 a3 a4 a5 a6 a7) = true →
    ∀ d0 d1 d2 d7 : Bool, (d1 && a0 && a2) = false → (d7 && a0 && a6) = false →
    ∃ s : Fin 8, ∃ m : Fin 9, ((cyc8 s).take m).all
        (fun k => !r8 (a0 && !d0) (a1 && !d1) (a2 && !d2) a3 a4 a5 a6 (a7 && !d7) k) = true ∧
      ([1, 3, 5, 7] : List (Fin 8)).all (fun k =>
        r8 (a0 && !d0) (a1 && !d1) (a2 && !d2) a3 a4 a5 a6 (a7 && !d7) k || ((cyc8 s).take m).elem k) = true := by
  decide +kernel

theorem cnt8_eq (f : Fin 8 → Bool) : cnt8 f = {k | f k = true}.ncard := by
  have : {k | f k = true} = ((Finset.univ.filter fun k => f k = true : Finset (Fin 8)) : Set (Fin 8)) := by
    ext k; simp
  rw [this, Set.ncard_coe_finset, Finset.card_filter, Fin.sum_univ_eight]
  simp only [cnt8, cyc8, List.countP_cons, List.countP_nil, zero_add]
  ac_rfl

theorem r8_eta (f : Fin 8 → Bool) : r8 (f 0) (f 1) (f 2) (f 3) (f 4) (f 5) (f 6) (f 7) = f := by
  funext k; fin_cases k <;> rfl

open Classical in
/-- The ring of `p` in `S`. -/
noncomputable def ringB (S : Set Pt2) (p : Pt2) (k : Fin 8) : Bool := decide (ringPt p k ∈ S)

theorem ringB_iff {S : Set Pt2} {p : Pt2} {k : Fin 8} : ringB S p k = true ↔ ringPt p k ∈ S := by
  simp [ringB]

theorem removable1_iff (S : Set Pt2) (p : Pt2) :
    Removable1 S p ↔ p ∈ S ∧ rem1B (ringB S p) = true := by
  have e1 : {k | ringPt p k ∈ S}.ncard = cnt8 (ringB S p) := by
    rw [cnt8_eq]; congr 1; ext k; exact ringB_iff.symm
  have e2 : {k | ringPt p k ∉ S ∧ ringPt p (k + 1) ∈ S}.ncard =
      cnt8 (fun k => !ringB S p k && ringB S p (k + 1)) := by
    rw [cnt8_eq]; congr 1; ext k
    simp only [Set.mem_ofPred_eq, Bool.and_eq_true, Bool.not_eq_true', ← Bool.not_eq_true, ringB_iff]
  unfold Removable1 ThinCommon rem1B
  rw [e1, e2]
  simp only [Bool.and_eq_true, Bool.not_eq_true', ← Bool.not_eq_true, ringB_iff, decide_eq_true_eq, beq_iff_eq]
  tauto

theorem near4_succ (p : Pt2) (i : Fin 8) : Near4 (ringPt p i) (ringPt p (i + 1)) := by
  fin_cases i <;> simp [Near4, ringPt]

theorem Near4.near8 {p q : Pt2} (h : Near4 p q) : Near8 p q := by
  unfold Near4 at h
  have h1 := abs_nonneg (p.1 - q.1)
  have h2 := abs_nonneg (p.2 - q.2)
  refine ⟨?_, by omega, by omega⟩
  rintro rfl
  simp at h

theorem near8_two (p : Pt2) (i : Fin 8) (hi : i.val % 2 = 1) : Near8 (ringPt p i) (ringPt p (i + 2)) := by
  fin_cases i <;> simp [Near8, ringPt] at * <;> decide

theorem near8_ring {p q : Pt2} (h : Near8 p q) : ∃ k, q = ringPt p k := by
  obtain ⟨h0, h1, h2⟩ := h
  obtain ⟨x, y⟩ := p
  obtain ⟨x', y'⟩ := q
  rw [abs_le] at h1 h2
  simp only at h1 h2
  have hne : ¬ (x = x' ∧ y = y') := fun e => h0 (by rw [e.1, e.2])
  have hx : x' = x - 1 ∨ x' = x ∨ x' = x + 1 := by omega
  have hy : y' = y - 1 ∨ y' = y ∨ y' = y + 1 := by omega
  rcases hx with rfl | rfl | rfl <;> rcases hy with rfl | rfl | rfl
  · exact ⟨0, rfl⟩
  · exact ⟨7, rfl⟩
  · exact ⟨6, rfl⟩
  · exact ⟨1, rfl⟩
  · exact absurd ⟨rfl, rfl⟩ hne
  · exact ⟨5, rfl⟩
  · exact ⟨2, rfl⟩
  · exact ⟨3, rfl⟩
  · exact ⟨4, rfl⟩

theorem near4_ring {p q : Pt2} (h : Near4 p q) : ∃ k ∈ ([1, 3, 5, 7] : List (Fin 8)), q = ringPt p k := by
  obtain ⟨k, rfl⟩ := near8_ring h.near8
  refine ⟨k, ?_, rfl⟩
  fin_cases k <;> simp [Near4, ringPt] at h ⊢ <;> exact absurd h (by decide)

theorem ring_ne (p : Pt2) (k : Fin 8) : ringPt p k ≠ p := by
  obtain ⟨x, y⟩ := p
  fin_cases k <;> simp [ringPt]

theorem chain_joined {near : Pt2 → Pt2 → Prop} (hs : ∀ a b, near a b → near b a) {G : Set Pt2} {p : Pt2}
    {r : Fin 8 → Fin 8 → Bool} (hr : ∀ i j, r i j = true → near (ringPt p i) (ringPt p j)) :
    ∀ L : List (Fin 8), chainB r L = true → (∀ i ∈ L, ringPt p i ∈ G) →
      ∀ i ∈ L, ∀ j ∈ L, JoinedIn near G (ringPt p i) (ringPt p j) := by
  have key : ∀ (L : List (Fin 8)) (a : Fin 8), chainB r (a :: L) = true → (∀ i ∈ a :: L, ringPt p i ∈ G) →
      ∀ j ∈ a :: L, JoinedIn near G (ringPt p a) (ringPt p j) := by
    intro L
    induction L with
    | nil =>
      intro a _ hG j hj
      simp only [List.mem_singleton] at hj
      subst hj; exact .refl (hG _ (by simp))
    | cons b L ih =>
      intro a hc hG j hj
      simp only [chainB, Bool.and_eq_true] at hc
      rcases List.mem_cons.mp hj with rfl | hj
      · exact .refl (hG _ (by simp))
      · exact (JoinedIn.single (hG a (by simp)) (hG b (by simp)) (hr _ _ hc.1)).trans
          (ih b hc.2 (fun i hi => hG i (by simp at hi ⊢; tauto)) j hj)
  intro L hc hG i hi j hj
  cases L with
  | nil => simp at hi
  | cons a L => exact ((key L a hc hG i hi).symm hs).trans (key L a hc hG j hj)

theorem mem_cyc8 (s i : Fin 8) : i ∈ cyc8 s := by revert s i; decide

theorem chain_take (s : Fin 8) (m : Fin 9) : chainB (fun i j => j == i + 1) ((cyc8 s).take m) = true := by
  revert s m; decide

/-! ### One phase -/

/-- What is left of `S` when some of the points removable by the first phase have been removed, among which
those of the ring of `p` are above or on the left. -/
structure Stage (S G : Set Pt2) (p : Pt2) : Prop where
  sub : G ⊆ S
  rem : ∀ q, q ∈ S → q ∉ G → Removable1 S q
  mem : p ∈ G
  late : ∀ k : Fin 8, 3 ≤ k.val → k.val ≤ 6 → ringPt p k ∈ S → ringPt p k ∈ G

open Classical in
theorem Stage.ring {S G : Set Pt2} {p : Pt2} (h : Stage S G p) :
    ∃ d0 d1 d2 d7 : Bool, (d1 && ringB S p 0 && ringB S p 2) = false ∧
      (d7 && ringB S p 0 && ringB S p 6) = false ∧
      ringB G p = r8 (ringB S p 0 && !d0) (ringB S p 1 && !d1) (ringB S p 2 && !d2) (ringB S p 3) (ringB S p 4)
        (ringB S p 5) (ringB S p 6) (ringB S p 7 && !d7) := by
  have pS := h.sub h.mem
  let d : Fin 8 → Bool := fun k => decide (ringPt p k ∈ S ∧ ringPt p k ∉ G)
  have hd : ∀ k, ringB G p k = (ringB S p k && !d k) := by
    intro k
    simp only [ringB, d]
    have := @h.sub (ringPt p k)
    by_cases h1 : ringPt p k ∈ S <;> by_cases h2 : ringPt p k ∈ G <;> simp [h1, h2]
    exact h1 (this h2)
  have hl : ∀ k : Fin 8, 3 ≤ k.val → k.val ≤ 6 → ringB G p k = ringB S p k := by
    intro k h1 h2
    rw [Bool.eq_iff_iff, ringB_iff, ringB_iff]
    exact ⟨fun a => h.sub a, fun a => h.late k h1 h2 a⟩
  refine ⟨d 0, d 1, d 2, d 7, ?_, ?_, ?_⟩
  · rw [← Bool.not_eq_true]
    simp only [Bool.and_eq_true, ringB_iff, d, decide_eq_true_eq]
    rintro ⟨⟨⟨a1, a2⟩, a3⟩, a4⟩
    refine (h.rem _ a1 a2).2.2 ⟨?_, ?_, ?_⟩
    · simpa [ringPt] using a4
    · simpa [ringPt] using pS
    · simpa [ringPt] using a3
  · rw [← Bool.not_eq_true]
    simp only [Bool.and_eq_true, ringB_iff, d, decide_eq_true_eq]
    rintro ⟨⟨⟨a1, a2⟩, a3⟩, a4⟩
    refine (h.rem _ a1 a2).2.1 ⟨?_, ?_, ?_⟩
    · simpa [ringPt] using a3
    · simpa [ringPt] using pS
    · simpa [ringPt] using a4
  · rw [← r8_eta (ringB G p), hd 0, hd 1, hd 2, hd 7, hl 3 (by decide) (by decide), hl 4 (by decide) (by decide),
      hl 5 (by decide) (by decide), hl 6 (by decide) (by decide)]

theorem Stage.obj {S G : Set Pt2} {p : Pt2} (h : Stage S G p) (hp : Removable1 S p) {a b : Pt2}
    (ha : a ∈ G \ {p}) (hb : b ∈ G \ {p}) (na : Near8 p a) (nb : Near8 p b) :
    JoinedIn Near8 (G \ {p}) a b := by
  obtain ⟨d0, d1, d2, d7, e1, e2, e⟩ := h.ring
  obtain ⟨i, rfl⟩ := near8_ring na
  obtain ⟨j, rfl⟩ := near8_ring nb
  have hr := ((removable1_iff S p).mp hp).2
  rw [← r8_eta (ringB S p)] at hr
  obtain ⟨s, hs⟩ := ring_obj _ _ _ _ _ _ _ _ hr d0 d1 d2 d7 e1 e2
  rw [← e] at hs
  refine chain_joined (fun _ _ => Near8.symm) (r := ringAdj) (fun i j hij => ?_) _ hs (fun k hk => ?_) i ?_ j ?_
  · simp only [ringAdj, Bool.or_eq_true, Bool.and_eq_true, beq_iff_eq] at hij
    rcases hij with rfl | ⟨rfl, h2⟩
    · exact (near4_succ p i).near8
    · exact near8_two p i h2
  · exact ⟨ringB_iff.mp (List.mem_filter.mp hk).2, ring_ne p k⟩
  · exact List.mem_filter.mpr ⟨mem_cyc8 s i, ringB_iff.mpr ha.1⟩
  · exact List.mem_filter.mpr ⟨mem_cyc8 s j, ringB_iff.mpr hb.1⟩

theorem Stage.bg {S G : Set Pt2} {p : Pt2} (h : Stage S G p) (hp : Removable1 S p) {a b : Pt2}
    (ha : a ∉ G) (hb : b ∉ G) (na : Near4 p a) (nb : Near4 p b) : JoinedIn Near4 Gᶜ a b := by
  obtain ⟨d0, d1, d2, d7, e1, e2, e⟩ := h.ring
  obtain ⟨i, hi, rfl⟩ := near4_ring na
  obtain ⟨j, hj, rfl⟩ := near4_ring nb
  have hr := ((removable1_iff S p).mp hp).2
  rw [← r8_eta (ringB S p)] at hr
  obtain ⟨s, m, hs, hm⟩ := ring_bg _ _ _ _ _ _ _ _ hr d0 d1 d2 d7 e1 e2
  rw [← e] at hs hm
  rw [List.all_eq_true] at hs hm
  have arc : ∀ k ∈ ([1, 3, 5, 7] : List (Fin 8)), ringPt p k ∉ G → k ∈ (cyc8 s).take m := by
    intro k hk hG
    have := hm k hk
    rw [Bool.or_eq_true] at this
    rcases this with h1 | h1
    · exact absurd (ringB_iff.mp h1) hG
    · exact List.elem_iff.mp h1
  refine chain_joined (fun _ _ => Near4.symm) (r := fun i j => j == i + 1) (fun i j hij => ?_) _
    (chain_take s m) (fun k hk => ?_) i (arc i hi ha) j (arc j hj hb)
  · rw [beq_iff_eq] at hij; subst hij; exact near4_succ p i
  · have := hs k hk
    rw [Bool.not_eq_true', ← Bool.not_eq_true, ringB_iff] at this
    exact this

/-- The set when the removable points of rank less than `k` have been removed. -/
def stageSet (S : Set Pt2) (w : Nat) (k : Nat) : Set Pt2 :=
  {q | q ∈ S ∧ ¬ (Removable1 S q ∧ q.2 * w + q.1 < k)}

/-- The points of `S` are in a rectangle with a corner at the origin. -/
def InRect2 (w h : Nat) (S : Set Pt2) : Prop := ∀ q ∈ S, 0 ≤ q.1 ∧ q.1 < w ∧ 0 ≤ q.2 ∧ q.2 < h

theorem rank_inj {w h : Nat} {S : Set Pt2} (hS : InRect2 w h S) {p q : Pt2} (hp : p ∈ S) (hq : q ∈ S)
    (e : p.2 * w + p.1 = q.2 * w + q.1) : p = q := by
  obtain ⟨a1, a2, a3, a4⟩ := hS p hp
  obtain ⟨b1, b2, b3, b4⟩ := hS q hq
  have hy : p.2 = q.2 := by
    rcases lt_trichotomy p.2 q.2 with h | h | h
    · nlinarith
    · exact h
    · nlinarith
  exact Prod.ext (by rw [hy] at e; omega) hy

theorem stage_at {w h : Nat} {S : Set Pt2} (hS : InRect2 w h S) {p : Pt2} (hp : Removable1 S p) {k : Nat}
    (hk : p.2 * w + p.1 = k) : Stage S (stageSet S w k) p where
  sub := fun q hq => hq.1
  rem := fun q hq hn => by
    by_contra hc; exact hn ⟨hq, fun h => hc h.1⟩
  mem := ⟨hp.1.1, fun h => by have := h.2; omega⟩
  late := by
    intro i h1 h2 hi
    refine ⟨hi, fun hh => ?_⟩
    have hr := hh.2
    have hb := hS _ hi
    have hpb := hS p hp.1.1
    obtain ⟨x, y⟩ := p
    fin_cases i <;> simp only [ringPt] at * <;> first | omega | nlinarith

theorem stage_succ {w h : Nat} {S : Set Pt2} (hS : InRect2 w h S) (k : Nat) :
    (∃ p, Removable1 S p ∧ p.2 * w + p.1 = k ∧ stageSet S w (k + 1) = stageSet S w k \ {p} ∧
      p ∈ stageSet S w k) ∨ stageSet S w (k + 1) = stageSet S w k := by
  by_cases h : ∃ p, Removable1 S p ∧ p.2 * w + p.1 = k
  · obtain ⟨p, hp, hk⟩ := h
    refine Or.inl ⟨p, hp, hk, ?_, (stage_at hS hp hk).mem⟩
    ext q
    constructor
    · rintro ⟨h1, h2⟩
      refine ⟨⟨h1, fun hh => h2 ⟨hh.1, by push_cast; omega⟩⟩, ?_⟩
      rintro rfl
      exact h2 ⟨hp, by push_cast; omega⟩
    · rintro ⟨⟨h1, h2⟩, h3⟩
      refine ⟨h1, fun hh => ?_⟩
      have := hh.2
      push_cast at this
      by_cases e : q.2 * w + q.1 = k
      · exact h3 (rank_inj hS h1 hp.1.1 (by omega))
      · exact h2 ⟨hh.1, by omega⟩
  · right
    ext q
    constructor
    · rintro ⟨h1, h2⟩
      exact ⟨h1, fun hh => h2 ⟨hh.1, by have := hh.2; push_cast; omega⟩⟩
    · rintro ⟨h1, h2⟩
      refine ⟨h1, fun hh => ?_⟩
      have := hh.2
      push_cast at this
      by_cases e : q.2 * w + q.1 = k
      · exact h ⟨q, hh.1, e⟩
      · exact h2 ⟨hh.1, by omega⟩

theorem stage_zero {w h : Nat} {S : Set Pt2} (hS : InRect2 w h S) : stageSet S w 0 = S := by
  ext q
  refine ⟨fun hq => hq.1, fun hq => ⟨hq, fun hh => ?_⟩⟩
  obtain ⟨h1, h2, h3, h4⟩ := hS q hq
  have := hh.2
  have : 0 ≤ q.2 * (w : Int) := by positivity
  push_cast at *
  omega

theorem stage_last {w h : Nat} {S : Set Pt2} (hS : InRect2 w h S) : stageSet S w (w * h) = thin1 S := by
  ext q
  refine ⟨fun hq => ⟨hq.1, fun hh => hq.2 ⟨hh, ?_⟩⟩, fun hq => ⟨hq.1, fun hh => hq.2 hh.1⟩⟩
  obtain ⟨h1, h2, h3, h4⟩ := hS q hq.1
  push_cast
  nlinarith

theorem stage_anti (S : Set Pt2) (w : Nat) {j k : Nat} (h : j ≤ k) : stageSet S w k ⊆ stageSet S w j :=
  fun q hq => ⟨hq.1, fun hh => hq.2 ⟨hh.1, by have := hh.2; omega⟩⟩

/-- The first phase does not separate what it keeps. -/
theorem thin1_joined {w h : Nat} {S : Set Pt2} (hS : InRect2 w h S) {u v : Pt2} (hu : u ∈ thin1 S)
    (hv : v ∈ thin1 S) (huv : JoinedIn Near8 S u v) : JoinedIn Near8 (thin1 S) u v := by
  have key : ∀ k, ∀ u ∈ stageSet S w k, ∀ v ∈ stageSet S w k, JoinedIn Near8 S u v →
      JoinedIn Near8 (stageSet S w k) u v := by
    intro k
    induction k with
    | zero => intro u _ v _ h; rw [stage_zero hS]; exact h
    | succ k ih =>
      intro u hu v hv huv
      have h1 := ih u (stage_anti S w (Nat.le_succ k) hu) v (stage_anti S w (Nat.le_succ k) hv) huv
      rcases stage_succ hS k with ⟨p, hp, hk, e, _⟩ | e
      · rw [e] at hu hv ⊢
        exact remove_point (fun _ _ => Near8.symm)
          (fun a b ha hb na nb => (stage_at hS hp hk).obj hp ha hb na nb) hu hv h1
      · rw [e]; exact h1
  rw [← stage_last hS] at hu hv ⊢
  exact key _ u hu v hv huv

/-- The first phase does not join parts of the background. -/
theorem thin1_bg {w h : Nat} {S : Set Pt2} (hS : InRect2 w h S) {u v : Pt2} (hu : u ∉ S) (hv : v ∉ S)
    (huv : JoinedIn Near4 (thin1 S)ᶜ u v) : JoinedIn Near4 Sᶜ u v := by
  have key : ∀ k, JoinedIn Near4 (stageSet S w k)ᶜ u v → JoinedIn Near4 Sᶜ u v := by
    intro k
    induction k with
    | zero => intro h; rw [stage_zero hS] at h; exact h
    | succ k ih =>
      intro h1
      rcases stage_succ hS k with ⟨p, hp, hk, e, hm⟩ | e
      · refine ih ?_
        have e' : (stageSet S w (k + 1))ᶜ \ {p} = (stageSet S w k)ᶜ := by
          rw [e]; ext q; simp only [Set.mem_sdiff, Set.mem_compl_iff, Set.mem_singleton_iff]
          constructor
          · tauto
          · intro hq
            exact ⟨fun hh => hq hh.1, fun hh => hq (hh ▸ hm)⟩
        have sub : ∀ q, q ∉ S → q ∈ (stageSet S w (k + 1))ᶜ \ {p} := by
          intro q hq; rw [e']; exact fun hh => hq hh.1
        have := remove_point (fun _ _ => Near4.symm) (S := (stageSet S w (k + 1))ᶜ) (p := p)
          (fun a b ha hb na nb => by
            rw [e'] at ha hb ⊢
            exact (stage_at hS hp hk).bg hp ha hb na nb) (sub u hu) (sub v hv) h1
        rw [e'] at this
        exact this
      · exact ih (e ▸ h1)
  rw [← stage_last hS] at huv
  exact key _ huv

/-- What the first phase removes was next to the background. -/
theorem thin1_new {S : Set Pt2} {p : Pt2} (hp : Removable1 S p) : ∃ q, Near4 p q ∧ q ∉ S := by
  by_contra hc
  push Not at hc
  refine hp.2.1 ⟨hc _ ?_, hc _ ?_, hc _ ?_⟩ <;> simp [Near4, ringPt]

/-! ### The second phase is the first one on the set turned upside down -/

/-- The point reflection of the rectangle. -/
def turn (w h : Nat) (p : Pt2) : Pt2 := (w - 1 - p.1, h - 1 - p.2)
/-- The set turned upside down. -/
def turnSet (w h : Nat) (S : Set Pt2) : Set Pt2 := {p | turn w h p ∈ S}

theorem turn_turn (w h : Nat) (p : Pt2) : turn w h (turn w h p) = p := by
  obtain ⟨x, y⟩ := p
  simp [turn]

theorem turn_mem {w h : Nat} {S : Set Pt2} {p : Pt2} : turn w h p ∈ turnSet w h S ↔ p ∈ S := by
  show turn w h (turn w h p) ∈ S ↔ _
  rw [turn_turn]

theorem turnSet_turnSet (w h : Nat) (S : Set Pt2) : turnSet w h (turnSet w h S) = S := by
  ext p
  show turn w h (turn w h p) ∈ S ↔ _
  rw [turn_turn]

theorem turn_ring (w h : Nat) (p : Pt2) (k : Fin 8) : turn w h (ringPt (turn w h p) k) = ringPt p (k + 4) := by
  obtain ⟨x, y⟩ := p
  fin_cases k <;> simp [turn, ringPt] <;> omega

theorem ringB_turn (w h : Nat) (S : Set Pt2) (p : Pt2) :
    ringB (turnSet w h S) (turn w h p) = fun k => ringB S p (k + 4) := by
  funext k
  rw [Bool.eq_iff_iff, ringB_iff, ringB_iff, ← turn_ring]
  rfl

def rem2B (f : Fin 8 → Bool) : Bool :=
  (2 ≤ cnt8 f && cnt8 f ≤ 6) && (cnt8 (fun k => !f k && f (k + 1)) == 1 && !(f 1 && f 3 && f 7) &&
    !(f 1 && f 5 && f 7))

theorem rem_turn : ∀ a0 a1 a2 a3 a4 a5 a6 a7 : Bool,
    rem1B (fun k => r8 a0 a1 a2 a3 a4 a5 a6 a7 (k + 4)) = rem2B (r8 a0 a1 a2 a3 a4 a5 a6 a7) := by decide +kernel

theorem removable2_iff (S : Set Pt2) (p : Pt2) :
    Removable2 S p ↔ p ∈ S ∧ rem2B (ringB S p) = true := by
  have e1 : {k | ringPt p k ∈ S}.ncard = cnt8 (ringB S p) := by
    rw [cnt8_eq]; congr 1; ext k; exact ringB_iff.symm
  have e2 : {k | ringPt p k ∉ S ∧ ringPt p (k + 1) ∈ S}.ncard =
      cnt8 (fun k => !ringB S p k && ringB S p (k + 1)) := by
    rw [cnt8_eq]; congr 1; ext k
    simp only [Set.mem_ofPred_eq, Bool.and_eq_true, Bool.not_eq_true', ← Bool.not_eq_true, ringB_iff]
  unfold Removable2 ThinCommon rem2B
  rw [e1, e2]
  simp only [Bool.and_eq_true, Bool.not_eq_true', ← Bool.not_eq_true, ringB_iff, decide_eq_true_eq, beq_iff_eq]
  tauto

theorem removable_turn (w h : Nat) (S : Set Pt2) (p : Pt2) :
    Removable1 (turnSet w h S) (turn w h p) ↔ Removable2 S p := by
  rw [removable1_iff, removable2_iff, turn_mem, ringB_turn]
  conv_lhs => rw [← r8_eta (ringB S p)]
  rw [rem_turn, r8_eta]

theorem thin_turn (w h : Nat) (S : Set Pt2) : thin1 (turnSet w h S) = turnSet w h (thin2 S) := by
  ext p
  show (turn w h p ∈ S ∧ _) ↔ (turn w h p ∈ S ∧ _)
  rw [← removable_turn w h, turn_turn]

theorem turn_box {w h : Nat} {S : Set Pt2} (hS : InRect2 w h S) : InRect2 w h (turnSet w h S) := by
  intro q hq
  have := hS _ hq
  simp only [turn] at this
  omega

theorem turn_near8 (w h : Nat) {p q : Pt2} (hpq : Near8 p q) : Near8 (turn w h p) (turn w h q) := by
  obtain ⟨h0, h1, h2⟩ := hpq
  refine ⟨fun e => h0 ?_, ?_, ?_⟩
  · rw [← turn_turn w h p, e, turn_turn]
  · rw [abs_sub_comm] at h1
    simpa [turn] using h1
  · rw [abs_sub_comm] at h2
    simpa [turn] using h2

theorem turn_near4 (w h : Nat) {p q : Pt2} (hpq : Near4 p q) : Near4 (turn w h p) (turn w h q) := by
  have := hpq.symm
  unfold Near4 at this ⊢
  simpa [turn] using this

theorem turn_joined {near : Pt2 → Pt2 → Prop} (w h : Nat)
    (hn : ∀ p q, near p q → near (turn w h p) (turn w h q)) {S T : Set Pt2}
    (hST : ∀ p ∈ S, turn w h p ∈ T) {p q : Pt2} (hj : JoinedIn near S p q) :
    JoinedIn near T (turn w h p) (turn w h q) := by
  refine ⟨hST _ hj.1, ?_⟩
  have := hj.2
  induction this with
  | refl => exact .refl
  | tail _ h2 ih => exact (ih ⟨hj.1, by assumption⟩).tail ⟨hn _ _ h2.1, hST _ h2.2⟩

/-- The second phase does not separate what it keeps. -/
theorem thin2_joined {w h : Nat} {S : Set Pt2} (hS : InRect2 w h S) {u v : Pt2} (hu : u ∈ thin2 S)
    (hv : v ∈ thin2 S) (huv : JoinedIn Near8 S u v) : JoinedIn Near8 (thin2 S) u v := by
  have h1 := thin1_joined (turn_box hS) (u := turn w h u) (v := turn w h v)
    (by rw [thin_turn]; exact turn_mem.mpr hu) (by rw [thin_turn]; exact turn_mem.mpr hv)
    (turn_joined (near := Near8) (S := S) w h (fun _ _ => turn_near8 w h) (fun p hp => turn_mem.mpr hp) huv)
  rw [thin_turn] at h1
  have := turn_joined (near := Near8) (S := turnSet w h (thin2 S)) w h (fun _ _ => turn_near8 w h) (T := thin2 S)
    (fun p hp => hp) h1
  rwa [turn_turn, turn_turn] at this

/-- The second phase does not join parts of the background. -/
theorem thin2_bg {w h : Nat} {S : Set Pt2} (hS : InRect2 w h S) {u v : Pt2} (hu : u ∉ S) (hv : v ∉ S)
    (huv : JoinedIn Near4 (thin2 S)ᶜ u v) : JoinedIn Near4 Sᶜ u v := by
  have h1 := thin1_bg (turn_box hS) (u := turn w h u) (v := turn w h v)
    (fun hh => hu (turn_mem.mp hh)) (fun hh => hv (turn_mem.mp hh))
    (by
      rw [thin_turn]
      exact turn_joined (near := Near4) (S := (thin2 S)ᶜ) (T := (turnSet w h (thin2 S))ᶜ) w h (fun _ _ => turn_near4 w h) (fun p hp hh => hp (turn_mem.mp hh)) huv)
  have := turn_joined (near := Near4) (S := (turnSet w h S)ᶜ) w h (fun _ _ => turn_near4 w h) (T := Sᶜ)
    (fun p hp hh => hp hh) h1
  rwa [turn_turn, turn_turn] at this

theorem thin2_new {S : Set Pt2} {p : Pt2} (hp : Removable2 S p) : ∃ q, Near4 p q ∧ q ∉ S := by
  by_contra hc
  push Not at hc
  refine hp.2.1 ⟨hc _ ?_, hc _ ?_, hc _ ?_⟩ <;> simp [Near4, ringPt]

/-! ### Repeated phases -/

/-- `R` is what is left of `S` after some phases, each of them the first or the second one. -/
inductive ThinnedTo (S : Set Pt2) : Set Pt2 → Prop
  | refl : ThinnedTo S S
  | one {R} : ThinnedTo S R → ThinnedTo S (thin1 R)
  | two {R} : ThinnedTo S R → ThinnedTo S (thin2 R)

namespace ThinnedTo
variable {w h : Nat} {S R : Set Pt2}

theorem sub (hR : ThinnedTo S R) : R ⊆ S := by
  induction hR with
  | refl => exact fun _ h => h
  | one _ ih => exact fun q hq => ih hq.1
  | two _ ih => exact fun q hq => ih hq.1

theorem box (hS : InRect2 w h S) (hR : ThinnedTo S R) : InRect2 w h R := fun q hq => hS q (hR.sub hq)

theorem joined (hS : InRect2 w h S) (hR : ThinnedTo S R) {u v : Pt2} (hu : u ∈ R) (hv : v ∈ R)
    (huv : JoinedIn Near8 S u v) : JoinedIn Near8 R u v := by
  induction hR with
  | refl => exact huv
  | one hR ih => exact thin1_joined (hR.box hS) hu hv (ih hu.1 hv.1)
  | two hR ih => exact thin2_joined (hR.box hS) hu hv (ih hu.1 hv.1)

theorem bg (hS : InRect2 w h S) (hR : ThinnedTo S R) {u v : Pt2} (hu : u ∉ S) (hv : v ∉ S)
    (huv : JoinedIn Near4 Rᶜ u v) : JoinedIn Near4 Sᶜ u v := by
  induction hR with
  | refl => exact huv
  | one hR ih => exact ih (thin1_bg (hR.box hS) (fun hh => hu (hR.sub hh)) (fun hh => hv (hR.sub hh)) huv)
  | two hR ih => exact ih (thin2_bg (hR.box hS) (fun hh => hu (hR.sub hh)) (fun hh => hv (hR.sub hh)) huv)

theorem new (hR : ThinnedTo S R) {u : Pt2} (hu : u ∉ R) : ∃ v, v ∉ S ∧ JoinedIn Near4 Rᶜ u v := by
  induction hR generalizing u with
  | refl => exact ⟨u, hu, .refl hu⟩
  | @one R hR ih =>
    have hsub : Rᶜ ⊆ (thin1 R)ᶜ := fun q hq hh => hq hh.1
    by_cases h : u ∈ R
    · obtain ⟨q, n, hq⟩ := thin1_new (S := R) (p := u) (by by_contra hc; exact hu ⟨h, hc⟩)
      obtain ⟨v, hv, hj⟩ := ih hq
      exact ⟨v, hv, (JoinedIn.single hu (hsub hq) n).trans (hj.mono hsub)⟩
    · obtain ⟨v, hv, hj⟩ := ih h
      exact ⟨v, hv, hj.mono hsub⟩
  | @two R hR ih =>
    have hsub : Rᶜ ⊆ (thin2 R)ᶜ := fun q hq hh => hq hh.1
    by_cases h : u ∈ R
    · obtain ⟨q, n, hq⟩ := thin2_new (S := R) (p := u) (by by_contra hc; exact hu ⟨h, hc⟩)
      obtain ⟨v, hv, hj⟩ := ih hq
      exact ⟨v, hv, (JoinedIn.single hu (hsub hq) n).trans (hj.mono hsub)⟩
    · obtain ⟨v, hv, hj⟩ := ih h
      exact ⟨v, hv, hj.mono hsub⟩

end ThinnedTo

end Smil
