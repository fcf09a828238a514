import Mathlib.Logic.Relation
import Mathlib.Algebra.BigOperators.Intervals
import Mathlib.Tactic.Linarith

/-!
# Connected sets of pixels in a rectangle

Helper lemmas for `fastLabel`: in a rectangle, the pixels of a connected set that face one connected
part of its complement are joined by pixels that all lie along the complement. The proof builds a
potential: numbers on the steps of the grid that add up to zero around every unit square are the
differences of a function.
-/

namespace Smil

open Relation

/-- Numbers on the steps of the grid adding up to zero around every unit square are differences. -/
theorem grid_potential (h v : Nat → Nat → Int) (W H : Nat)
    (curl : ∀ x y, x + 1 ≤ W → y + 1 < H → h x y + v (x + 1) y = v x y + h x (y + 1)) :
    ∃ f : Nat → Nat → Int, (∀ x y, x + 1 ≤ W → y < H → f (x + 1) y = f x y + h x y) ∧
      ∀ x y, f x (y + 1) = f x y + v x y := by
  refine ⟨fun x y => (Finset.range x).sum (fun i => h i 0) + (Finset.range y).sum (fun j => v x j),
    ?_, ?_⟩
  · intro x y hx
    induction y with
    | zero => intro _; simp [Finset.sum_range_succ]
    | succ y ih =>
      intro hy
      have h1 := ih (by omega)
      have h2 := curl x y hx hy
      simp only [Finset.sum_range_succ] at h1 ⊢
      linarith
  · intro x y
    simp only [Finset.sum_range_succ]; omega

/-- Two pixels side by side or one above the other. -/
def Adj4 (p q : Nat × Nat) : Prop :=
  (p.2 = q.2 ∧ (p.1 + 1 = q.1 ∨ q.1 + 1 = p.1)) ∨ (p.1 = q.1 ∧ (p.2 + 1 = q.2 ∨ q.2 + 1 = p.2))

/-- One pixel in the 3 by 3 square around the other. -/
def NearSq (p q : Nat × Nat) : Prop :=
  p.1 ≤ q.1 + 1 ∧ q.1 ≤ p.1 + 1 ∧ p.2 ≤ q.2 + 1 ∧ q.2 ≤ p.2 + 1

/-- Before in raster order. -/
def Before (p q : Nat × Nat) : Prop := p.2 < q.2 ∨ (p.2 = q.2 ∧ p.1 < q.1)

theorem Adj4.symm {p q : Nat × Nat} (h : Adj4 p q) : Adj4 q p := by unfold Adj4 at *; omega

theorem Adj4.near {p q : Nat × Nat} (h : Adj4 p q) : NearSq p q := by
  unfold Adj4 at h; unfold NearSq; omega

/-- A set of pixels `K` in the columns `1..W` of the rectangle `[0, W] × [0, H)`, column `0` being
empty, with a neighbourhood between the cross and the 3 by 3 square. -/
structure Planar where
  W : Nat
  H : Nat
  K : Nat × Nat → Prop
  N : Nat × Nat → Nat × Nat → Prop
  inn : ∀ p, K p → 1 ≤ p.1 ∧ p.1 ≤ W ∧ p.2 < H
  symm : ∀ p q, N p q → N q p
  cross : ∀ p q, K p → K q → Adj4 p q → N p q
  sq : ∀ p q, K p → K q → N p q → NearSq p q

namespace Planar

variable (G : Planar)

def Box (p : Nat × Nat) : Prop := p.1 ≤ G.W ∧ p.2 < G.H

/-- Pixels of the first column and pixels next to one that is not in the set. -/
def Res (p : Nat × Nat) : Prop :=
  G.K p ∧ (p.1 = 1 ∨ ∃ q, 1 ≤ q.1 ∧ G.Box q ∧ NearSq p q ∧ ¬ G.K q)

def Conn : Nat × Nat → Nat × Nat → Prop := ReflTransGen fun p q => G.N p q ∧ G.K p ∧ G.K q

def BPath : Nat × Nat → Nat × Nat → Prop := ReflTransGen fun p q => G.N p q ∧ G.Res p ∧ G.Res q

/-- Steps in the complement of the component of `k`: side by side, or across a corner between two
pixels of the component that are not neighbours. -/
def OutLink (k p q : Nat × Nat) : Prop :=
  Adj4 p q ∨ (Adj4 p (q.1, p.2) ∧ Adj4 (q.1, p.2) q ∧ G.Conn k (q.1, p.2) ∧ G.Conn k (p.1, q.2) ∧
    ¬ G.N (q.1, p.2) (p.1, q.2))

/-- Paths in the complement of the component of `k`. -/
def OutPath (k : Nat × Nat) : Nat × Nat → Nat × Nat → Prop :=
  ReflTransGen fun p q => G.OutLink k p q ∧ G.Box p ∧ G.Box q ∧ ¬ G.Conn k p ∧ ¬ G.Conn k q

variable {G}

theorem Conn.keep {p q : Nat × Nat} (h : G.Conn p q) (hp : G.K p) : G.K q := by
  cases h with
  | refl => exact hp
  | tail _ h => exact h.2.2

theorem BPath.conn {p q : Nat × Nat} (h : G.BPath p q) : G.Conn p q := by
  induction h with
  | refl => exact .refl
  | tail _ h ih => exact ih.tail ⟨h.1, h.2.1.1, h.2.2.1⟩

theorem BPath.symm {p q : Nat × Nat} (h : G.BPath p q) : G.BPath q p := by
  induction h with
  | refl => exact .refl
  | tail _ h ih => exact ReflTransGen.head ⟨G.symm _ _ h.1, h.2.2, h.2.1⟩ ih

theorem K.box {p : Nat × Nat} (h : G.K p) : G.Box p := ⟨(G.inn p h).2.1, (G.inn p h).2.2⟩

/-- The states of the pixels: outside, in the part `B` of the complement, in the component, in the
component and reached. -/
theorem square_curl : ∀ a b c d : Fin 4,
    ((a = 1 → b ≠ 0) ∧ (b = 1 → a ≠ 0)) → ((b = 1 → c ≠ 0) ∧ (c = 1 → b ≠ 0)) →
    ((c = 1 → d ≠ 0) ∧ (d = 1 → c ≠ 0)) → ((d = 1 → a ≠ 0) ∧ (a = 1 → d ≠ 0)) →
    (2 ≤ a ∧ 2 ≤ b ∧ (c = 1 ∨ d = 1) → a = b) → (2 ≤ b ∧ 2 ≤ c ∧ (a = 1 ∨ d = 1) → b = c) →
    (2 ≤ c ∧ 2 ≤ d ∧ (a = 1 ∨ b = 1) → c = d) → (2 ≤ d ∧ 2 ≤ a ∧ (b = 1 ∨ c = 1) → d = a) →
    (2 ≤ a ∧ 2 ≤ c ∧ ((b = 1 ∧ d = 0) ∨ (b = 0 ∧ d = 1)) → a = c) →
    (2 ≤ b ∧ 2 ≤ d ∧ ((a = 1 ∧ c = 0) ∨ (a = 0 ∧ c = 1)) → b = d) →
    (((if a = 1 ∧ b = 3 then 1 else 0) - (if a = 3 ∧ b = 1 then 1 else 0)) +
      ((if b = 1 ∧ c = 3 then 1 else 0) - (if b = 3 ∧ c = 1 then 1 else 0)) : Int) =
    ((if a = 1 ∧ d = 3 then 1 else 0) - (if a = 3 ∧ d = 1 then 1 else 0)) +
      ((if d = 1 ∧ c = 3 then 1 else 0) - (if d = 3 ∧ c = 1 then 1 else 0)) := by
  intro a b c d
  revert a b c d
  set_option synthInstance.maxHeartbeats 200000 in
  set_option synthInstance.maxSize 4096 in
  decide

section
variable {k z : Nat × Nat}

open Classical in
/-- The state of a pixel. -/
noncomputable def st (G : Planar) (k z : Nat × Nat) (p : Nat × Nat) : Fin 4 :=
  if G.Conn k p then (if G.BPath k p then 3 else 2) else if G.OutPath k z p then 1 else 0

theorem st_two (p : Nat × Nat) : 2 ≤ G.st k z p ↔ G.Conn k p := by
  unfold st; split_ifs <;> simp_all

theorem st_three (p : Nat × Nat) : G.st k z p = 3 ↔ G.BPath k p := by
  unfold st
  split_ifs with h1 h2 h3
  · simp_all
  · simp_all
  · exact ⟨fun h => absurd h (by decide), fun h => absurd h.conn h1⟩
  · exact ⟨fun h => absurd h (by decide), fun h => absurd h.conn h1⟩

theorem st_one (p : Nat × Nat) : G.st k z p = 1 ↔ ¬ G.Conn k p ∧ G.OutPath k z p := by
  unfold st; split_ifs <;> simp_all

theorem st_zero (p : Nat × Nat) : G.st k z p = 0 ↔ ¬ G.Conn k p ∧ ¬ G.OutPath k z p := by
  unfold st; split_ifs <;> simp_all

theorem OutLink.symm {p q : Nat × Nat} (h : G.OutLink k p q) : G.OutLink k q p := by
  rcases h with h | ⟨h1, h2, h3, h4, h5⟩
  · exact .inl h.symm
  · refine .inr ⟨?_, ?_, h4, h3, fun h => h5 (G.symm _ _ h)⟩
    · unfold Adj4 at *; dsimp only at *; omega
    · unfold Adj4 at *; dsimp only at *; omega

theorem st_link {p q : Nat × Nat} (hp : G.Box p) (hq : G.Box q) (h : G.OutLink k p q) :
    G.st k z p = 1 → G.st k z q ≠ 0 := by
  intro h1 h2
  rw [st_one] at h1; rw [st_zero] at h2
  exact h2.2 (h1.2.tail ⟨h, hp, hq, h1.1, h2.1⟩)

theorem st_edge {p q : Nat × Nat} (hp : G.Box p) (hq : G.Box q) (h : Adj4 p q) :
    G.st k z p = 1 → G.st k z q ≠ 0 := st_link hp hq (.inl h)

/-- A pixel of the complement beside the component is not in the set. -/
theorem not_keep (hk : G.K k) {b p : Nat × Nat} (hb : ¬ G.Conn k b) (hp : G.Conn k p)
    (h : Adj4 p b) : ¬ G.K b := fun hK =>
  hb (hp.tail ⟨G.cross _ _ (hp.keep hk) hK h, hp.keep hk, hK⟩)

theorem res_of_near {b p : Nat × Nat} (hb : G.Box b) (hK : ¬ G.K b) (hp : G.K p)
    (h : NearSq p b) : G.Res p := by
  refine ⟨hp, ?_⟩
  by_cases h1 : 1 ≤ b.1
  · exact .inr ⟨b, h1, hb, h, hK⟩
  · have := (G.inn p hp).1
    unfold NearSq at h
    left; omega

theorem bpath_iff {p q : Nat × Nat} (h : G.N p q) (hp : G.Res p) (hq : G.Res q) :
    G.BPath k p ↔ G.BPath k q :=
  ⟨fun h1 => h1.tail ⟨h, hp, hq⟩, fun h1 => h1.tail ⟨G.symm _ _ h, hq, hp⟩⟩

/-- Two neighbours of the component lying along the complement are reached together. -/
theorem st_eq {p q : Nat × Nat} (h : G.N p q) (hp : G.Res p) (hq : G.Res q)
    (h1 : G.Conn k p) (h2 : G.Conn k q) : G.st k z p = G.st k z q := by
  have := bpath_iff (k := k) h hp hq
  unfold st
  rw [if_pos h1, if_pos h2]
  by_cases h3 : G.BPath k p
  · rw [if_pos h3, if_pos (this.mp h3)]
  · rw [if_neg h3, if_neg fun h => h3 (this.mpr h)]

theorem st_square (hk : G.K k) {p q u v : Nat × Nat} (hpq : Adj4 p q) (hqu : Adj4 q u)
    (hvp : Adj4 v p) (hpu : NearSq p u) (hqv : NearSq q v) (hu : G.Box u) (hv : G.Box v) :
    2 ≤ G.st k z p ∧ 2 ≤ G.st k z q ∧ (G.st k z u = 1 ∨ G.st k z v = 1) →
      G.st k z p = G.st k z q := by
  rw [st_two, st_two, st_one, st_one]
  rintro ⟨h1, h2, h3 | h3⟩
  · have hn := not_keep hk h3.1 h2 hqu
    exact st_eq (G.cross _ _ (h1.keep hk) (h2.keep hk) hpq)
      (res_of_near hu hn (h1.keep hk) hpu) (res_of_near hu hn (h2.keep hk) hqu.near) h1 h2
  · have hn := not_keep hk h3.1 h1 hvp.symm
    exact st_eq (G.cross _ _ (h1.keep hk) (h2.keep hk) hpq)
      (res_of_near hv hn (h1.keep hk) hvp.symm.near) (res_of_near hv hn (h2.keep hk) hqv) h1 h2

/-- Two pixels of the component across a corner, with `B` on one side only. -/
theorem st_diag (hk : G.K k) {b d : Nat × Nat} (h1 : Adj4 b (d.1, b.2)) (h2 : Adj4 (d.1, b.2) d)
    (hb : G.Box b) (hd : G.Box d) :
    2 ≤ G.st k z (d.1, b.2) ∧ 2 ≤ G.st k z (b.1, d.2) ∧ ((G.st k z b = 1 ∧ G.st k z d = 0) ∨
      (G.st k z b = 0 ∧ G.st k z d = 1)) → G.st k z (d.1, b.2) = G.st k z (b.1, d.2) := by
  rw [st_two, st_two]
  rintro ⟨ha, hc, h⟩
  have hN : G.N (d.1, b.2) (b.1, d.2) := by
    by_contra hN
    have hl : G.OutLink k b d := .inr ⟨h1, h2, ha, hc, hN⟩
    rcases h with h | h
    · exact st_link hb hd hl h.1 h.2
    · exact st_link hd hb hl.symm h.2 h.1
  have h3 : Adj4 b (b.1, d.2) := by unfold Adj4 at *; dsimp only at *; omega
  have h4 : Adj4 (b.1, d.2) d := by unfold Adj4 at *; dsimp only at *; omega
  rcases h with h | h
  · have hn := not_keep hk ((st_one b).mp h.1).1 ha h1.symm
    exact st_eq hN (res_of_near hb hn (ha.keep hk) h1.symm.near)
      (res_of_near hb hn (hc.keep hk) h3.symm.near) ha hc
  · have hn := not_keep hk ((st_one d).mp h.2).1 ha h2
    exact st_eq hN (res_of_near hd hn (ha.keep hk) h2.near)
      (res_of_near hd hn (hc.keep hk) h4.near) ha hc

/-- The number on a step: one when it enters the reached part from `B`, minus one when it leaves it. -/
noncomputable def flow (G : Planar) (k z p q : Nat × Nat) : Int :=
  (if G.st k z p = 1 ∧ G.st k z q = 3 then 1 else 0) -
    (if G.st k z p = 3 ∧ G.st k z q = 1 then 1 else 0)

theorem flow_neg (p q : Nat × Nat) : G.flow k z q p = - G.flow k z p q := by
  unfold flow
  rw [neg_sub]
  congr 1
  · simp only [and_comm]
  · simp only [and_comm]

theorem potential (hk : G.K k) : ∃ f : Nat × Nat → Int, ∀ p q, G.Box p → G.Box q → Adj4 p q →
    f q = f p + G.flow k z p q := by
  obtain ⟨f, h1, h2⟩ := grid_potential (fun x y => G.flow k z (x, y) (x + 1, y))
    (fun x y => G.flow k z (x, y) (x, y + 1)) G.W G.H (by
      intro x y hx hy
      have ba : G.Box (x, y) := ⟨by dsimp; omega, by dsimp; omega⟩
      have bb : G.Box (x + 1, y) := ⟨by dsimp; omega, by dsimp; omega⟩
      have bc : G.Box (x + 1, y + 1) := ⟨by dsimp; omega, by dsimp; omega⟩
      have bd : G.Box (x, y + 1) := ⟨by dsimp; omega, by dsimp; omega⟩
      have ab : Adj4 (x, y) (x + 1, y) := by unfold Adj4; dsimp; omega
      have bc' : Adj4 (x + 1, y) (x + 1, y + 1) := by unfold Adj4; dsimp; omega
      have cd : Adj4 (x + 1, y + 1) (x, y + 1) := by unfold Adj4; dsimp; omega
      have da : Adj4 (x, y + 1) (x, y) := by unfold Adj4; dsimp; omega
      have ac : NearSq (x, y) (x + 1, y + 1) := by unfold NearSq; dsimp; omega
      have ca : NearSq (x + 1, y + 1) (x, y) := by unfold NearSq; dsimp; omega
      have bd' : NearSq (x + 1, y) (x, y + 1) := by unfold NearSq; dsimp; omega
      have db : NearSq (x, y + 1) (x + 1, y) := by unfold NearSq; dsimp; omega
      exact square_curl (G.st k z (x, y)) (G.st k z (x + 1, y)) (G.st k z (x + 1, y + 1))
        (G.st k z (x, y + 1)) ⟨st_edge ba bb ab, st_edge bb ba ab.symm⟩
        ⟨st_edge bb bc bc', st_edge bc bb bc'.symm⟩ ⟨st_edge bc bd cd, st_edge bd bc cd.symm⟩
        ⟨st_edge bd ba da, st_edge ba bd da.symm⟩
        (st_square hk ab bc' da ac bd' bc bd)
        (fun h => st_square hk bc' cd ab bd' ca bd ba ⟨h.1, h.2.1, h.2.2.symm⟩)
        (st_square hk cd da bc' ca db ba bb)
        (st_square hk da ab cd db ac bb bc)
        (fun h => (st_diag hk (b := (x + 1, y)) (d := (x, y + 1)) ab.symm da.symm bb bd h))
        (fun h => (st_diag hk (b := (x, y)) (d := (x + 1, y + 1)) ab bc' ba bc h)))
  refine ⟨fun p => f p.1 p.2, ?_⟩
  rintro ⟨x, y⟩ ⟨x', y'⟩ hp hq h
  obtain ⟨hp1, hp2⟩ := hp
  obtain ⟨hq1, hq2⟩ := hq
  dsimp only at *
  rcases h with ⟨e, h | h⟩ | ⟨e, h | h⟩ <;> dsimp only at e h
  · subst e; subst h; exact h1 x y hq1 hp2
  · subst e; subst h
    have := h1 x' y hp1 hp2
    rw [flow_neg]
    linarith [this]
  · subst e; subst h; exact h2 x y
  · subst e; subst h
    have := h2 x y'
    rw [flow_neg]
    linarith [this]

/-- The pixels of the component of `k` facing the part of the complement that `k` faces are joined to
`k` along the complement. -/
theorem faces_bpath (hk : G.K k) (hz : G.Box z) (hkz : Adj4 k z) (hzk : ¬ G.Conn k z)
    {q b : Nat × Nat} (hq : G.Conn k q) (hb : G.OutPath k z b) (hqb : Adj4 q b) :
    G.BPath k q := by
  obtain ⟨f, hf⟩ := potential (z := z) hk
  have hB : ∀ {b}, G.OutPath k z b → G.Box b ∧ ¬ G.Conn k b ∧ f b = f z := by
    intro b hb
    induction hb with
    | refl => exact ⟨hz, hzk, rfl⟩
    | tail h1 h ih =>
      refine ⟨h.2.2.1, h.2.2.2.2, ?_⟩
      rename_i p q
      obtain ⟨hl, bp, bq, np, nq⟩ := h
      have hp1 : G.st k z p = 1 := (st_one p).mpr ⟨np, h1⟩
      have hq1 : G.st k z q = 1 := (st_one q).mpr ⟨nq, ReflTransGen.tail h1 ⟨hl, bp, bq, np, nq⟩⟩
      rcases hl with hl | ⟨l1, l2, l3, l4, l5⟩
      · rw [hf _ _ bp bq hl, ih.2.2]
        unfold flow
        rw [hp1, hq1]
        simp
      · have bc := K.box (l3.keep hk)
        rw [hf _ _ bc bq l2, hf _ _ bp bc l1, ih.2.2]
        unfold flow
        rw [hp1, hq1]
        simp
  have hin : ∀ {p q}, G.Box p → G.Box q → Adj4 p q → G.Conn k p → G.Conn k q → f q = f p := by
    intro p q bp bq h hp hq
    rw [hf _ _ bp bq h]
    unfold flow
    rw [if_neg, if_neg]
    · simp
    · intro e; rw [st_one] at e; exact e.2.1 hq
    · intro e; rw [st_one] at e; exact e.1.1 hp
  have hC : ∀ {q}, G.Conn k q → f q = f k := by
    intro q hq
    induction hq with
    | refl => rfl
    | @tail p q h1 h ih =>
      rw [← ih]
      obtain ⟨hN, hp, hq⟩ := h
      have cp : G.Conn k p := h1
      have cq : G.Conn k q := cp.tail ⟨hN, hp, hq⟩
      have bp := K.box hp
      have bq := K.box hq
      by_cases h4 : Adj4 p q
      · exact hin bp bq h4 cp cq
      by_cases e : p = q
      · rw [e]
      have h8 := G.sq _ _ hp hq hN
      have hd : Adj4 p (q.1, p.2) ∧ Adj4 (q.1, p.2) q := by
        have : ¬ (p.1 = q.1 ∧ p.2 = q.2) := fun h => e (Prod.ext h.1 h.2)
        unfold Adj4 at h4 ⊢
        unfold NearSq at h8
        dsimp only
        omega
      have bc : G.Box (q.1, p.2) := ⟨bq.1, bp.2⟩
      by_cases hc : G.Conn k (q.1, p.2)
      · rw [hin bc bq hd.2 hc cq, hin bp bc hd.1 cp hc]
      · rw [hf _ _ bc bq hd.2, hf _ _ bp bc hd.1]
        have hn := not_keep hk hc cp hd.1
        have hs := st_eq (z := z) hN (res_of_near bc hn hp hd.1.near)
          (res_of_near bc hn hq hd.2.symm.near) cp cq
        have h3 : G.st k z (q.1, p.2) ≠ 3 := by rw [Ne, st_three]; exact fun h => hc h.conn
        unfold flow
        rw [hs]
        simp [h3, and_comm]
  obtain ⟨bb, nb, eb⟩ := hB hb
  have h1 := hf _ _ hz (K.box hk) hkz.symm
  have h2 := hf _ _ bb (K.box (hq.keep hk)) hqb.symm
  have e1 : G.flow k z z k = 1 := by
    unfold flow
    rw [if_pos ⟨(st_one z).mpr ⟨hzk, .refl⟩, (st_three k).mpr .refl⟩, if_neg]
    · rfl
    · intro e; rw [st_three] at e; exact hzk e.1.conn
  by_contra hP
  have e2 : G.flow k z b q = 0 := by
    unfold flow
    rw [if_neg, if_neg]
    · rfl
    · intro e; rw [st_three] at e; exact nb e.1.conn
    · intro e; rw [st_three] at e; exact hP e.2
  rw [hC hq, eb, e2] at h2
  rw [e1] at h1
  omega

/-- A pixel whose left neighbour is not in the set, and that is not the first of its component, is
joined along the complement to an earlier pixel. -/
theorem earlier (hk : G.K k) (hl : ¬ G.K (k.1 - 1, k.2)) {c : Nat × Nat} (hc : G.Conn k c)
    (hbef : Before c k) : ∃ m, G.Res m ∧ Before m k ∧ G.BPath m k := by
  have hkin := G.inn k hk
  have hz : G.Box (k.1 - 1, k.2) := ⟨by dsimp; omega, hkin.2.2⟩
  have hkz : Adj4 k (k.1 - 1, k.2) := by unfold Adj4; dsimp; omega
  have hzk : ¬ G.Conn k (k.1 - 1, k.2) := fun h => hl (h.keep hk)
  by_contra hno
  have hface : ∀ q b, G.Conn k q → G.OutPath k (k.1 - 1, k.2) b → G.Box b → ¬ G.Conn k b →
      Adj4 q b → ¬ Before q k := by
    intro q b hq hb bb nb hqb hlt
    have := faces_bpath hk hz hkz hzk hq hb hqb
    exact hno ⟨q, res_of_near bb (not_keep hk nb hq hqb) (hq.keep hk) hqb.near, hlt, this.symm⟩
  have hgo : ∀ p q, (G.OutPath k (k.1 - 1, k.2) p ∧ ¬ G.Conn k p) → G.Box p → G.Box q → Adj4 p q →
      Before q k → G.OutPath k (k.1 - 1, k.2) q ∧ ¬ G.Conn k q := by
    intro p q hp bp bq h hlt
    have : ¬ G.Conn k q := fun hq => hface q p hq hp.1 bp hp.2 h.symm hlt
    exact ⟨hp.1.tail ⟨.inl h, bp, bq, hp.2, this⟩, this⟩
  have hleft : ∀ j, j + 1 ≤ k.1 →
      G.OutPath k (k.1 - 1, k.2) (k.1 - 1 - j, k.2) ∧ ¬ G.Conn k (k.1 - 1 - j, k.2) := by
    intro j
    induction j with
    | zero => intro _; exact ⟨.refl, hzk⟩
    | succ j ih =>
      intro hj
      refine hgo _ _ (ih (by omega)) ⟨?_, hkin.2.2⟩ ⟨?_, hkin.2.2⟩ ?_ ?_
      · dsimp; omega
      · dsimp; omega
      · unfold Adj4; dsimp; omega
      · unfold Before; dsimp; omega
  have hrow : ∀ p, p.2 = k.2 → p.1 < k.1 → ¬ G.Conn k p := by
    intro p h1 h2
    have := (hleft (k.1 - 1 - p.1) (by omega)).2
    have e : (k.1 - 1 - (k.1 - 1 - p.1), k.2) = p := Prod.ext (by dsimp; omega) (by dsimp; omega)
    rwa [e] at this
  by_cases h0 : k.2 = 0
  · unfold Before at hbef
    exact hrow c (by omega) (by omega) hc
  have hup : G.OutPath k (k.1 - 1, k.2) (k.1 - 1, k.2 - 1) ∧ ¬ G.Conn k (k.1 - 1, k.2 - 1) := by
    refine hgo _ _ ⟨.refl, hzk⟩ hz ⟨?_, ?_⟩ ?_ ?_
    · dsimp; omega
    · dsimp; omega
    · unfold Adj4; dsimp; omega
    · unfold Before; dsimp; omega
  have hul : ∀ j, j + 1 ≤ k.1 → G.OutPath k (k.1 - 1, k.2) (k.1 - 1 - j, k.2 - 1) ∧
      ¬ G.Conn k (k.1 - 1 - j, k.2 - 1) := by
    intro j
    induction j with
    | zero => intro _; exact hup
    | succ j ih =>
      intro hj
      refine hgo _ _ (ih (by omega)) ⟨?_, ?_⟩ ⟨?_, ?_⟩ ?_ ?_
      · dsimp; omega
      · dsimp; omega
      · dsimp; omega
      · dsimp; omega
      · unfold Adj4; dsimp; omega
      · unfold Before; dsimp; omega
  have hur : ∀ j, k.1 - 1 + j ≤ G.W → G.OutPath k (k.1 - 1, k.2) (k.1 - 1 + j, k.2 - 1) ∧
      ¬ G.Conn k (k.1 - 1 + j, k.2 - 1) := by
    intro j
    induction j with
    | zero => intro _; exact hup
    | succ j ih =>
      intro hj
      refine hgo _ _ (ih (by omega)) ⟨?_, ?_⟩ ⟨?_, ?_⟩ ?_ ?_
      · dsimp; omega
      · dsimp; omega
      · dsimp; omega
      · dsimp; omega
      · unfold Adj4; dsimp; omega
      · unfold Before; dsimp; omega
  have hrow' : ∀ p, p.2 = k.2 - 1 → ¬ G.Conn k p := by
    intro p h1 h2
    have hp := G.inn p (h2.keep hk)
    by_cases h3 : p.1 ≤ k.1 - 1
    · have := (hul (k.1 - 1 - p.1) (by omega)).2
      have e : (k.1 - 1 - (k.1 - 1 - p.1), k.2 - 1) = p :=
        Prod.ext (by dsimp; omega) (by dsimp; omega)
      rw [e] at this; exact this h2
    · have := (hur (p.1 - (k.1 - 1)) (by omega)).2
      have e : (k.1 - 1 + (p.1 - (k.1 - 1)), k.2 - 1) = p :=
        Prod.ext (by dsimp; omega) (by dsimp; omega)
      rw [e] at this; exact this h2
  have hbelow : ∀ {p}, G.Conn k p → k.2 ≤ p.2 := by
    intro p hp
    induction hp with
    | refl => exact le_refl _
    | @tail p q h1 h ih =>
      have h8 := G.sq _ _ h.2.1 h.2.2 h.1
      have h2 : G.Conn k q := ReflTransGen.tail h1 h
      have h3 : q.2 ≠ k.2 - 1 := fun e => hrow' q e h2
      unfold NearSq at h8
      omega
  have := hbelow hc
  unfold Before at hbef
  exact hrow c (by omega) (by omega) hc

end

end Planar

end Smil
