import Verif.WindowPts

/-!
# C115: points of a window
-/

namespace Smil

/-! ### Specification -/

/-- The window: its points. -/
def WinPts.Has (s : WinPts) (x y z : Int) : Prop := (0 ≤ x ∧ x < s.w) ∧ (0 ≤ y ∧ y < s.h) ∧ 0 ≤ z ∧ z < s.d

/-- `c` is the number between 0 and `n - 1` that is nearest to `a`. -/
def Nearest (n a c : Int) : Prop := (0 ≤ c ∧ c < n) ∧ ∀ b, 0 ≤ b → b < n → |a - c| ≤ |a - b|

/-! ### Proofs -/

theorem inWin_iff (s : WinPts) (x y z : Int) : s.inWin x y z = true ↔ s.Has x y z := by
  unfold WinPts.inWin WinPts.Has
  split
  · simp; omega
  · split
    · simp; omega
    · split
      · simp; omega
      · simp; omega

/-- **C115.** In a window of fewer than 2^63 points, `index` and `coords` are inverse to each other: the points have the indices 0 to `w * h * d - 1`. -/
theorem C115_bijection (s : WinPts) (hs : s.OK) :
    (∀ x y z, s.Has x y z → ∃ p, s.index x y z = some p ∧ 0 ≤ p ∧ p < s.w * s.h * s.d ∧ s.coords p = some (x, y, z)) ∧
    ∀ p, 0 ≤ p → p < s.w * s.h * s.d → ∃ x y z, s.coords p = some (x, y, z) ∧ s.Has x y z ∧ s.index x y z = some p := by
  have hc := hs.count
  have hw := hs.w
  have hh := hs.h
  refine ⟨fun x y z ⟨hx, hy, hz⟩ => ?_, fun p h0 h1 => ?_⟩
  · obtain ⟨k1, k2, k3⟩ := index_val hs hx hy hz
    exact ⟨_, k1, k2, k3, coords_index hs hx hy hz.1 (by omega)⟩
  · obtain ⟨x, y, z, hx, hy, hz, e⟩ := split_index hs h0
    have hzd : z < s.d := by
      by_contra hn
      have e1 : s.d * s.h ≤ z * s.h := by nlinarith
      have e2 : (s.d * s.h) * s.w ≤ (y + z * s.h) * s.w := by nlinarith
      have e3 : s.d * s.h * s.w = s.w * s.h * s.d := by ring
      omega
    refine ⟨x, y, z, ?_, ⟨hx, hy, hz, hzd⟩, ?_⟩
    · rw [e]
      exact coords_index hs hx hy hz (by omega)
    · rw [e]
      exact (index_val hs hx hy ⟨hz, hzd⟩).1

/-- **C115.** `inWindow(x, y, z)` holds exactly for the points of the window, and `inWindow(p)` exactly for the indices of its points: for the numbers below zero and from `w * h * d` on it is false, not undefined. -/
theorem C115_inWindow (s : WinPts) (hs : s.OK) :
    (∀ x y z, s.inWin x y z = true ↔ s.Has x y z) ∧ ∀ p, -2 ^ 63 ≤ p → p < 2 ^ 63 → s.inWinAt p = some (decide (0 ≤ p ∧ p < s.w * s.h * s.d)) := by
  have hw := hs.w
  have hh := hs.h
  have hd := hs.d
  have hc := hs.count
  refine ⟨inWin_iff s, fun p h0 h1 => ?_⟩
  unfold WinPts.inWinAt
  by_cases hp : 0 ≤ p
  · obtain ⟨x, y, z, hx, hy, hz, e⟩ := split_index hs hp
    have hco := coords_index hs hx hy hz (by omega)
    rw [← e] at hco
    rw [hco, Option.map_some]
    refine congrArg some (Bool.eq_iff_iff.mpr ?_)
    rw [decide_eq_true_eq, inWin_iff]
    constructor
    · intro h
      have := index_val hs hx hy h.2.2
      rw [← e] at this
      exact this.2
    · intro h
      obtain ⟨x', y', z', k1, k2, k3⟩ := (C115_bijection s hs).2 p h.1 h.2
      rw [hco] at k1
      have k1 := Option.some.inj k1
      simp only [Prod.mk.injEq] at k1
      rw [k1.1, k1.2.1, k1.2.2]
      exact k2
  · have hneg : ∀ m a : Int, 0 < m → a ≤ 0 → a.tmod m = -((-a) % m) ∧ a.tdiv m = -((-a) / m) := by
      intro m a _ ha
      have e1 : a.tmod m = -((-a).tmod m) := by rw [Int.neg_tmod, neg_neg]
      have e2 : a.tdiv m = -((-a).tdiv m) := by rw [Int.neg_tdiv, neg_neg]
      rw [e1, e2, Int.tmod_eq_emod_of_nonneg (by omega), Int.tdiv_eq_ediv_of_nonneg (by omega)]
      exact ⟨rfl, rfl⟩
    unfold WinPts.coords
    rw [if_neg (by omega)]
    dsimp only
    set q := -p with hq
    have hq0 : 0 < q := by omega
    have m1 : p.tmod s.w = -(q % s.w) := (hneg s.w p hw (by omega)).1
    have a1 := Int.emod_nonneg q (show s.w ≠ 0 by omega)
    have a2 := Int.emod_lt_of_pos q hw
    have a3 := Int.mul_ediv_add_emod q s.w
    have a4 : 0 ≤ q / s.w := Int.ediv_nonneg (by omega) hw.le
    have a5 : q / s.w ≤ q := by nlinarith
    have e1 : p - p.tmod s.w = -(q / s.w) * s.w := by
      rw [m1]
      linarith [mul_comm (q / s.w) s.w]
    have b1 : p - p.tmod s.w ≤ 0 ∧ p ≤ p - p.tmod s.w := by rw [m1]; constructor <;> nlinarith
    rw [off64_of (by omega) (by omega), Option.bind_some, e1, tdiv_mul_self (by omega)]
    have m2 := (hneg s.h (-(q / s.w)) hh (by omega)).1
    rw [neg_neg] at m2
    have c1 := Int.emod_nonneg (q / s.w) (show s.h ≠ 0 by omega)
    have c3 := Int.mul_ediv_add_emod (q / s.w) s.h
    have c4 : 0 ≤ q / s.w / s.h := Int.ediv_nonneg a4 hh.le
    have c5 : q / s.w % s.h ≤ q / s.w := by nlinarith
    have e2 : -(q / s.w) - (-(q / s.w)).tmod s.h = -(q / s.w / s.h) * s.h := by
      rw [m2]
      linarith [mul_comm (q / s.w / s.h) s.h]
    rw [e2, off64_of (by rw [← e2, m2]; omega) (by rw [← e2, m2]; omega), Option.map_some, Option.map_some, tdiv_mul_self (by omega)]
    have hf : decide (0 ≤ p ∧ p < s.w * s.h * s.d) = false := decide_eq_false (by omega)
    rw [hf]
    refine congrArg some (Bool.eq_false_iff.mpr fun h => ?_)
    rw [inWin_iff] at h
    obtain ⟨h1, h2, h3, -⟩ := h
    dsimp only at h1 h2 h3
    rw [m1] at h1
    rw [m2] at h2
    have z1 : q % s.w = 0 := by omega
    have z2 : q / s.w % s.h = 0 := by omega
    have z3 : q / s.w / s.h = 0 := by omega
    rw [z3, z2] at c3
    rw [z1, ← c3] at a3
    simp at a3
    omega

theorem clamp64_nearest {x dx n : Int} (hn : 0 < n) (hn2 : n < 2 ^ 63) (h1 : -2 ^ 63 ≤ x + dx) (h2 : x + dx < 2 ^ 63) : ∃ c, clamp64 x dx n = some c ∧ Nearest n (x + dx) c := by
  unfold clamp64
  rw [off64_of h1 h2, Option.bind_some, off64_of (by omega) (by omega)]
  refine ⟨max 0 (min (x + dx) (n - 1)), rfl, ⟨by omega, by omega⟩, fun b b1 b2 => ?_⟩
  generalize x + dx = a
  rcases abs_cases (a - max 0 (min a (n - 1))) with h | h <;> rcases abs_cases (a - b) with k | k <;> omega

/-- **C115.** `translate` moves a point and brings it back to the nearest point of the window, each coordinate apart; the result is a point of the window. -/
theorem C115_translate (s : WinPts) (hs : s.OK) (x y z dx dy dz p : Int) (hp : s.Has x y z) (hi : s.index x y z = some p)
    (bx : -2 ^ 63 ≤ x + dx ∧ x + dx < 2 ^ 63) (bY : -2 ^ 63 ≤ y + dy ∧ y + dy < 2 ^ 63) (bz : -2 ^ 63 ≤ z + dz ∧ z + dz < 2 ^ 63) :
    ∃ x' y' z' q, s.translate p dx dy dz = some q ∧ s.index x' y' z' = some q ∧ Nearest s.w (x + dx) x' ∧ Nearest s.h (y + dy) y' ∧ Nearest s.d (z + dz) z' := by
  have hw := hs.w
  have hh := hs.h
  have hd := hs.d
  have hc := hs.count
  have h1 : s.w ≤ s.w * s.h * s.d := by nlinarith [mul_pos hw hh]
  have h2 : s.h ≤ s.w * s.h * s.d := by nlinarith [mul_pos hw hh]
  have h3 : s.d ≤ s.w * s.h * s.d := by nlinarith [mul_pos hw hh]
  obtain ⟨p', k1, k2, k3, k4⟩ := (C115_bijection s hs).1 x y z hp
  rw [hi] at k1
  obtain rfl := Option.some.inj k1
  obtain ⟨x', ex, nx⟩ := clamp64_nearest (x := x) (dx := dx) hw (by omega) bx.1 bx.2
  obtain ⟨y', ey, ny⟩ := clamp64_nearest (x := y) (dx := dy) hh (by omega) bY.1 bY.2
  obtain ⟨z', ez, nz⟩ := clamp64_nearest (x := z) (dx := dz) hd (by omega) bz.1 bz.2
  obtain ⟨q, j1, -⟩ := (C115_bijection s hs).1 x' y' z' ⟨nx.1, ny.1, nz.1⟩
  refine ⟨x', y', z', q, ?_, j1, nx, ny, nz⟩
  unfold WinPts.translate
  rw [k4, Option.bind_some, ex, Option.bind_some, ey, Option.bind_some, ez, Option.bind_some, j1]

/-- **C115.** A move that stays in the window is exact. -/
theorem C115_inside (s : WinPts) (hs : s.OK) (x y z dx dy dz p : Int) (hp : s.Has x y z) (hi : s.index x y z = some p) (hq : s.Has (x + dx) (y + dy) (z + dz)) :
    s.translate p dx dy dz = s.index (x + dx) (y + dy) (z + dz) ∧ s.translate p dx dy dz = some (p + dx + (dy + dz * s.h) * s.w) := by
  have hw := hs.w
  have hh := hs.h
  have hd := hs.d
  have hc := hs.count
  have h1 : s.w ≤ s.w * s.h * s.d := by nlinarith [mul_pos hw hh]
  have h2 : s.h ≤ s.w * s.h * s.d := by nlinarith [mul_pos hw hh]
  have h3 : s.d ≤ s.w * s.h * s.d := by nlinarith [mul_pos hw hh]
  obtain ⟨qx, qy, qz⟩ := hq
  obtain ⟨x', y', z', q, e1, e2, nx, ny, nz⟩ := C115_translate s hs x y z dx dy dz p hp hi ⟨by omega, by omega⟩ ⟨by omega, by omega⟩ ⟨by omega, by omega⟩
  have key : ∀ n a c, Nearest n a c → 0 ≤ a → a < n → c = a := by
    intro n a c h ha hb
    have := h.2 a ha hb
    rw [sub_self, abs_zero] at this
    have := abs_nonpos_iff.mp this
    omega
  rw [key _ _ _ nx qx.1 qx.2, key _ _ _ ny qy.1 qy.2, key _ _ _ nz qz.1 qz.2] at e2
  refine ⟨by rw [e1, e2], ?_⟩
  have i1 := (index_val hs hp.1 hp.2.1 hp.2.2).1
  have i2 := (index_val hs qx qy qz).1
  rw [hi] at i1
  rw [e1, ← e2, i2, Option.some.inj i1]
  congr 1
  ring

/-- A width or a height of zero is a division by zero. -/
theorem C115_zero (s : WinPts) (p : Int) (h : s.w = 0 ∨ s.h = 0) : s.coords p = none ∧ s.inWinAt p = none ∧ ∀ dx dy dz, s.translate p dx dy dz = none := by
  have e : s.coords p = none := by
    unfold WinPts.coords
    rw [if_pos h]
  unfold WinPts.inWinAt WinPts.translate
  rw [e]
  exact ⟨rfl, rfl, fun _ _ _ => rfl⟩

example : WinPts.OK ⟨4, 3, 2⟩ := ⟨by decide, by decide, by decide, by decide⟩
example : WinPts.index ⟨4, 3, 2⟩ 3 2 1 = some 23 ∧ WinPts.coords ⟨4, 3, 2⟩ 23 = some (3, 2, 1) ∧ WinPts.inWinAt ⟨4, 3, 2⟩ 24 = some false ∧ WinPts.inWinAt ⟨4, 3, 2⟩ (-12) = some false ∧
    WinPts.translate ⟨4, 3, 2⟩ 6 5 (-7) 1 = some 15 := by decide

end Smil
