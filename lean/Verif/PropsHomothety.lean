import Verif.PropsStrElt

/-!
# Homothety (C23) and rotations of composite elements (C24)
-/

namespace Smil
open StrElt

theorem physSum_append (odd : Bool) (l m : List IntPoint) :
    physSum odd (l ++ m) = physSum odd l + physSum odd m := by
  simp [physSum]

theorem physSum_singleton (odd : Bool) (p : IntPoint) : physSum odd [p] = phys odd p := by
  simp [physSum]

theorem physSum_cons (odd : Bool) (p : IntPoint) (l : List IntPoint) :
    physSum odd (p :: l) = phys odd p + physSum odd l := by
  simp only [physSum, List.map_cons, List.sum_cons]
  rfl

theorem phys_hsum (odd : Bool) (p p2 : IntPoint) (hz : odd = true → p2.z % 2 = 0) :
    phys odd (hsum odd p p2) = phys odd p + phys odd p2 := by
  cases odd with
  | false => simp [phys, hsum]; refine ⟨?_, ?_, ?_⟩ <;> omega
  | true =>
    have hz' := hz rfl
    have h1 : cOdd (p2.z + 1) = true := (cOdd_iff _).mpr (by omega)
    have h2 := cOdd_iff p2.y
    have h3 := cOdd_iff p.y
    simp only [phys, hsum, h1, Bool.true_and, true_and, Prod.mk_add_mk, Prod.mk.injEq]
    refine ⟨?_, by omega, by omega⟩
    rcases h2' : cOdd p2.y with _ | _ <;> rcases h3' : cOdd p.y with _ | _ <;>
      simp only [h2', h3', true_iff, Bool.false_eq_true, false_iff] at h2 h3 <;>
      simp <;> split_ifs <;> omega

/-- C23: `homothety(s)` contains exactly the sums of between one and `s` points of the element,
on both grids. (On the hexagonal grid sums are taken in physical coordinates and the element lies
in the even slices, in particular in the plane.) -/
theorem C23_sums (se : StrElt) (s : Nat) (hs : 1 ≤ s) (hs2 : s < 2 ^ 32)
    (hz : se.odd = true → ∀ p ∈ se.points, p.z % 2 = 0) (q : IntPoint) :
    q ∈ (se.homothety s).points ↔ ∃ l : List IntPoint, 1 ≤ l.length ∧ l.length ≤ s ∧
      (∀ p ∈ l, p ∈ se.points) ∧ physSum se.odd l = phys se.odd q := by
  have hmod : (s + (2 ^ 32 - 1)) % 2 ^ 32 = s - 1 := by omega
  unfold homothety
  rw [hmod]
  obtain ⟨n, rfl⟩ : ∃ n, s = n + 1 := ⟨s - 1, by omega⟩
  simp only [Nat.add_sub_cancel]
  clear hs hs2 hmod
  induction n generalizing q with
  | zero =>
    simp only [Function.iterate_zero, id]
    constructor
    · intro h
      exact ⟨[q], by simp, by simp, by simpa using h, physSum_singleton _ _⟩
    · rintro ⟨l, h1, h2, h3, h4⟩
      match l, h1, h2 with
      | [p], _, _ =>
        rw [physSum_singleton] at h4
        rw [← phys_inj _ _ _ h4]
        exact h3 p (by simp)
  | succ n ih =>
    rw [Function.iterate_succ_apply', mem_homothetyStep, iterate_odd]
    constructor
    · rintro (h | ⟨p, hp, p2, hp2, rfl⟩)
      · obtain ⟨l, h1, h2, h3, h4⟩ := (ih q).mp h
        exact ⟨l, h1, by omega, h3, h4⟩
      · obtain ⟨l, h1, h2, h3, h4⟩ := (ih p).mp hp
        refine ⟨l ++ [p2], by simp, by simp; omega, ?_, ?_⟩
        · intro x hx
          rcases List.mem_append.mp hx with h | h
          · exact h3 x h
          · rw [List.mem_singleton.mp h]; exact hp2
        · rw [physSum_append, physSum_singleton, h4, phys_hsum _ _ _ (fun h => hz h p2 hp2)]
    · rintro ⟨l, h1, h2, h3, h4⟩
      by_cases hl : l.length ≤ n + 1
      · exact Or.inl ((ih q).mpr ⟨l, h1, hl, h3, h4⟩)
      · right
        rcases List.eq_nil_or_concat l with rfl | ⟨m, p2, rfl⟩
        · simp at h1
        · simp only [List.concat_eq_append] at *
          have hm : m.length = n + 1 := by simp at h2 hl; omega
          have hp2 : p2 ∈ se.points := h3 p2 (by simp)
          -- the point reached by the first `n + 1` steps
          let sx := physSum se.odd m
          have hex : ∃ p, physSum se.odd m = phys se.odd p := by
            clear ih h4 hm h1 h2 hl
            induction m using List.reverseRecOn with
            | nil => exact ⟨⟨0, 0, 0⟩, by simp [physSum, phys]⟩
            | append_singleton m r ihm =>
              obtain ⟨p, hp⟩ := ihm (fun x hx => h3 x (by
                simp only [List.mem_append, List.mem_singleton] at hx ⊢; tauto))
              refine ⟨hsum se.odd p r, ?_⟩
              rw [physSum_append, physSum_singleton, hp,
                phys_hsum _ _ _ (fun h => hz h r (h3 r (by simp)))]
          obtain ⟨p, hp⟩ := hex
          refine ⟨p, (ih p).mpr ⟨m, by omega, by omega, fun x hx => h3 x (by simp [hx]), hp⟩, p2,
            hp2, ?_⟩
          apply phys_inj se.odd
          rw [phys_hsum _ _ _ (fun h => hz h p2 hp2), ← hp, ← h4, physSum_append,
            physSum_singleton]

theorem physSum_replicate_zero (odd : Bool) (n : Nat) :
    physSum odd (List.replicate n ⟨0, 0, 0⟩) = 0 := by
  simp [physSum, phys]

/-- C23: for an element containing the origin, `homothety(s)` is the `s`-fold Minkowski sum. -/
theorem C23_minkowski (se : StrElt) (s : Nat) (hs : 1 ≤ s) (hs2 : s < 2 ^ 32)
    (hz : se.odd = true → ∀ p ∈ se.points, p.z % 2 = 0) (h0 : ⟨0, 0, 0⟩ ∈ se.points)
    (q : IntPoint) :
    q ∈ (se.homothety s).points ↔ ∃ l : List IntPoint, l.length = s ∧
      (∀ p ∈ l, p ∈ se.points) ∧ physSum se.odd l = phys se.odd q := by
  rw [C23_sums se s hs hs2 hz]
  constructor
  · rintro ⟨l, h1, h2, h3, h4⟩
    refine ⟨l ++ List.replicate (s - l.length) ⟨0, 0, 0⟩, by simp; omega, ?_, ?_⟩
    · intro p hp
      rcases List.mem_append.mp hp with h | h
      · exact h3 p h
      · rw [List.eq_of_mem_replicate h]; exact h0
    · rw [physSum_append, physSum_replicate_zero, h4, add_zero]
  · rintro ⟨l, h1, h2, h3⟩
    exact ⟨l, by omega, by omega, h2, h3⟩

example : ((⟨-3, 2, 0⟩ : IntPoint) ∈ ((HexSE 1).homothety 4).points) ∧
    ((⟨-4, 2, 0⟩ : IntPoint) ∉ ((HexSE 1).homothety 4).points) := by decide +kernel

/-- Without the origin the exact sums are not what `homothety` gives: it keeps the smaller
sums. -/
theorem C23_noOrigin_bug : (⟨1, 0, 0⟩ : IntPoint) ∈
    ((⟨false, .generic, 1, [⟨1, 0, 0⟩]⟩ : StrElt).homothety 2).points ∧
    ¬ ∃ l : List IntPoint, l.length = 2 ∧ (∀ p ∈ l, p ∈ [(⟨1, 0, 0⟩ : IntPoint)]) ∧
      physSum false l = phys false ⟨1, 0, 0⟩ := by
  refine ⟨by decide, ?_⟩
  rintro ⟨l, h1, h2, h3⟩
  match l, h1 with
  | [a, b], _ =>
    have ha : a = ⟨1, 0, 0⟩ := by simpa using h2 a (by simp)
    have hb : b = ⟨1, 0, 0⟩ := by simpa using h2 b (by simp)
    subst ha; subst hb
    revert h3; decide

theorem mem_SquSE (s : Nat) (p : IntPoint) :
    p ∈ (SquSE s).points ↔ -1 ≤ p.x ∧ p.x ≤ 1 ∧ -1 ≤ p.y ∧ p.y ≤ 1 ∧ p.z = 0 := by
  have : (SquSE s).points = squPlane 0 := rfl
  rw [this]
  cases p with | mk x y z =>
  simp only [squPlane, List.mem_cons, IntPoint.mk.injEq, List.not_mem_nil, or_false]
  constructor
  · intro h; omega
  · intro h; omega

/-- C23: the homothetic of the unit square is the full square of side `2n + 1`. -/
theorem C23_square (n : Nat) (hn : 1 ≤ n) (hn2 : n < 2 ^ 32) (q : IntPoint) :
    q ∈ ((SquSE 1).homothety n).points ↔
      -(n : Int) ≤ q.x ∧ q.x ≤ n ∧ -(n : Int) ≤ q.y ∧ q.y ≤ n ∧ q.z = 0 := by
  rw [C23_minkowski _ n hn hn2 (by intro h; cases h) (by decide)]
  have hodd : (SquSE 1).odd = false := rfl
  rw [hodd]
  clear hn hn2
  induction n generalizing q with
  | zero =>
    cases q with | mk x y z =>
    simp [physSum, phys]
    omega
  | succ n ih =>
    constructor
    · rintro ⟨l, h1, h2, h3⟩
      match l, h1 with
      | p :: l, h1 =>
        have hp := (mem_SquSE 1 p).mp (h2 p (by simp))
        have := (ih ⟨q.x - p.x, q.y - p.y, q.z - p.z⟩).mp ⟨l, by simpa using h1,
          fun r hr => h2 r (by simp [hr]), by
            simp [physSum, phys] at h3 ⊢
            omega⟩
        simp at this
        omega
    · intro h
      -- move one step towards the origin
      let c : Int → Int := fun a => if a > 0 then 1 else if a < 0 then -1 else 0
      have hc : ∀ a : Int, -1 ≤ c a ∧ c a ≤ 1 := by
        intro a; simp only [c]; split
        · omega
        · split <;> omega
      have hc2 : ∀ a : Int, -((n : Int) + 1) ≤ a → a ≤ n + 1 → -(n : Int) ≤ a - c a ∧ a - c a ≤ n := by
        intro a h1 h2; simp only [c]; split
        · omega
        · split <;> omega
      push_cast at h
      have hx := hc2 q.x (by omega) (by omega)
      have hy := hc2 q.y (by omega) (by omega)
      obtain ⟨l, h1, h2, h3⟩ := (ih ⟨q.x - c q.x, q.y - c q.y, 0⟩).mpr (by simp; omega)
      refine ⟨⟨c q.x, c q.y, 0⟩ :: l, by simp [h1], ?_, ?_⟩
      · intro r hr
        rcases List.mem_cons.mp hr with rfl | hr
        · rw [mem_SquSE]
          exact ⟨(hc q.x).1, (hc q.x).2, (hc q.y).1, (hc q.y).2, rfl⟩
        · exact h2 r hr
      · rw [physSum_cons, h3]
        have := h.2.2.2.2
        simp [phys]
        omega

/-- C23: and it is a list of `(2n+1)²` points. -/
theorem C23_square_count (n : Nat) (hn : 1 ≤ n) (hn2 : n < 2 ^ 32) :
    ((SquSE 1).homothety n).points.length = (2 * n + 1) ^ 2 := by
  have hnd : ((SquSE 1).homothety n).points.Nodup := iterate_nodup _ _ _ (by decide)
  have hinj : Function.Injective (fun a : Int × Int => (⟨a.1, a.2, 0⟩ : IntPoint)) := by
    intro a b h
    simp only [IntPoint.mk.injEq] at h
    exact Prod.ext h.1 h.2.1
  have e : ((SquSE 1).homothety n).points.toFinset =
      (Finset.Icc (-(n : Int)) n ×ˢ Finset.Icc (-(n : Int)) n).image
        (fun a => (⟨a.1, a.2, 0⟩ : IntPoint)) := by
    ext q
    rw [List.mem_toFinset, C23_square n hn hn2, Finset.mem_image]
    simp only [Finset.mem_product, Finset.mem_Icc, Prod.exists]
    constructor
    · intro h
      refine ⟨q.x, q.y, by omega, ?_⟩
      have hz := h.2.2.2.2
      cases q; simp only at hz; rw [hz]
    · rintro ⟨a, b, h, rfl⟩
      exact ⟨h.1.1, h.1.2, h.2.1, h.2.2, rfl⟩
  rw [← List.toFinset_card_of_nodup hnd, e, Finset.card_image_of_injective _ hinj,
    Finset.card_product, Int.card_Icc]
  have : ((n : Int) + 1 - -(n : Int)).toNat = 2 * n + 1 := by omega
  rw [this]; ring

example : ((SquSE 1).homothety 3).points.length = 49 := by decide +kernel

/-- A size of zero is not the identity: the unsigned bound wraps and the element grows
`2^32 - 1` times. -/
theorem C23_zero_bug (se : StrElt) : se.homothety 0 =
    Nat.iterate (homothetyStep se.points) (2 ^ 32 - 1) ⟨se.odd, .generic, 1, se.points⟩ := rfl

end Smil
