import Verif.GeoMeas
import Verif.LabelLemmas
import Mathlib.Data.Finset.Max
import Mathlib.Order.Lattice.Nat
import Mathlib.Tactic.Linarith
import Mathlib.Tactic.Ring

/-!
# The propagations of the geodesic measures
-/

namespace Smil
open Relation

/-- What the neighbourhood must satisfy. -/
structure GmOk (C : GmCfg) : Prop where
  lt : ∀ i < C.n, ∀ b ∈ C.nbs i, b.1 < C.n
  symm : ∀ i < C.n, ∀ b ∈ C.nbs i, (i, b.2) ∈ C.nbs b.1
  irr : ∀ i < C.n, ∀ b ∈ C.nbs i, b.1 ≠ i

/-- Neighbours with the same label inside the set. -/
def GmCfg.R (C : GmCfg) (S : Nat → Prop) (i j : Nat) : Prop := S i ∧ S j ∧ C.lab j = C.lab i ∧ ∃ w, (j, w) ∈ C.nbs i

theorem GmCfg.R.symm' {C : GmCfg} (hC : GmOk C) {S : Nat → Prop} (hS : ∀ i, S i → i < C.n) {i j : Nat} (h : C.R S i j) : C.R S j i := by
  obtain ⟨h1, h2, h3, w, h4⟩ := h
  exact ⟨h2, h1, h3.symm, w, hC.symm i (hS i h1) _ h4⟩

theorem reach_symm {C : GmCfg} (hC : GmOk C) {S : Nat → Prop} (hS : ∀ i, S i → i < C.n) {i j : Nat} (h : ReflTransGen (C.R S) i j) :
    ReflTransGen (C.R S) j i := by
  induction h with
  | refl => exact .refl
  | tail _ h2 ih => exact .head (h2.symm' hC hS) ih

theorem reach_mem {C : GmCfg} {S : Nat → Prop} {i j : Nat} (hi : S i) (h : ReflTransGen (C.R S) i j) : S j := by
  cases h with
  | refl => exact hi
  | tail _ h2 => exact h2.2.1

theorem reach_lab {C : GmCfg} {S : Nat → Prop} {i j : Nat} (h : ReflTransGen (C.R S) i j) : C.lab j = C.lab i := by
  induction h with
  | refl => rfl
  | tail _ h2 ih => exact h2.2.2.1.trans ih

/-! ### The component -/

section
variable {C : GmCfg} (hC : GmOk C) {S : Nat → Prop} (hS : ∀ i, S i → i < C.n) {i : Nat} (hi : S i) {dm0 : Nat → ℚ}
  (h0 : ∀ j, ReflTransGen (C.R S) i j → dm0 j = -1) (h1 : ∀ j, j < C.n → dm0 j = -1 → S j)

/-- Invariant of the first loop. -/
structure FldInv (C : GmCfg) (S : Nat → Prop) (i : Nat) (dm0 : Nat → ℚ) (V : List Nat) (dm : Nat → ℚ) : Prop where
  nodup : V.Nodup
  reach : ∀ j ∈ V, ReflTransGen (C.R S) i j
  seed : i ∈ V
  val : ∀ j, dm j = if j ∈ V then -2 else dm0 j

include hC hS hi h0 h1 in
theorem FldInv.mark {D : List Nat} {cur : Nat} : ∀ (L : List (Nat × ℚ)), (∀ b ∈ L, b ∈ C.nbs cur) → ∀ (q : List Nat) (dm : Nat → ℚ),
    FldInv C S i dm0 (D ++ cur :: q) dm → ∃ W dm', L.foldl (gmMark C cur) (dm, q, D ++ cur :: q) = (dm', q ++ W, D ++ cur :: (q ++ W)) ∧
      FldInv C S i dm0 (D ++ cur :: (q ++ W)) dm' ∧ ∀ b ∈ L, C.R S cur b.1 → b.1 ∈ D ++ cur :: (q ++ W)
  | [], _, q, dm, h => ⟨[], dm, by simp, by simpa using h, by simp⟩
  | b :: L, hL, q, dm, h => by
    have hcr := h.reach cur (by simp)
    have hcS := reach_mem hi hcr
    have hbn := hC.lt cur (hS _ hcS) b (hL b (by simp))
    rw [List.foldl_cons]
    by_cases hc : dm b.1 = -1 ∧ C.lab b.1 = C.lab cur
    · have hv : b.1 ∉ D ++ cur :: q := fun hv => by
        have := h.val b.1
        rw [if_pos hv, hc.1] at this
        norm_num at this
      have hb0 : dm0 b.1 = -1 := by
        have := h.val b.1
        rw [if_neg hv] at this
        rw [← this, hc.1]
      have hr : C.R S cur b.1 := ⟨hcS, h1 _ hbn hb0, hc.2, b.2, hL b (by simp)⟩
      have e : gmMark C cur (dm, q, D ++ cur :: q) b = (Function.update dm b.1 (-2), q ++ [b.1], D ++ cur :: (q ++ [b.1])) := by
        unfold gmMark
        rw [if_pos hc]
        simp
      rw [e]
      have hV : D ++ cur :: (q ++ [b.1]) = (D ++ cur :: q) ++ [b.1] := by simp
      have h' : FldInv C S i dm0 (D ++ cur :: (q ++ [b.1])) (Function.update dm b.1 (-2)) := by
        rw [hV]
        refine ⟨?_, ?_, List.mem_append_left _ h.seed, ?_⟩
        · rw [List.nodup_append]
          refine ⟨h.nodup, by simp, fun a ha c hc' => ?_⟩
          rw [List.mem_singleton] at hc'
          rintro rfl
          exact hv (hc' ▸ ha)
        · intro j hj
          rcases List.mem_append.mp hj with hj | hj
          · exact h.reach j hj
          · rw [List.mem_singleton] at hj
            rw [hj]
            exact hcr.tail hr
        · intro j
          by_cases hj : j = b.1
          · subst hj; simp
          · rw [Function.update_of_ne hj, h.val j]
            simp [hj]
      obtain ⟨W, dm', e1, e2, e3⟩ := FldInv.mark L (fun b hb => hL b (by simp [hb])) (q ++ [b.1]) _ h'
      refine ⟨b.1 :: W, dm', by rw [e1]; simp, by simpa using e2, fun c hc' hrc => ?_⟩
      rcases List.mem_cons.mp hc' with rfl | hc'
      · simp
      · have := e3 c hc' hrc
        simpa using this
    · have e : gmMark C cur (dm, q, D ++ cur :: q) b = (dm, q, D ++ cur :: q) := by unfold gmMark; rw [if_neg hc]
      rw [e]
      obtain ⟨W, dm', e1, e2, e3⟩ := FldInv.mark L (fun b hb => hL b (by simp [hb])) q dm h
      refine ⟨W, dm', e1, e2, fun c hc' hrc => ?_⟩
      rcases List.mem_cons.mp hc' with rfl | hc'
      · by_contra hn
        apply hc
        have hn' : c.1 ∉ D ++ cur :: q := fun hm => hn (by
          have : D ++ cur :: (q ++ W) = (D ++ cur :: q) ++ W := by simp
          rw [this]
          exact List.mem_append_left _ hm)
        rw [h.val c.1, if_neg hn']
        exact ⟨h0 _ (hcr.tail hrc), hrc.2.2.1⟩
      · exact e3 c hc' hrc

include hC hS hi h0 h1 in
theorem gmFlood_inv : ∀ (fuel : Nat) (D q : List Nat) (dm : Nat → ℚ), FldInv C S i dm0 (D ++ q) dm → C.n + 1 ≤ fuel + D.length →
    (∀ j ∈ D, ∀ k, C.R S j k → k ∈ D ++ q) →
    ∃ dm' sv, gmFlood C fuel (dm, q, D ++ q) = some (dm', sv) ∧ sv.Nodup ∧ (∀ j, j ∈ sv ↔ ReflTransGen (C.R S) i j) ∧
      ∀ j, dm' j = if j ∈ sv then -2 else dm0 j := by
  intro fuel
  induction fuel with
  | zero =>
    intro D q dm h hf _
    have := nodup_lt_length h.nodup fun j hj => hS j (reach_mem hi (h.reach j hj))
    rw [List.length_append] at this
    omega
  | succ fuel ih =>
    intro D q dm h hf hcl
    cases q with
    | nil =>
      refine ⟨dm, D ++ [], rfl, h.nodup, fun j => ⟨h.reach j, fun hj => ?_⟩, h.val⟩
      induction hj with
      | refl => exact h.seed
      | tail _ hbc ihj => exact hcl _ (by simpa using ihj) _ hbc
    | cons cur q =>
      obtain ⟨W, dm', e1, e2, e3⟩ := FldInv.mark hC hS hi h0 h1 (C.nbs cur) (fun _ h => h) q dm h
      unfold gmFlood
      rw [e1]
      have e : D ++ cur :: (q ++ W) = (D ++ [cur]) ++ (q ++ W) := by simp
      rw [e] at e2 e3 ⊢
      refine ih (D ++ [cur]) (q ++ W) dm' e2 (by simp; omega) fun j hj k hk => ?_
      rcases List.mem_append.mp hj with hj | hj
      · have := hcl j hj k hk
        rw [← e]
        have e' : D ++ cur :: (q ++ W) = (D ++ cur :: q) ++ W := by simp
        rw [e']
        exact List.mem_append_left _ this
      · rw [List.mem_singleton] at hj
        subst hj
        obtain ⟨w, hw⟩ := hk.2.2.2
        exact e3 _ hw hk

include hC hS hi h0 h1 in
/-- The first loop finds the component. -/
theorem gmFlood_spec : ∃ dm' sv, gmFlood C (C.n + 1) (Function.update dm0 i (-2), [i], [i]) = some (dm', sv) ∧ sv.Nodup ∧
    (∀ j, j ∈ sv ↔ ReflTransGen (C.R S) i j) ∧ ∀ j, dm' j = if j ∈ sv then -2 else dm0 j := by
  refine gmFlood_inv hC hS hi h0 h1 (C.n + 1) [] [i] _ ⟨by simp, ?_, by simp, fun j => ?_⟩ (by simp) (by simp)
  · intro j hj
    rw [List.nil_append, List.mem_singleton] at hj
    rw [hj]
  · by_cases hj : j = i
    · subst hj; simp
    · rw [Function.update_of_ne hj]; simp [hj]

end

/-! ### The distances -/

/-- A walk inside `T` from `s` and its length. -/
inductive OWalk (root : ℚ → ℚ) (C : GmCfg) (T : Nat → Prop) (s : Nat) : Nat → ℚ → Prop
  | refl : T s → OWalk root C T s s 0
  | step {j k : Nat} {ℓ w : ℚ} : OWalk root C T s j ℓ → T k → (j, w) ∈ C.nbs k → OWalk root C T s k (ℓ + root w)

/-- Walks with their numbers of steps. -/
inductive NWalk (C : GmCfg) (T : Nat → Prop) (s : Nat) : Nat → Nat → Prop
  | refl : T s → NWalk C T s 0 s
  | step {n j k : Nat} {w : ℚ} : NWalk C T s n j → T k → (j, w) ∈ C.nbs k → NWalk C T s (n + 1) k

section
variable {root : ℚ → ℚ} {C : GmCfg} {T : Nat → Prop} {s : Nat} {dm0 : Nat → ℚ} {R : ℚ} {lev : Nat → Nat} {M : Nat}

/-- `lev` is the least number of steps from `s`, at most `M`. -/
structure LevOk (C : GmCfg) (T : Nat → Prop) (s : Nat) (lev : Nat → Nat) (M : Nat) : Prop where
  seed : lev s = 0
  up : ∀ a b w, T a → T b → (b, w) ∈ C.nbs a → lev b ≤ lev a + 1
  down : ∀ j, T j → j ≠ s → ∃ b ∈ C.nbs j, T b.1 ∧ lev b.1 + 1 = lev j
  top : ∀ j, T j → lev j ≤ M

/-- The pixel of the second extremity. -/
structure TortOk (root : ℚ → ℚ) (C : GmCfg) (T : Nat → Prop) (s : Nat) (mx : ℚ) (tort : Option Nat) : Prop where
  one : 1 ≤ mx
  wit : ∃ j, OWalk root C T s j (mx - 1)
  fNone : tort = none → mx = 1
  fSome : ∀ e, tort = some e → e ≠ s ∧ OWalk root C T s e (mx - 1)

/-- Invariant of the second loop: `D` are the pixels that have left the queue `q`. -/
structure GmInv (root : ℚ → ℚ) (C : GmCfg) (T : Nat → Prop) (s : Nat) (dm0 : Nat → ℚ) (R : ℚ) (lev : Nat → Nat) (M : Nat) (D q : List Nat) (dm : Nat → ℚ) (mx : ℚ)
    (tort : Option Nat) : Prop where
  nodup : (D ++ q).Nodup
  sub : ∀ j ∈ D ++ q, T j
  seed : (D = [] ∧ q = [s]) ∨ s ∈ D
  out : ∀ j, ¬ T j → dm j = dm0 j
  fresh : ∀ j, T j → j ∉ D ++ q → dm j = -2
  queued : ∀ j ∈ q, j ≠ s → dm j = -3 ∧ ∃ b ∈ C.nbs j, b.1 ∈ D
  dist : ∀ j, (j ∈ D ∨ j = s) → ∃ ℓ, OWalk root C T s j ℓ ∧ dm j = 1 + ℓ ∧ dm j ≤ mx ∧ 0 ≤ ℓ ∧ (j ≠ s → 0 < ℓ)
  bound : mx ≤ 1 + R * D.length
  far : TortOk root C T s mx tort
  closed : ∀ j ∈ D, ∀ b ∈ C.nbs j, T b.1 → b.1 ∈ D ++ q
  sorted : (D ++ q).Pairwise fun a b => lev a ≤ lev b
  spread : ∀ a ∈ q, ∀ b ∈ q, lev b ≤ lev a + 1
  level : ∀ j, (j ∈ D ∨ j = s) → dm j ≤ 1 + R * lev j
  mxl : mx ≤ 1 + R * (M + 1)

/-- Invariant of the loop over the neighbours: `P` are those that have been seen, `W` the pixels that have been pushed. -/
structure ScInv (root : ℚ → ℚ) (C : GmCfg) (T : Nat → Prop) (s : Nat) (R : ℚ) (lev : Nat → Nat) (M : Nat) (D : List Nat) (cur : Nat) (q : List Nat) (dmS : Nat → ℚ)
    (P : List (Nat × ℚ)) (W : List Nat) (st : GmSt) (d : Option ℚ) : Prop where
  fq : st.q = q ++ W
  nodup : (D ++ cur :: (q ++ W)).Nodup
  sub : ∀ j ∈ W, T j ∧ ∃ w, (cur, w) ∈ C.nbs j
  other : ∀ j, j ≠ cur → st.dm j = if j ∈ W then -3 else dmS j
  self : st.dm cur = d.getD (dmS cur)
  fSome : ∀ e, d = some e → cur ≠ s ∧ OWalk root C T s cur (e - 1) ∧ e ≤ st.mx ∧ 1 < e ∧ e ≤ 1 + R * (D.length + 1)
  found : ∀ b ∈ P, b.1 ∈ D → d ≠ none
  bound : st.mx ≤ 1 + R * (D.length + 1)
  far : TortOk root C T s st.mx st.tort
  closed : ∀ b ∈ P, T b.1 → b.1 ∈ D ++ cur :: (q ++ W)
  par : ∀ b ∈ P, b.1 ∈ D → lev b.1 + 1 = lev cur → ∀ e, d = some e → e ≤ 1 + R * lev cur
  mxl : st.mx ≤ 1 + R * (M + 1)

variable (hC : GmOk C) (hT : ∀ j, T j → j < C.n) (hlab : ∀ j, T j → ∀ b ∈ C.nbs j, T b.1 → C.lab b.1 = C.lab j)
  (hout : ∀ j, T j → ∀ b ∈ C.nbs j, C.lab b.1 = C.lab j → T b.1 ∨ dm0 b.1 = 0)
  (hroot : ∀ i < C.n, ∀ b ∈ C.nbs i, 0 < root b.2 ∧ root b.2 ≤ R) (hR : 0 ≤ R) (hlev : LevOk C T s lev M)

include hC hT hlab hout hroot hR hlev in
theorem ScInv.step {D q : List Nat} {cur : Nat} {dmS : Nat → ℚ} {mxS : ℚ} {tortS : Option Nat}
    (h : GmInv root C T s dm0 R lev M D (cur :: q) dmS mxS tortS) {P : List (Nat × ℚ)} {W : List Nat} {st : GmSt} {d : Option ℚ}
    (hs : ScInv root C T s R lev M D cur q dmS P W st d) (hm : mxS ≤ st.mx) {b : Nat × ℚ} (hb : b ∈ C.nbs cur) :
    ∃ W', ScInv root C T s R lev M D cur q dmS (P ++ [b]) W' (gmScan root C cur (st, d) b).1 (gmScan root C cur (st, d) b).2 ∧
      mxS ≤ (gmScan root C cur (st, d) b).1.mx := by
  have hcT : T cur := h.sub cur (by simp)
  have hbc : b.1 ≠ cur := hC.irr cur (hT _ hcT) b hb
  obtain ⟨hr0, hrR⟩ := hroot cur (hT _ hcT) b hb
  unfold gmScan
  by_cases hl : C.lab b.1 = C.lab cur
  · rw [if_pos hl]
    -- the three cases for the neighbour
    have hbv := hs.other b.1 hbc
    by_cases h2 : st.dm b.1 = -2
    · -- pushed
      have hbW : b.1 ∉ W := fun hw => by rw [hbv, if_pos hw] at h2; norm_num at h2
      rw [if_neg hbW] at hbv
      have hbT : T b.1 := by
        rcases hout cur hcT b hb hl with h3 | h3
        · exact h3
        · by_contra hn
          rw [hbv, h.out b.1 hn, h3] at h2
          norm_num at h2
      have hbV : b.1 ∉ D ++ cur :: q := by
        intro hm'
        rcases List.mem_append.mp hm' with hd | hd
        · obtain ⟨ℓ, _, e, _, h4, _⟩ := h.dist b.1 (.inl hd)
          rw [hbv, e] at h2
          linarith
        · by_cases hs' : b.1 = s
          · obtain ⟨ℓ, _, e, _, h4, _⟩ := h.dist b.1 (.inr hs')
            rw [hbv, e] at h2
            linarith
          · have := (h.queued b.1 hd hs').1
            rw [hbv, this] at h2
            norm_num at h2
      rw [if_pos h2]
      have hbn : b.1 ∉ D ++ cur :: (q ++ W) := by
        have e : D ++ cur :: (q ++ W) = (D ++ cur :: q) ++ W := by simp
        rw [e, List.mem_append]
        exact fun h => h.elim hbV hbW
      have e : D ++ cur :: (q ++ (W ++ [b.1])) = (D ++ cur :: (q ++ W)) ++ [b.1] := by simp
      have hnd : (D ++ cur :: (q ++ (W ++ [b.1]))).Nodup := by
        rw [e, List.nodup_append]
        refine ⟨hs.nodup, by simp, fun a ha c hc' => ?_⟩
        rw [List.mem_singleton] at hc'
        rintro rfl
        exact hbn (hc' ▸ ha)
      have hbD : b.1 ∉ D := fun hd => hbV (List.mem_append_left _ hd)
      have hfound : ∀ b' ∈ P ++ [b], b'.1 ∈ D → d ≠ none := by
        intro b' hb' hd
        rcases List.mem_append.mp hb' with hb' | hb'
        · exact hs.found b' hb' hd
        · rw [List.mem_singleton] at hb'
          subst hb'
          exact absurd hd hbD
      have hpar : ∀ b' ∈ P ++ [b], b'.1 ∈ D → lev b'.1 + 1 = lev cur → ∀ e, d = some e → e ≤ 1 + R * lev cur := by
        intro b' hb' hd
        rcases List.mem_append.mp hb' with hb' | hb'
        · exact hs.par b' hb' hd
        · rw [List.mem_singleton] at hb'
          subst hb'
          exact absurd hd hbD
      have hclosed : ∀ b' ∈ P ++ [b], T b'.1 → b'.1 ∈ D ++ cur :: (q ++ (W ++ [b.1])) := by
        intro b' hb' hT'
        rw [e]
        rcases List.mem_append.mp hb' with hb' | hb'
        · exact List.mem_append_left _ (hs.closed b' hb' hT')
        · rw [List.mem_singleton] at hb'
          subst hb'
          simp
      have hsub : ∀ j ∈ W ++ [b.1], T j ∧ ∃ w, (cur, w) ∈ C.nbs j := by
        intro j hj
        rcases List.mem_append.mp hj with hj | hj
        · exact hs.sub j hj
        · rw [List.mem_singleton] at hj
          subst hj
          exact ⟨hbT, b.2, hC.symm cur (hT _ hcT) b hb⟩
      have hother : ∀ j, j ≠ cur → Function.update st.dm b.1 (-3) j = if j ∈ W ++ [b.1] then -3 else dmS j := by
        intro j hj
        by_cases hjb : j = b.1
        · subst hjb; simp
        · rw [Function.update_of_ne hjb, hs.other j hj]
          simp [hjb]
      cases d with
      | none =>
        refine ⟨W ++ [b.1], ⟨by simp [gmPut, hs.fq], hnd, hsub, hother, ?_, by simp, hfound, hs.bound, hs.far, hclosed, hpar, hs.mxl⟩, hm⟩
        simp only [gmPut]
        rw [Function.update_of_ne hbc.symm]
        exact hs.self
      | some e0 =>
        obtain ⟨k1, k2, k3, k4, k5⟩ := hs.fSome e0 rfl
        have hmx : ¬ st.mx < e0 := not_lt.mpr k3
        simp only [gmPut, hmx, if_false]
        refine ⟨W ++ [b.1], ⟨by simp [hs.fq], hnd, hsub, ?_, by simp, ?_, by simp, hs.bound, hs.far, hclosed, hpar, hs.mxl⟩, hm⟩
        · intro j hj
          simp only
          rw [Function.update_of_ne hj]
          exact hother j hj
        · intro e he
          cases he
          exact ⟨k1, k2, k3, k4, k5⟩
    · rw [if_neg h2]
      have hclosed : ∀ b' ∈ P ++ [b], T b'.1 → b'.1 ∈ D ++ cur :: (q ++ W) := by
        intro b' hb' hT'
        rcases List.mem_append.mp hb' with hb' | hb'
        · exact hs.closed b' hb' hT'
        · rw [List.mem_singleton] at hb'
          subst hb'
          by_contra hn
          have e : D ++ cur :: (q ++ W) = (D ++ cur :: q) ++ W := by simp
          rw [e, List.mem_append, not_or] at hn
          apply h2
          rw [hbv, if_neg hn.2, h.fresh _ hT' hn.1]
      by_cases hv : st.dm b.1 ≠ 0 ∧ st.dm b.1 ≠ -3
      · -- a distance
        have hbW : b.1 ∉ W := fun hw => hv.2 (by rw [hbv, if_pos hw])
        rw [if_neg hbW] at hbv
        have hbD : b.1 ∈ D ∨ b.1 = s := by
          have hbT : T b.1 := by
            rcases hout cur hcT b hb hl with h3 | h3
            · exact h3
            · by_contra hn
              exact hv.1 (by rw [hbv, h.out b.1 hn, h3])
          by_contra hn
          rw [not_or] at hn
          by_cases hq : b.1 ∈ cur :: q
          · exact hv.2 (by rw [hbv, (h.queued b.1 hq hn.2).1])
          · exact h2 (by rw [hbv, h.fresh b.1 hbT (by rw [List.mem_append]; exact fun h => h.elim hn.1 hq)])
        have hcs : cur ≠ s := by
          rintro rfl
          rcases h.seed with ⟨k1, k2⟩ | k1
          · rcases hbD with k3 | k3
            · rw [k1] at k3; simp at k3
            · exact hbc k3
          · have := h.nodup
            rw [List.nodup_append] at this
            exact this.2.2 cur k1 cur (by simp) rfl
        obtain ⟨ℓ, k1, k2, k3, k4, _⟩ := h.dist b.1 hbD
        obtain ⟨x, hx⟩ : ∃ x, x = st.dm b.1 + root b.2 := ⟨_, rfl⟩
        have hx1 : x - 1 = ℓ + root b.2 := by rw [hx, hbv, k2]; ring
        have hxw : OWalk root C T s cur (x - 1) := by
          rw [hx1]
          exact .step k1 hcT hb
        have hxlt : 1 < x := by linarith
        have hxR : x ≤ 1 + R * (D.length + 1) := by
          have := h.bound
          rw [hx, hbv]
          linarith
        have hbl : lev b.1 ≤ lev cur := by
          rcases hbD with hd | hd
          · exact (List.pairwise_append.mp h.sorted).2.2 _ hd _ (by simp)
          · rw [hd, hlev.seed]; exact Nat.zero_le _
        have hxl : x ≤ 1 + R * (lev b.1 + 1) := by
          have := h.level b.1 hbD
          rw [hx, hbv]
          linarith
        have hxM : x ≤ 1 + R * (M + 1) := by
          have k7 : (lev b.1 : ℚ) ≤ M := by exact_mod_cast hbl.trans (hlev.top cur hcT)
          have := mul_le_mul_of_nonneg_left k7 hR
          linarith
        rw [if_pos hv]
        simp only [← hx]
        -- the new value
        obtain ⟨e, he⟩ : ∃ e, e = gmBest x d := ⟨_, rfl⟩
        have hec : e = x ∨ d = some e := by
          cases d with
          | none => exact .inl he
          | some e0 =>
            simp only [gmBest] at he
            split at he
            · exact .inl he
            · exact .inr (congrArg some he.symm)
        have hel : e ≤ x ∧ ∀ e0, d = some e0 → e ≤ e0 := by
          cases d with
          | none => exact ⟨he.le, by simp⟩
          | some e0 =>
            simp only [gmBest] at he
            split at he
            · rename_i hlt
              exact ⟨he.le, fun e1 h1 => by cases h1; rw [he]; exact hlt.le⟩
            · rename_i hlt
              exact ⟨by rw [he]; exact not_lt.mp hlt, fun e1 h1 => by cases h1; exact he.le⟩
        rw [← he]
        simp only [gmPut]
        have hep : OWalk root C T s cur (e - 1) ∧ 1 < e ∧ e ≤ 1 + R * (D.length + 1) := by
          rcases hec with rfl | hec
          · exact ⟨hxw, hxlt, hxR⟩
          · obtain ⟨_, k2, _, k4, k5⟩ := hs.fSome e hec
            exact ⟨k2, k4, k5⟩
        refine ⟨W, ⟨hs.fq, hs.nodup, hs.sub, ?_, by simp, ?_, by simp, ?_, ?_, hclosed, ?_, ?_⟩, ?_⟩
        · intro j hj
          simp only
          rw [Function.update_of_ne hj]
          exact hs.other j hj
        · intro e' he'
          cases he'
          refine ⟨hcs, hep.1, ?_, hep.2⟩
          split
          · exact le_refl _
          · rename_i hn; exact not_lt.mp hn
        · split
          · exact hep.2.2
          · exact hs.bound
        · by_cases hlt : st.mx < e
          · simp only [hlt, if_true]
            refine ⟨hep.2.1.le, ⟨cur, hep.1⟩, by simp, fun e' he' => ?_⟩
            cases he'
            exact ⟨hcs, hep.1⟩
          · simp only [hlt, if_false]
            exact hs.far
        · intro b' hb' hd' hl' e' he'
          cases he'
          rcases List.mem_append.mp hb' with hb' | hb'
          · obtain ⟨e0, he0⟩ := Option.ne_none_iff_exists'.mp (hs.found b' hb' hd')
            exact (hel.2 e0 he0).trans (hs.par b' hb' hd' hl' e0 he0)
          · rw [List.mem_singleton] at hb'
            subst hb'
            have : (lev b'.1 : ℚ) + 1 = lev cur := by exact_mod_cast hl'
            rw [this] at hxl
            exact hel.1.trans hxl
        · split
          · exact hel.1.trans hxM
          · exact hs.mxl
        · split
          · rename_i hlt; exact hm.trans hlt.le
          · exact hm
      · -- nothing
        rw [if_neg hv]
        have hbD : b.1 ∉ D := by
          intro hd'
          have hbW : b.1 ∉ W := fun hw => by
            have := hs.nodup
            rw [List.nodup_append] at this
            exact this.2.2 b.1 hd' b.1 (by simp [hw]) rfl
          obtain ⟨ℓ, _, k2, _, k4, _⟩ := h.dist b.1 (.inl hd')
          rw [if_neg hbW, k2] at hbv
          apply hv
          rw [hbv]
          exact ⟨by linarith, by linarith⟩
        have hold : ∀ b' ∈ P ++ [b], b'.1 ∈ D → b' ∈ P := by
          intro b' hb' hd'
          rcases List.mem_append.mp hb' with hb' | hb'
          · exact hb'
          · rw [List.mem_singleton] at hb'
            subst hb'
            exact absurd hd' hbD
        have hfound : ∀ b' ∈ P ++ [b], b'.1 ∈ D → d ≠ none := fun b' hb' hd' => hs.found b' (hold b' hb' hd') hd'
        have hpar : ∀ b' ∈ P ++ [b], b'.1 ∈ D → lev b'.1 + 1 = lev cur → ∀ e, d = some e → e ≤ 1 + R * lev cur := fun b' hb' hd' =>
          hs.par b' (hold b' hb' hd') hd'
        cases d with
        | none => exact ⟨W, ⟨hs.fq, hs.nodup, hs.sub, hs.other, hs.self, by simp, hfound, hs.bound, hs.far, hclosed, hpar, hs.mxl⟩, hm⟩
        | some e0 =>
          have k3 := (hs.fSome e0 rfl).2.2.1
          have hmx : ¬ st.mx < e0 := not_lt.mpr k3
          simp only [gmPut, hmx, if_false]
          refine ⟨W, ⟨hs.fq, hs.nodup, hs.sub, ?_, by simp, hs.fSome, hfound, hs.bound, hs.far, hclosed, hpar, hs.mxl⟩, hm⟩
          intro j hj
          simp only
          rw [Function.update_of_ne hj]
          exact hs.other j hj
  · rw [if_neg hl]
    refine ⟨W, ⟨hs.fq, hs.nodup, hs.sub, hs.other, hs.self, hs.fSome, ?_, hs.bound, hs.far, ?_, ?_, hs.mxl⟩, hm⟩
    · intro b' hb' hd
      rcases List.mem_append.mp hb' with hb' | hb'
      · exact hs.found b' hb' hd
      · rw [List.mem_singleton] at hb'
        subst hb'
        exact absurd (hlab cur hcT b' hb (h.sub _ (List.mem_append_left _ hd))) hl
    · intro b' hb' hT'
      rcases List.mem_append.mp hb' with hb' | hb'
      · exact hs.closed b' hb' hT'
      · rw [List.mem_singleton] at hb'
        subst hb'
        exact absurd (hlab cur hcT b' hb hT') hl
    · intro b' hb' hd
      rcases List.mem_append.mp hb' with hb' | hb'
      · exact hs.par b' hb' hd
      · rw [List.mem_singleton] at hb'
        subst hb'
        exact absurd (hlab cur hcT b' hb (h.sub _ (List.mem_append_left _ hd))) hl

include hC hT hlab hout hroot hR hlev in
theorem ScInv.steps {D q : List Nat} {cur : Nat} {dmS : Nat → ℚ} {mxS : ℚ} {tortS : Option Nat}
    (h : GmInv root C T s dm0 R lev M D (cur :: q) dmS mxS tortS) : ∀ (L P : List (Nat × ℚ)) (W : List Nat) (st : GmSt) (d : Option ℚ),
    (∀ b ∈ L, b ∈ C.nbs cur) → ScInv root C T s R lev M D cur q dmS P W st d → mxS ≤ st.mx →
    ∃ W', ScInv root C T s R lev M D cur q dmS (P ++ L) W' (L.foldl (gmScan root C cur) (st, d)).1 (L.foldl (gmScan root C cur) (st, d)).2 ∧
      mxS ≤ (L.foldl (gmScan root C cur) (st, d)).1.mx
  | [], P, W, st, d, _, hs, hm => ⟨W, by simpa using hs, hm⟩
  | b :: L, P, W, st, d, hL, hs, hm => by
    obtain ⟨W1, h1, h2⟩ := ScInv.step hC hT hlab hout hroot hR hlev h hs hm (hL b (by simp))
    obtain ⟨W2, h3, h4⟩ := ScInv.steps h L (P ++ [b]) W1 _ _ (fun b hb => hL b (by simp [hb])) h1 h2
    rw [List.append_assoc, List.singleton_append] at h3
    exact ⟨W2, h3, h4⟩

include hC hT hlab hout hroot hR hlev in
/-- A pixel leaves the queue. -/
theorem GmInv.pop {D q : List Nat} {cur : Nat} {st : GmSt} (h : GmInv root C T s dm0 R lev M D (cur :: q) st.dm st.mx st.tort) :
    let r := ((C.nbs cur).foldl (gmScan root C cur) ({ st with q := q }, none)).1
    GmInv root C T s dm0 R lev M (D ++ [cur]) r.q r.dm r.mx r.tort := by
  have hcT : T cur := h.sub cur (by simp)
  have h0 : ScInv root C T s R lev M D cur q st.dm [] [] { st with q := q } none := by
    refine ⟨by simp, by simpa using h.nodup, by simp, by simp, rfl, by simp, by simp, ?_, h.far, by simp, by simp, h.mxl⟩
    have := h.bound
    simp only
    linarith
  obtain ⟨W, hs, hm⟩ := ScInv.steps hC hT hlab hout hroot hR hlev h (C.nbs cur) [] [] _ none (fun _ h => h) h0 (le_refl _)
  rw [List.nil_append] at hs
  obtain ⟨⟨r, d⟩, hr⟩ : ∃ r, r = (C.nbs cur).foldl (gmScan root C cur) ({ st with q := q }, none) := ⟨_, rfl⟩
  rw [← hr] at hs hm ⊢
  simp only at hs hm ⊢
  have e : (D ++ [cur]) ++ r.q = D ++ cur :: (q ++ W) := by rw [hs.fq]; simp
  have e' : D ++ cur :: (q ++ W) = (D ++ cur :: q) ++ W := by simp
  have hcD : cur ∉ D := fun hd => by
    have := h.nodup
    rw [List.nodup_append] at this
    exact this.2.2 cur hd cur (by simp) rfl
  have hDW : ∀ j ∈ D ++ cur :: q, j ∉ W := fun j hj hw => by
    have := hs.nodup
    rw [e', List.nodup_append] at this
    exact this.2.2 j hj j hw rfl
  have hcq : cur ∉ q ++ W := by
    have := hs.nodup
    rw [List.nodup_append] at this
    exact (List.nodup_cons.mp this.2.1).1
  -- the pixels of a lower level have left the queue, those of the same level have entered it
  have hs0 : lev cur = 0 → s ∈ D ∨ cur = s := fun _ => by
    rcases h.seed with ⟨_, k2⟩ | k1
    · exact .inr (List.cons.inj k2).1
    · exact .inl k1
  have hqs : ∀ c ∈ cur :: q, lev cur ≤ lev c := by
    intro c hc
    rcases List.mem_cons.mp hc with rfl | hc
    · exact le_refl _
    · exact (List.pairwise_cons.mp (List.pairwise_append.mp h.sorted).2.1).1 c hc
  have hlow : ∀ n c, T c → lev c = n → n < lev cur → c ∈ D := by
    intro n
    induction n with
    | zero =>
      intro c hc h0 hlt
      by_cases hcs : c = s
      · subst hcs
        rcases h.seed with ⟨_, k2⟩ | k1
        · rw [(List.cons.inj k2).1] at hlt
          omega
        · exact k1
      · obtain ⟨b, _, _, k3⟩ := hlev.down c hc hcs
        omega
    | succ n ih =>
      intro c hc h0 hlt
      have hcs : c ≠ s := fun e => by rw [e, hlev.seed] at h0; omega
      obtain ⟨b, k1, k2, k3⟩ := hlev.down c hc hcs
      have hbD := ih b.1 k2 (by omega) (by omega)
      have := h.closed b.1 hbD (c, b.2) (hC.symm c (hT c hc) b k1) hc
      rcases List.mem_append.mp this with hd | hd
      · exact hd
      · have := hqs c hd
        omega
  have hsame : ∀ c, T c → lev c ≤ lev cur → c ∈ D ++ cur :: q := by
    intro c hc hle
    by_cases hcs : c = s
    · subst hcs
      rcases h.seed with ⟨_, k2⟩ | k1
      · rw [k2]; simp
      · simp [k1]
    · obtain ⟨b, k1, k2, k3⟩ := hlev.down c hc hcs
      exact h.closed b.1 (hlow _ b.1 k2 rfl (by omega)) (c, b.2) (hC.symm c (hT c hc) b k1) hc
  have hWl : ∀ j ∈ W, lev j = lev cur + 1 := by
    intro j hj
    obtain ⟨k1, w, k2⟩ := hs.sub j hj
    have h1 := hlev.up cur j w hcT k1 (hC.symm j (hT j k1) _ k2)
    have h2 : ¬ lev j ≤ lev cur := fun hle => hDW j (hsame j k1 hle) hj
    omega
  have hDl : ∀ x ∈ D ++ cur :: q, lev x ≤ lev cur + 1 := by
    intro x hx
    rcases List.mem_append.mp hx with hx | hx
    · have := (List.pairwise_append.mp h.sorted).2.2 x hx cur (by simp)
      omega
    · exact h.spread cur (by simp) x hx
  refine ⟨e ▸ hs.nodup, ?_, .inr ?_, ?_, ?_, ?_, ?_, ?_, hs.far, ?_, ?_, ?_, ?_, hs.mxl⟩
  · intro j hj
    rw [e, e'] at hj
    rcases List.mem_append.mp hj with hj | hj
    · exact h.sub j hj
    · exact (hs.sub j hj).1
  · rcases h.seed with ⟨k1, k2⟩ | k1
    · rw [(List.cons.inj k2).1]; simp
    · simp [k1]
  · intro j hj
    have hjc : j ≠ cur := fun e => hj (e ▸ hcT)
    rw [hs.other j hjc, if_neg fun hw => hj (hs.sub j hw).1]
    exact h.out j hj
  · intro j hj hn
    rw [e, e', List.mem_append, not_or] at hn
    have hjc : j ≠ cur := fun e => hn.1 (by simp [e])
    rw [hs.other j hjc, if_neg hn.2]
    exact h.fresh j hj hn.1
  · intro j hj hjs
    rw [hs.fq] at hj
    have hjc : j ≠ cur := fun e => hcq (e ▸ hj)
    rw [hs.other j hjc]
    by_cases hw : j ∈ W
    · rw [if_pos hw]
      obtain ⟨w, hw'⟩ := (hs.sub j hw).2
      exact ⟨rfl, _, hw', by simp⟩
    · rw [if_neg hw]
      have hjq : j ∈ q := (List.mem_append.mp hj).resolve_right hw
      obtain ⟨k1, b, k2, k3⟩ := h.queued j (by simp [hjq]) hjs
      exact ⟨k1, b, k2, by simp [k3]⟩
  · intro j hj
    by_cases hjc : j = cur
    · subst hjc
      rw [hs.self]
      cases d with
      | none =>
        have hjs : j = s := by
          by_contra hjs
          obtain ⟨_, b, k2, k3⟩ := h.queued j (by simp) hjs
          exact hs.found b k2 k3 rfl
        obtain ⟨ℓ, k1, k2, k3, k4, k5⟩ := h.dist j (.inr hjs)
        exact ⟨ℓ, k1, k2, k3.trans hm, k4, k5⟩
      | some x =>
        obtain ⟨_, k1, k2, k3, _⟩ := hs.fSome x rfl
        exact ⟨x - 1, k1, by simp, by simpa using k2, by linarith, fun _ => by linarith⟩
    · have hjD : j ∈ D ∨ j = s := by
        rcases hj with hj | hj
        · rcases List.mem_append.mp hj with hj | hj
          · exact .inl hj
          · exact absurd (by simpa using hj) hjc
        · exact .inr hj
      have hjW : j ∉ W := by
        rcases hjD with hd | hd
        · exact hDW j (by simp [hd])
        · refine hDW j ?_
          rcases h.seed with ⟨_, k2⟩ | k1
          · rw [k2, hd]; simp
          · rw [hd]; simp [k1]
      obtain ⟨ℓ, k1, k2, k3, k4, k5⟩ := h.dist j hjD
      rw [hs.other j hjc, if_neg hjW]
      exact ⟨ℓ, k1, k2, k3.trans hm, k4, k5⟩
  · have := hs.bound
    simpa using this
  · intro j hj b hb hbT
    rw [e]
    rcases List.mem_append.mp hj with hj | hj
    · rw [e']
      exact List.mem_append_left _ (h.closed j hj b hb hbT)
    · rw [List.mem_singleton] at hj
      subst hj
      exact hs.closed b hb hbT
  · rw [e, e', List.pairwise_append]
    refine ⟨h.sorted, List.pairwise_of_forall_mem_list fun a ha b hb => by rw [hWl a ha, hWl b hb], fun a ha b hb => ?_⟩
    rw [hWl b hb]
    exact hDl a ha
  · intro a ha b hb
    rw [hs.fq] at ha hb
    have h1 : lev cur ≤ lev a := by
      rcases List.mem_append.mp ha with ha | ha
      · exact hqs a (by simp [ha])
      · rw [hWl a ha]; omega
    have h2 : lev b ≤ lev cur + 1 := by
      rcases List.mem_append.mp hb with hb | hb
      · exact hDl b (by simp [hb])
      · rw [hWl b hb]
    omega
  · intro j hj
    by_cases hjc : j = cur
    · subst hjc
      rw [hs.self]
      cases d with
      | none =>
        have hjs : j = s := by
          by_contra hjs
          obtain ⟨_, b, k2, k3⟩ := h.queued j (by simp) hjs
          exact hs.found b k2 k3 rfl
        exact h.level j (.inr hjs)
      | some x =>
        obtain ⟨hjs, _⟩ := hs.fSome x rfl
        obtain ⟨b, k1, k2, k3⟩ := hlev.down j hcT hjs
        exact hs.par b k1 (hlow _ b.1 k2 rfl (by omega)) k3 x rfl
    · have hjD : j ∈ D ∨ j = s := by
        rcases hj with hj | hj
        · rcases List.mem_append.mp hj with hj | hj
          · exact .inl hj
          · exact absurd (by simpa using hj) hjc
        · exact .inr hj
      have hjW : j ∉ W := by
        rcases hjD with hd | hd
        · exact hDW j (by simp [hd])
        · refine hDW j ?_
          rcases h.seed with ⟨_, k2⟩ | k1
          · rw [k2, hd]; simp
          · rw [hd]; simp [k1]
      rw [hs.other j hjc, if_neg hjW]
      exact h.level j hjD

/-- What the second loop leaves. -/
structure GmDone (root : ℚ → ℚ) (C : GmCfg) (T : Nat → Prop) (s : Nat) (dm0 : Nat → ℚ) (R : ℚ) (N : Nat) (st : GmSt) : Prop where
  out : ∀ j, ¬ T j → st.dm j = dm0 j
  dist : ∀ j, T j → ∃ ℓ, OWalk root C T s j ℓ ∧ st.dm j = 1 + ℓ ∧ 1 + ℓ ≤ st.mx ∧ (j ≠ s → 0 < ℓ)
  bound : st.mx ≤ 1 + R * N
  far : TortOk root C T s st.mx st.tort
  hop : ∃ h : Nat, (∀ j, T j → ∃ n ≤ h, NWalk C T s n j) ∧ (∃ j, T j ∧ ∀ n, NWalk C T s n j → h ≤ n) ∧ st.mx ≤ 1 + R * (h + 1)

variable (hconn : ∀ j, T j → ReflTransGen (fun a b => T a ∧ T b ∧ ∃ w, (b, w) ∈ C.nbs a) s j)

include hC hT hlab hout hroot hR hlev hconn in
theorem gmLoop_inv : ∀ (fuel : Nat) (D : List Nat) (st : GmSt), GmInv root C T s dm0 R lev M D st.q st.dm st.mx st.tort →
    C.n + 1 ≤ fuel + D.length → ((∀ j, T j → ∃ n ≤ M, NWalk C T s n j) ∧ ∃ j, T j ∧ ∀ n, NWalk C T s n j → M ≤ n) →
    ∃ r, gmLoop root C fuel st = some r ∧ GmDone root C T s dm0 R C.n r := by
  intro fuel
  induction fuel with
  | zero =>
    intro D st h hf _
    have := nodup_lt_length h.nodup fun j hj => hT j (h.sub j hj)
    rw [List.length_append] at this
    omega
  | succ fuel ih =>
    intro D st h hf hM
    unfold gmLoop
    cases hq : st.q with
    | nil =>
      rw [hq] at h
      have hall : ∀ j, T j → j ∈ D := by
        intro j hj
        have hsD : s ∈ D := by
          rcases h.seed with ⟨_, k2⟩ | k1
          · simp at k2
          · exact k1
        have := hconn j hj
        induction this with
        | refl => exact hsD
        | tail _ hbc ihj =>
          obtain ⟨k1, k2, w, k3⟩ := hbc
          have := h.closed _ (ihj k1) _ k3 k2
          simpa using this
      refine ⟨st, rfl, h.out, fun j hj => ?_, ?_, h.far, M, hM.1, hM.2, h.mxl⟩
      · obtain ⟨ℓ, k1, k2, k3, _, k5⟩ := h.dist j (.inl (hall j hj))
        exact ⟨ℓ, k1, k2, k2 ▸ k3, k5⟩
      · have hlen := nodup_lt_length h.nodup fun j hj => hT j (h.sub j hj)
        rw [List.append_nil] at hlen
        have : (D.length : ℚ) ≤ C.n := by exact_mod_cast hlen
        have := mul_le_mul_of_nonneg_left this hR
        have := h.bound
        linarith
    | cons cur q =>
      rw [hq] at h
      simp only
      exact ih (D ++ [cur]) _ (GmInv.pop hC hT hlab hout hroot hR hlev h) (by simp; omega) hM


/-- The least numbers of steps are levels. -/
theorem exists_lev (hC : GmOk C) (hT : ∀ j, T j → j < C.n) (hs : T s)
    (hconn : ∀ j, T j → ReflTransGen (fun a b => T a ∧ T b ∧ ∃ w, (b, w) ∈ C.nbs a) s j) :
    ∃ lev M, LevOk C T s lev M ∧ (∀ j, T j → ∃ n ≤ M, NWalk C T s n j) ∧ ∃ j, T j ∧ ∀ n, NWalk C T s n j → M ≤ n := by
  classical
  have hex : ∀ j, T j → ∃ n, NWalk C T s n j := by
    intro j hj
    have := hconn j hj
    induction this with
    | refl => exact ⟨0, .refl hs⟩
    | tail _ h2 ih =>
      obtain ⟨k1, k2, w, k3⟩ := h2
      obtain ⟨n, hn⟩ := ih k1
      exact ⟨n + 1, .step hn k2 (hC.symm _ (hT _ k1) _ k3)⟩
  let lev : Nat → Nat := fun j => sInf {n | NWalk C T s n j}
  have hmem : ∀ j, T j → NWalk C T s (lev j) j := fun j hj => Nat.sInf_mem (hex j hj)
  have hle : ∀ j n, NWalk C T s n j → lev j ≤ n := fun j n h => Nat.sInf_le h
  obtain ⟨jm, hjm, hmax⟩ := Finset.exists_max_image ((Finset.range C.n).filter T) lev ⟨s, by simp [hT s hs, hs]⟩
  have hjT : T jm := (Finset.mem_filter.mp hjm).2
  have htop : ∀ j, T j → lev j ≤ lev jm := fun j hj => hmax j (by simp [hT j hj, hj])
  refine ⟨lev, lev jm, ⟨Nat.le_zero.mp (hle s 0 (.refl hs)), ?_, ?_, htop⟩, fun j hj => ⟨lev j, htop j hj, hmem j hj⟩, jm, hjT, fun n hn => hle jm n hn⟩
  · intro a b w ha hb hw
    exact hle b _ (.step (hmem a ha) hb (hC.symm a (hT a ha) _ hw))
  · intro j hj hjs
    have hw := hmem j hj
    generalize hn : lev j = n at hw
    cases hw with
    | refl => exact absurd rfl hjs
    | @step n' b _ w h1 _ h3 =>
      have hbT : T b := by
        cases h1 with
        | refl h => exact h
        | step _ h _ => exact h
      refine ⟨(b, w), h3, hbT, ?_⟩
      have k1 := hle b n' h1
      have k2 := hle j (lev b + 1) (.step (hmem b hbT) hj h3)
      simp only
      omega

include hC hT hlab hout hroot hR hconn in
theorem gmLoop_spec (hs : T s) (h0 : ∀ j, T j → dm0 j = -2) :
    ∃ r, gmLoop root C (C.n + 1) ⟨Function.update dm0 s 1, [s], 1, none⟩ = some r ∧ GmDone root C T s dm0 R C.n r := by
  have hw : OWalk root C T s s 0 := .refl hs
  obtain ⟨lev, M, hlev, hM⟩ := exists_lev hC hT hs hconn
  refine gmLoop_inv hC hT hlab hout hroot hR hlev hconn (C.n + 1) [] _ ⟨by simp, by simpa using hs, .inl ⟨rfl, rfl⟩, ?_, ?_, by simp, ?_, by simp,
    ⟨le_refl _, ⟨s, by simpa using hw⟩, fun _ => rfl, by simp⟩, by simp, by simp, by simp, ?_, ?_⟩ (by simp) hM
  · intro j hj
    exact Function.update_of_ne (a := j) (fun e => hj (by rw [e]; exact hs)) _ _
  · intro j hj hn
    simp only
    rw [Function.update_of_ne (fun e => hn (by simp [e]))]
    exact h0 j hj
  · intro j hj
    have : j = s := by simpa using hj
    subst this
    exact ⟨0, hw, by simp, by simp, le_refl _, fun h => absurd rfl h⟩
  · intro j hj
    have : j = s := by simpa using hj
    subst this
    simp [hlev.seed]
  · have : (0 : ℚ) ≤ R * (M + 1) := mul_nonneg hR (by positivity)
    simp only
    linarith

end
end Smil
