import Verif.FastLineLemmas
import Mathlib.Data.List.Nodup

/-! # A family of disjoint lines treated one after the other -/

namespace Smil
variable {α : Type} [LinearOrder α]

theorem WinMax.congr {f g : Nat → α} {n m x : Nat} {v : α} (h : WinMax f n m x v) (e : ∀ j < n, f j = g j) :
    WinMax g n m x v := by
  obtain ⟨⟨j, h1, h2, h3, h4⟩, h5⟩ := h
  exact ⟨⟨j, h1, h2, h3, by rw [← e j h1]; exact h4⟩, fun i hi h6 h7 => by rw [← e i hi]; exact h5 i hi h6 h7⟩

/-- The writes of a line. -/
theorem writes_spec (l : List Int) (hp : ∀ o ∈ l, 0 ≤ o) (hn : l.Nodup) (r out : Nat → α) (m : Nat) (hm : m ≤ l.length) :
    let res := (List.range m).foldl (fun out x => Function.update out (l.getD x 0).toNat (r x)) out
    (∀ x < m, res (l.getD x 0).toNat = r x) ∧ ∀ o : Nat, (o : Int) ∉ l → res o = out o := by
  induction m with
  | zero => exact ⟨fun x hx => absurd hx (by omega), fun o _ => rfl⟩
  | succ m ih =>
    obtain ⟨ih1, ih2⟩ := ih (by omega)
    rw [List.range_succ, List.foldl_append]
    simp only [List.foldl_cons, List.foldl_nil]
    generalize (List.range m).foldl _ out = res at *
    have hg : ∀ x (h : x < l.length), l.getD x 0 = l[x] := fun x h => by simp [h]
    refine ⟨fun x hx => ?_, fun o ho => ?_⟩
    · by_cases hxm : x = m
      · rw [hxm, Function.update_self]
      · have hne : (l.getD x 0).toNat ≠ (l.getD m 0).toNat := by
          rw [hg x (by omega), hg m (by omega)]
          intro e
          have h1 := hp l[x] (List.getElem_mem _)
          have h2 := hp l[m] (List.getElem_mem _)
          have : l[x] = l[m] := by omega
          exact hxm ((List.Nodup.getElem_inj_iff hn).1 this)
        rw [Function.update_of_ne hne]
        exact ih1 x (by omega)
    · have hne : o ≠ (l.getD m 0).toNat := by
        rw [hg m (by omega)]
        intro e
        apply ho
        have h2 := hp l[m] (List.getElem_mem _)
        have : (o : Int) = l[m] := by omega
        rw [this]
        exact List.getElem_mem _
      rw [Function.update_of_ne hne]
      exact ih2 o ho

theorem runLines_spec (proc : (Nat → α) → Nat → VH α → Option (Nat → α)) (N cells m : Nat) (raw : Nat → VH α)
    (same : Bool) (f : Nat → α) (ls : List (List Int)) (hr : ∀ l ∈ ls, l.length ≤ cells ∧ ∀ o ∈ l, 0 ≤ o ∧ o < N)
    (hp : ∀ l ∈ ls, ∀ g w, ∃ r, proc g l.length w = some r ∧ ∀ x < l.length, WinMax g l.length m x (r x))
    (hn : ∀ l ∈ ls, l.Nodup) (hd : ls.Pairwise List.Disjoint) :
    ∀ out : Nat → α, (same = true → ∀ l ∈ ls, ∀ o ∈ l, out o.toNat = f o.toNat) →
    ∃ out', runLines proc N cells raw same f ls out = some out' ∧
      (∀ l ∈ ls, ∀ x < l.length, WinMax (fun j => f (l.getD j 0).toNat) l.length m x (out' (l.getD x 0).toNat)) ∧
      ∀ o : Nat, (∀ l ∈ ls, (o : Int) ∉ l) → out' o = out o := by
  induction ls with
  | nil => exact fun out _ => ⟨out, rfl, fun l hl => absurd hl (by simp), fun _ _ => rfl⟩
  | cons l ls ih =>
    intro out hs
    obtain ⟨hd1, hd2⟩ := List.pairwise_cons.1 hd
    have hl := List.mem_cons_self (a := l) (l := ls)
    have hg : ∀ x (h : x < l.length), l.getD x 0 = l[x] := fun x h => by simp [h]
    obtain ⟨r, e, hw⟩ := hp l hl (fun x => (if same then out else f) (l.getD x 0).toNat) (raw ls.length)
    have hw' : ∀ x < l.length, WinMax (fun j => f (l.getD j 0).toNat) l.length m x (r x) := by
      intro x hx
      refine (hw x hx).congr fun j hj => ?_
      cases hsame : same with
      | false => simp
      | true =>
        simp only [if_true]
        exact hs hsame l hl _ (by rw [hg j hj]; exact List.getElem_mem _)
    unfold runLines lineStep
    rw [if_pos (hr l hl), e]
    obtain ⟨w1, w2⟩ := writes_spec l (fun o ho => ((hr l hl).2 o ho).1) (hn l hl) r out l.length le_rfl
    simp only [Option.map_some, Option.bind_some]
    generalize (List.range l.length).foldl _ out = res at *
    obtain ⟨out', e', h1, h2⟩ := ih (fun l' h' => hr l' (List.mem_cons_of_mem _ h'))
      (fun l' h' => hp l' (List.mem_cons_of_mem _ h')) (fun l' h' => hn l' (List.mem_cons_of_mem _ h')) hd2 res (by
        intro hsame l' hl' o ho
        have ho0 := ((hr l' (List.mem_cons_of_mem _ hl')).2 o ho).1
        rw [w2 o.toNat ?_, hs hsame l' (List.mem_cons_of_mem _ hl') o ho]
        rw [Int.toNat_of_nonneg ho0]
        exact fun h => hd1 l' hl' h ho)
    refine ⟨out', e', fun l' hl' => ?_, fun o ho => ?_⟩
    · rcases List.mem_cons.1 hl' with rfl | hl'
      · intro x hx
        rw [h2 _ ?_, w1 x hx]
        · exact hw' x hx
        · intro l'' hl'' hm
          have hx' := List.getElem_mem hx
          have h0 := ((hr l' hl).2 _ hx').1
          rw [hg x hx, Int.toNat_of_nonneg h0] at hm
          exact hd1 l'' hl'' hx' hm
      · exact h1 l' hl'
    · rw [h2 o fun l' hl' => ho l' (List.mem_cons_of_mem _ hl'), w2 o (ho l hl)]

/-- Lines `i < K` with the minor coordinate `β i a` at the major coordinate `a`; line `i` runs over the major coordinates
`a0 i ≤ a < a0 i + n i`, which are those where it is in the image. -/
structure IsFam (A B sa sb : Nat) (ls : List (List Int)) (K : Nat) (β : Nat → Nat → Int) (a0 n : Nat → Nat) : Prop where
  lines : ls = (List.range K).map fun i => (List.range (n i)).map fun j =>
    ((a0 i + j : Nat) : Int) * sa + β i (a0 i + j) * sb
  dom : ∀ i < K, ∀ a, (a0 i ≤ a ∧ a < a0 i + n i) ↔ (a < A ∧ 0 ≤ β i a ∧ β i a < B)
  inj : ∀ i < K, ∀ i' < K, ∀ a, β i a = β i' a → i = i'
  pos : ∀ i < K, 0 < n i

/-- The offset of the pixel with major coordinate `a` and minor coordinate `b`. -/
structure OffOk (A B sa sb N : Nat) : Prop where
  lt : ∀ a < A, ∀ b < B, a * sa + b * sb < N
  inj : ∀ a < A, ∀ b < B, ∀ a' < A, ∀ b' < B, a * sa + b * sb = a' * sa + b' * sb → a = a' ∧ b = b'

theorem fam_run (A B sa sb N cells m : Nat) (proc : (Nat → α) → Nat → VH α → Option (Nat → α)) (raw : Nat → VH α)
    (same : Bool) (f out : Nat → α) (ls : List (List Int)) (K : Nat) (β : Nat → Nat → Int) (a0 n : Nat → Nat)
    (hf : IsFam A B sa sb ls K β a0 n) (ho : OffOk A B sa sb N) (hc : A ≤ cells)
    (hp : ∀ i < K, ∀ g w, ∃ r, proc g (n i) w = some r ∧ ∀ x < n i, WinMax g (n i) m x (r x))
    (hs : same = true → ∀ i < N, out i = f i) :
    ∃ out', runLines proc N cells raw same f ls out = some out' ∧
      (∀ i < K, ∀ a < A, ∀ b < B, β i a = b →
        (∃ a' < A, ∃ b' < B, β i a' = b' ∧ a' ≤ a + m ∧ a ≤ a' + m ∧ f (a' * sa + b' * sb) = out' (a * sa + b * sb)) ∧
        ∀ a' < A, ∀ b' < B, β i a' = b' → a' ≤ a + m → a ≤ a' + m → f (a' * sa + b' * sb) ≤ out' (a * sa + b * sb)) ∧
      ∀ a < A, ∀ b < B, (∀ i < K, β i a ≠ b) → out' (a * sa + b * sb) = out (a * sa + b * sb) := by
  -- the elements of the lines
  have hel : ∀ i < K, ∀ j < n i, a0 i + j < A ∧ ∃ b < B, β i (a0 i + j) = (b : Nat) := by
    intro i hi j hj
    obtain ⟨h1, h2, h3⟩ := (hf.dom i hi (a0 i + j)).1 ⟨by omega, by omega⟩
    exact ⟨h1, (β i (a0 i + j)).toNat, by omega, by omega⟩
  have hval : ∀ (a b : Nat), ((a : Int) * sa + (b : Int) * sb) = ((a * sa + b * sb : Nat) : Int) := by
    intro a b; push_cast; rfl
  obtain ⟨out', e, h1, h2⟩ := runLines_spec proc N cells m raw same f ls (by
      intro l hl
      rw [hf.lines] at hl
      obtain ⟨i, hi, rfl⟩ := List.mem_map.1 hl
      rw [List.mem_range] at hi
      have hle : n i ≤ A := by
        have h0 := hf.pos i hi
        have := (hel i hi (n i - 1) (by omega)).1
        omega
      refine ⟨by rw [List.length_map, List.length_range]; omega, fun o hoo => ?_⟩
      obtain ⟨j, hj, rfl⟩ := List.mem_map.1 hoo
      rw [List.mem_range] at hj
      obtain ⟨g1, b, g2, g3⟩ := hel i hi j hj
      rw [g3, hval]
      have := ho.lt _ g1 b g2
      omega) (by
      intro l hl g w
      rw [hf.lines] at hl
      obtain ⟨i, hi, rfl⟩ := List.mem_map.1 hl
      rw [List.mem_range] at hi
      rw [List.length_map, List.length_range]
      exact hp i hi g w) (by
      intro l hl
      rw [hf.lines] at hl
      obtain ⟨i, hi, rfl⟩ := List.mem_map.1 hl
      rw [List.mem_range] at hi
      refine List.Nodup.map_on (fun j hj j' hj' e => ?_) List.nodup_range
      rw [List.mem_range] at hj hj'
      obtain ⟨g1, b, g2, g3⟩ := hel i hi j hj
      obtain ⟨g1', b', g2', g3'⟩ := hel i hi j' hj'
      rw [g3, g3', hval, hval] at e
      have := (ho.inj _ g1 _ g2 _ g1' _ g2' (by exact_mod_cast e)).1
      omega) (by
      rw [hf.lines]
      rw [List.pairwise_map]
      refine List.Pairwise.imp_of_mem ?_ (List.nodup_range (n := K))
      intro i i' hi hi' hne x hx hx'
      rw [List.mem_range] at hi hi'
      obtain ⟨j, hj, rfl⟩ := List.mem_map.1 hx
      obtain ⟨j', hj', e⟩ := List.mem_map.1 hx'
      rw [List.mem_range] at hj hj'
      obtain ⟨g1, b, g2, g3⟩ := hel i hi j hj
      obtain ⟨g1', b', g2', g3'⟩ := hel i' hi' j' hj'
      rw [g3, g3', hval, hval] at e
      obtain ⟨e1, e2⟩ := ho.inj _ g1' _ g2' _ g1 _ g2 (by exact_mod_cast e)
      apply hne
      apply hf.inj i hi i' hi' (a0 i + j)
      rw [g3, ← e1, g3', e2]) out (by
      intro hsame l hl o hoo
      rw [hf.lines] at hl
      obtain ⟨i, hi, rfl⟩ := List.mem_map.1 hl
      rw [List.mem_range] at hi
      obtain ⟨j, hj, rfl⟩ := List.mem_map.1 hoo
      rw [List.mem_range] at hj
      obtain ⟨g1, b, g2, g3⟩ := hel i hi j hj
      rw [g3, hval, Int.toNat_natCast]
      exact hs hsame _ (ho.lt _ g1 b g2))
  refine ⟨out', e, ?_, ?_⟩
  · intro i hi a ha b hb hab
    have hmem : ((List.range (n i)).map fun j => ((a0 i + j : Nat) : Int) * sa + β i (a0 i + j) * sb) ∈ ls := by
      rw [hf.lines]
      exact List.mem_map.2 ⟨i, List.mem_range.2 hi, rfl⟩
    have hw := h1 _ hmem
    rw [List.length_map, List.length_range] at hw
    obtain ⟨ha1, ha2⟩ := (hf.dom i hi a).2 ⟨ha, by omega, by omega⟩
    have hget : ∀ j < n i, ((List.range (n i)).map fun j => ((a0 i + j : Nat) : Int) * sa + β i (a0 i + j) * sb).getD j 0
        = ((a0 i + j : Nat) : Int) * sa + β i (a0 i + j) * sb := by
      intro j hj
      simp [List.getD_eq_getElem?_getD, hj]
    have hw' := hw (a - a0 i) (by omega)
    rw [hget _ (by omega), show a0 i + (a - a0 i) = a by omega, hab, hval, Int.toNat_natCast] at hw'
    obtain ⟨⟨j, g1, g2, g3, g4⟩, g5⟩ := hw'
    refine ⟨?_, ?_⟩
    · obtain ⟨k1, b', k2, k3⟩ := hel i hi j g1
      dsimp only at g4
      rw [hget j g1, k3, hval, Int.toNat_natCast] at g4
      exact ⟨a0 i + j, k1, b', k2, k3, by omega, by omega, g4⟩
    · intro a' ha' b' hb' hab' h3 h4
      obtain ⟨k1, k2⟩ := (hf.dom i hi a').2 ⟨ha', by omega, by omega⟩
      have := g5 (a' - a0 i) (by omega) (by omega) (by omega)
      dsimp only at this
      rw [hget _ (by omega), show a0 i + (a' - a0 i) = a' by omega, hab', hval, Int.toNat_natCast] at this
      exact this
  · intro a ha b hb hne
    refine h2 _ fun l hl hm => ?_
    rw [hf.lines] at hl
    obtain ⟨i, hi, rfl⟩ := List.mem_map.1 hl
    rw [List.mem_range] at hi
    obtain ⟨j, hj, e⟩ := List.mem_map.1 hm
    rw [List.mem_range] at hj
    obtain ⟨g1, b', g2, g3⟩ := hel i hi j hj
    rw [g3, hval] at e
    obtain ⟨e1, e2⟩ := ho.inj _ g1 _ g2 _ ha _ hb (by exact_mod_cast e)
    apply hne i hi
    rw [← e1, g3, e2]

end Smil
