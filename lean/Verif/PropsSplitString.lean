import Verif.SplitString

/-!
# C114: splitting of strings
-/

namespace Smil

/-! ### Specification -/

/-- `ps` are the parts of `s` between the delimiters: no part has a delimiter, and one delimiter stands between two parts. -/
inductive Splits (d : List Char) : List Char → List (List Char) → Prop
  | last (p) : (∀ c ∈ p, c ∉ d) → Splits d p [p]
  | cons (p c s ps) : (∀ c ∈ p, c ∉ d) → c ∈ d → Splits d s ps → Splits d (p ++ c :: s) (p :: ps)

/-! ### Proofs -/

theorem append_delim_inj {d : List Char} : ∀ {p q : List Char} {c e : Char} {s t : List Char}, (∀ c ∈ p, c ∉ d) → (∀ c ∈ q, c ∉ d) → c ∈ d → e ∈ d →
    p ++ c :: s = q ++ e :: t → p = q ∧ s = t := by
  intro p
  induction p with
  | nil =>
    intro q c e s t _ hq hc _ h
    cases q with
    | nil => exact ⟨rfl, (List.cons.inj h).2⟩
    | cons b q =>
      have := (List.cons.inj h).1
      exact absurd hc (this ▸ hq b List.mem_cons_self)
  | cons a p ih =>
    intro q c e s t hp hq hc he h
    cases q with
    | nil =>
      have := (List.cons.inj h).1
      exact absurd he (this ▸ hp a List.mem_cons_self)
    | cons b q =>
      obtain ⟨h1, h2⟩ := List.cons.inj h
      obtain ⟨k1, k2⟩ := ih (fun c hc => hp c (List.mem_cons_of_mem _ hc)) (fun c hc => hq c (List.mem_cons_of_mem _ hc)) hc he h2
      exact ⟨by rw [h1, k1], k2⟩

theorem Splits.unique {d s : List Char} {ps qs : List (List Char)} (h : Splits d s ps) (h' : Splits d s qs) : ps = qs := by
  induction h generalizing qs with
  | last p hp =>
    generalize hs : p = s at h'
    cases h' with
    | last q hq => rfl
    | cons q c t qs hq hc _ =>
      exact absurd hc (hp c (by rw [hs, List.mem_append]; exact .inr List.mem_cons_self))
  | cons p c s ps hp hc _ ih =>
    generalize hs : p ++ c :: s = u at h'
    cases h' with
    | last q hq =>
      rw [← hs] at hq
      exact absurd hc (hq c (by rw [List.mem_append]; exact .inr List.mem_cons_self))
    | cons q e t qs hq he ht =>
      obtain ⟨h1, h2⟩ := append_delim_inj hp hq hc he hs
      subst h1 h2
      rw [ih ht]

theorem splitLoop_splits (d s : List Char) (hl : s.length < npos) : ∀ (fuel next : Nat), (next + 1) % 2 ^ 64 ≤ s.length → s.length - (next + 1) % 2 ^ 64 < fuel →
    ∃ ps, splitLoop d s fuel next = some ps ∧ Splits d (s.drop ((next + 1) % 2 ^ 64)) ps := by
  have hn : npos = 2 ^ 64 - 1 := rfl
  intro fuel
  induction fuel with
  | zero => intro next _ h; omega
  | succ fuel ih =>
    intro next hc hf
    rw [splitLoop]
    generalize (next + 1) % 2 ^ 64 = cur at hc hf
    unfold substr?
    rw [if_neg (by omega), Option.bind_some]
    rcases findFirstOf_cases d s cur hc with ⟨h1, h2⟩ | ⟨p, c, r, h1, h2, h3, h4⟩
    · have e : (npos + 2 ^ 64 - cur) % 2 ^ 64 = npos - cur := by
        rw [show npos + 2 ^ 64 - cur = npos - cur + 2 ^ 64 by omega, Nat.add_mod_right, Nat.mod_eq_of_lt (by omega)]
      rw [h1, if_neg (fun h => h rfl), e, List.take_of_length_le (by rw [List.length_drop]; omega)]
      exact ⟨_, rfl, .last _ h2⟩
    · have hlen := congrArg List.length h1
      rw [List.length_drop, List.length_append, List.length_cons] at hlen
      have e : (cur + p.length + 2 ^ 64 - cur) % 2 ^ 64 = p.length := by
        rw [show cur + p.length + 2 ^ 64 - cur = p.length + 2 ^ 64 by omega, Nat.add_mod_right, Nat.mod_eq_of_lt (by omega)]
      have e2 : (cur + p.length + 1) % 2 ^ 64 = cur + p.length + 1 := Nat.mod_eq_of_lt (by omega)
      rw [h2, if_pos (by omega), e]
      obtain ⟨ps, k1, k2⟩ := ih (cur + p.length) (by omega) (by omega)
      refine ⟨p :: ps, ?_, ?_⟩
      · rw [k1, h1, List.take_left]
        rfl
      · rw [e2] at k2
        have hr : s.drop (cur + p.length + 1) = r := by
          rw [Nat.add_assoc, ← List.drop_drop, h1, ← List.drop_drop, List.drop_left]
          rfl
        rw [hr] at k2
        rw [h1]
        exact .cons p c r ps h4 h3 k2

/-- **C114.** `splitString` returns exactly the parts of the string between the delimiters, whatever the string and the delimiters; no exception is raised. (A string has fewer than 2^64 - 1 characters.) -/
theorem C114_split (s d : List Char) (hl : s.length < 2 ^ 64 - 1) (ps : List (List Char)) : splitString s d = some ps ↔ Splits d s ps := by
  have h0 : (npos + 1) % 2 ^ 64 = 0 := rfl
  obtain ⟨qs, h1, h2⟩ := splitLoop_splits d s hl (s.length + 1) npos (by omega) (by omega)
  rw [h0, List.drop_zero] at h2
  unfold splitString
  rw [h1]
  constructor
  · intro h
    rw [← Option.some.inj h]
    exact h2
  · intro h
    rw [h.unique h2]

/-- **C114.** There is one part more than delimiters in the string: a string without delimiters is the only part, and delimiters next to each other or at an end give empty parts. -/
theorem C114_number (s d : List Char) (hl : s.length < 2 ^ 64 - 1) : ∃ ps, splitString s d = some ps ∧ ps.length = s.countP (fun c => decide (c ∈ d)) + 1 := by
  have h0 : (npos + 1) % 2 ^ 64 = 0 := rfl
  obtain ⟨qs, h1, h2⟩ := splitLoop_splits d s hl (s.length + 1) npos (by omega) (by omega)
  rw [h0, List.drop_zero] at h2
  refine ⟨qs, h1, ?_⟩
  clear h1 h0 hl
  induction h2 with
  | last p hp =>
    rw [List.countP_eq_zero.mpr (fun c hc => by simpa using hp c hc)]
    rfl
  | cons p c s ps hp hc _ ih =>
    have hz : p.countP (fun c => decide (c ∈ d)) = 0 := List.countP_eq_zero.mpr (fun c hc => by simpa using hp c hc)
    rw [List.length_cons, ih, List.countP_append, hz, List.countP_cons]
    simp [hc]

/-- **C114.** The lines of a text, joined with line ends, are the text, and no line has a line end. -/
theorem C114_lines (s : List Char) (hl : s.length < 2 ^ 64 - 1) : ∃ ps, splitLines s = some ps ∧ List.intercalate ['\n'] ps = s ∧ ∀ p ∈ ps, '\n' ∉ p := by
  have h0 : (npos + 1) % 2 ^ 64 = 0 := rfl
  obtain ⟨qs, h1, h2⟩ := splitLoop_splits ['\n'] s hl (s.length + 1) npos (by omega) (by omega)
  rw [h0, List.drop_zero] at h2
  refine ⟨qs, h1, ?_⟩
  clear h1 h0 hl
  induction h2 with
  | last p hp =>
    refine ⟨by simp [List.intercalate], fun q hq h => ?_⟩
    rw [List.mem_singleton] at hq
    subst hq
    exact hp _ h List.mem_cons_self
  | cons p c s ps hp hc hs ih =>
    obtain ⟨k1, k2⟩ := ih
    rw [List.mem_singleton] at hc
    refine ⟨?_, fun q hq h => ?_⟩
    · cases hs with
      | last q hq =>
        simp [List.intercalate, hc]
      | cons q e t qs _ _ _ =>
        rw [← k1, hc]
        simp [List.intercalate]
    · rw [List.mem_cons] at hq
      rcases hq with rfl | hq
      · exact hp _ h List.mem_cons_self
      · exact k2 q hq h

example : splitString "a,b;;c,".toList ",;".toList = some ["a".toList, "b".toList, [], "c".toList, []] := by decide +kernel

example : splitLines "x\n\ny".toList = some ["x".toList, [], "y".toList] := by decide +kernel

example : splitString [] ",;".toList = some [[]] := by decide +kernel

end Smil
