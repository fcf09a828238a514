import Mathlib.Data.List.Basic
import Mathlib.Data.List.Count

/-!
# Splitting of strings

Core/src/DString.cpp. A string is the list of its characters, and the delimiters are those of the C string before its final zero. Sizes are `size_t`: they wrap modulo 2^64.
-/

namespace Smil

/-- `string::npos`. -/
def npos : Nat := 2 ^ 64 - 1

/-- `s.find_first_of(delimiters, pos)`, as called in DString.cpp:45. -/
def findFirstOf (d s : List Char) (pos : Nat) : Nat :=
  if h : pos < s.length then if s[pos] ∈ d then pos else findFirstOf d s (pos + 1) else npos
termination_by s.length - pos

/-- `s.substr(pos, n)`, as called in DString.cpp:46. `none`: `pos > size()`, an exception. -/
def substr? (s : List Char) (pos n : Nat) : Option (List Char) :=
  if s.length < pos then none else some ((s.drop pos).take n)

/-- The loop of `splitString`, DString.cpp:42-48, entered with `next`. `none`: an exception, or more turns than the fuel. -/
def splitLoop (d s : List Char) : Nat → Nat → Option (List (List Char))
  | 0, _ => none
  | fuel + 1, next =>
    let current := (next + 1) % 2 ^ 64
    let next' := findFirstOf d s current
    (substr? s current ((next' + 2 ^ 64 - current) % 2 ^ 64)).bind fun p =>
      if next' ≠ npos then (splitLoop d s fuel next').map (p :: ·) else some [p]

/-- `splitString`, DString.cpp:37-51. `next` is initialised with `-1`. -/
def splitString (s d : List Char) : Option (List (List Char)) := splitLoop d s (s.length + 1) npos

/-- `splitLines`, DString.cpp:53-56. -/
def splitLines (s : List Char) : Option (List (List Char)) := splitString s ['\n']

/-! ### Lemmas -/

theorem findFirstOf_cases (d s : List Char) (pos : Nat) (hp : pos ≤ s.length) :
    (findFirstOf d s pos = npos ∧ ∀ c ∈ s.drop pos, c ∉ d) ∨
    ∃ p c r, s.drop pos = p ++ c :: r ∧ findFirstOf d s pos = pos + p.length ∧ c ∈ d ∧ ∀ c ∈ p, c ∉ d := by
  obtain ⟨m, hm⟩ : ∃ m, m = s.length - pos := ⟨_, rfl⟩
  induction m generalizing pos with
  | zero =>
    have : ¬ pos < s.length := by omega
    rw [findFirstOf, dif_neg this, List.drop_of_length_le (by omega)]
    exact .inl ⟨rfl, fun c hc => absurd hc List.not_mem_nil⟩
  | succ m ih =>
    have hlt : pos < s.length := by omega
    rw [findFirstOf, dif_pos hlt, List.drop_eq_getElem_cons hlt]
    by_cases hd : s[pos] ∈ d
    · rw [if_pos hd]
      exact .inr ⟨[], s[pos], s.drop (pos + 1), rfl, rfl, hd, fun c hc => absurd hc List.not_mem_nil⟩
    · rw [if_neg hd]
      rcases ih (pos + 1) (by omega) (by omega) with ⟨h1, h2⟩ | ⟨p, c, r, h1, h2, h3, h4⟩
      · refine .inl ⟨h1, fun c hc => ?_⟩
        rw [List.mem_cons] at hc
        rcases hc with rfl | hc
        · exact hd
        · exact h2 c hc
      · refine .inr ⟨s[pos] :: p, c, r, by rw [h1, List.cons_append], by rw [h2, List.length_cons]; omega, h3, fun c hc => ?_⟩
        rw [List.mem_cons] at hc
        rcases hc with rfl | hc
        · exact hd
        · exact h4 c hc

end Smil
