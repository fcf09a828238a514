import Verif.IOStack
import Verif.PropsIO
import Verif.PropsWindow
import Verif.PropsVtk

/-!
# C109: the format of a file and stacks of files
-/

namespace Smil

/-! ### Vocabulary -/

/-- The point at depth `z` below `p`. -/
def deeper (p : IntPoint) (z : Int) : IntPoint := ⟨p.x, p.y, p.z + z⟩

/-- A name that is not a URL. -/
def PlainName (n : List UInt8) : Prop :=
  ¬ strB "http://" <+: n ∧ ¬ strB "https://" <+: n ∧ ¬ strB "file://" <+: n

instance (n : List UInt8) : Decidable (PlainName n) := by unfold PlainName; infer_instance

/-- Two images that a user cannot tell apart. -/
def SameIm (a b : Img UInt8) : Prop := a.dims = b.dims ∧ ∀ p, a.at? p = b.at? p

/-- The handler of the name writes the images of one slice of `w` by `h` pixels and reads them back. -/
def ReadsBack (F : FsEnv) (w h : Nat) (n : List UInt8) : Prop :=
  ∃ c, handlerFor F n = some c ∧ ∀ s : Img UInt8, s.dims = ⟨w, h, 1⟩ →
    ∃ b, c.write s n = some b ∧ ∀ init, ∃ r, c.read b init = .ok r ∧ SameIm r s

/-! ### Names -/

/-- **C109**, extension: what follows the last dot, letters in upper case. -/
theorem C109_extension (a e : List UInt8) (he : (46 : UInt8) ∉ e) : fileExt (a ++ 46 :: e) = e.map upperB := by
  unfold fileExt
  have h1 : (a ++ 46 :: e).reverse = e.reverse ++ (46 :: a.reverse) := by simp
  have h2 : (a ++ 46 :: e).reverse.idxOf 46 = e.length := by
    rw [h1, List.idxOf_append_of_notMem (by simpa using he), List.idxOf_cons_self]; simp
  rw [h2]
  have h3 : (a ++ 46 :: e).length - e.length = (a ++ [46]).length := by simp; omega
  rw [h3, show a ++ 46 :: e = (a ++ [46]) ++ e by simp, List.drop_left]

/-- **C109**, extension: a name without a dot is its own extension. -/
theorem C109_nodot (e : List UInt8) (he : (46 : UInt8) ∉ e) : fileExt e = e.map upperB := by
  unfold fileExt
  rw [List.idxOf_eq_length (by simpa using he)]
  simp

/-- **C109**: the case of the extension does not matter. -/
theorem C109_case (F : FsEnv) (a a' e e' : List UInt8) (he : (46 : UInt8) ∉ e) (he' : (46 : UInt8) ∉ e')
    (h : e.map upperB = e'.map upperB) : handlerFor F (a ++ 46 :: e) = handlerFor F (a' ++ 46 :: e') := by
  unfold handlerFor
  rw [C109_extension a e he, C109_extension a' e' he', h]

example : fileExt (strB "dir.d/Image.tar.bMp") = strB "BMP" := by decide +kernel

theorem readName_plain (F : FsEnv) (fs : FsSt) (k : Nat) (n : List UInt8) (h : PlainName n) :
    readName F fs k n = match handlerFor F n with
      | none => .err
      | some c => match fs (F.file n) with
        | none => .err
        | some b => c.read b (F.raw k) := by
  obtain ⟨h1, h2, h3⟩ := h
  unfold readName readTurns
  rw [if_neg (by simp only [Bool.or_eq_true, List.isPrefixOf_iff_prefix]; tauto),
    if_neg (by simpa only [List.isPrefixOf_iff_prefix] using h3)]
  rfl

theorem readTurns_more (F : FsEnv) (fs : FsSt) (k : Nat) : ∀ (f g : Nat) (n : List UInt8), n.length < f → f ≤ g →
    readTurns F fs k g n = readTurns F fs k f n := by
  intro f
  induction f with
  | zero => intro g n h; omega
  | succ f ih =>
    intro g n hn hg
    obtain ⟨g, rfl⟩ : ∃ g', g = g' + 1 := ⟨g - 1, by omega⟩
    unfold readTurns
    by_cases h1 : ((strB "http://").isPrefixOf n || (strB "https://").isPrefixOf n) = true
    · rw [if_pos h1, if_pos h1]
    rw [if_neg h1, if_neg h1]
    by_cases h2 : (strB "file://").isPrefixOf n = true
    · rw [if_pos h2, if_pos h2]
      have := (List.isPrefixOf_iff_prefix.1 h2).length_le
      have e7 : (strB "file://").length = 7 := by decide +kernel
      exact ih g _ (by rw [List.length_drop]; omega) (by omega)
    · rw [if_neg h2, if_neg h2]

/-- **C109**: `read` never loops, and `file://` before a name changes nothing when reading. -/
theorem C109_scheme (F : FsEnv) (fs : FsSt) (k : Nat) (n : List UInt8) :
    readName F fs k (strB "file://" ++ n) = readName F fs k n := by
  have e7 : (strB "file://").length = 7 := by decide +kernel
  unfold readName
  rw [show (strB "file://" ++ n).length + 1 = (n.length + 7) + 1 by rw [List.length_append, e7]; omega, readTurns,
    if_neg, if_pos (List.isPrefixOf_iff_prefix.2 (List.prefix_append _ _)), show (7 : Nat) = (strB "file://").length by rw [e7],
    List.drop_left, e7]
  · exact readTurns_more F fs k (n.length + 1) _ n (by omega) (by omega)
  · have ef : strB "file://" = 102 :: (strB "file://").tail := by decide +kernel
    have e1 : strB "http://" = 104 :: (strB "http://").tail := by decide +kernel
    have e2 : strB "https://" = 104 :: (strB "https://").tail := by decide +kernel
    rw [ef, e1, e2, List.cons_append]
    simp [List.isPrefixOf]

/-- **C109**: a name of another extension is refused by `read` and by `write`, which changes no file. -/
theorem C109_unknown (F : FsEnv) (fs : FsSt) (k : Nat) (im : Img UInt8) (n : List UInt8) (hn : PlainName n)
    (he : fileExt n ∉ [strB "BMP", strB "PNG", strB "JPG", strB "JPEG", strB "TIF", strB "TIFF", strB "VTK", strB "PGM", strB "PBM"]) :
    readName F fs k n = .err ∧ writeName F fs im n = (false, fs) := by
  simp only [List.mem_cons, List.not_mem_nil, or_false, not_or] at he
  obtain ⟨h1, h2, h3, h4, h5, h6, h7, h8, h9⟩ := he
  have hh : handlerFor F n = none := by
    unfold handlerFor libExts
    rw [if_neg h1, if_neg (by simp [h2, h3, h4, h5, h6]), if_neg h7, if_neg h8, if_neg h9]
  rw [readName_plain F fs k n hn]
  unfold writeName
  rw [hh]
  exact ⟨rfl, rfl⟩

/-- **C109**: PBM files are read, never written. -/
theorem C109_pbm (F : FsEnv) (fs : FsSt) (im : Img UInt8) (n : List UInt8) (he : fileExt n = strB "PBM") :
    writeName F fs im n = (false, fs) := by
  have hh : handlerFor F n = some pbmCodec := by
    unfold handlerFor libExts
    rw [he, if_neg (by decide +kernel), if_neg (by decide +kernel), if_neg (by decide +kernel), if_neg (by decide +kernel), if_pos rfl]
  unfold writeName
  rw [hh]
  rfl

/-! ### Reading a list of files -/

theorem putSlice_spec (t im : Img UInt8) (z : Nat) (ht : Img.In t.dims ⟨0, 0, 0⟩) (hi : Img.In im.dims ⟨0, 0, z⟩) :
    ∃ o, putSlice t im z = .ok o ∧ o.dims = im.dims ∧
      (∀ q a, t.at? q = some a → Img.In im.dims (deeper q z) → o.at? (deeper q z) = some a) ∧
      ∀ p, ¬ Img.In t.dims (deeper p (-z)) → o.at? p = im.at? p := by
  obtain ⟨o, h1, h2, h3, h4⟩ := C21_copy id t ⟨0, 0, 0⟩ t.dims im ⟨0, 0, z⟩ ht hi
  refine ⟨o, ?_, h2, ?_, ?_⟩
  · unfold putSlice; rw [h1]; simp
  · intro q a hq hin
    have e1 : shiftBy ⟨0, 0, 0⟩ q = q := by unfold shiftBy; simp
    have e2 : shiftBy ⟨0, 0, z⟩ q = deeper q z := by unfold shiftBy deeper; simp
    have := h3 q a (Img.at?_eq_some_in _ _ _ hq) (by rw [e1]; exact hq) (by rw [e2]; exact hin)
    rw [e2] at this
    simpa using this
  · intro p hp
    refine h4 p fun hh => hp ?_
    have e2 : relTo ⟨0, 0, z⟩ p = deeper p (-z) := by
      unfold relTo deeper
      simp only [Nat.cast_zero, sub_zero]
      rfl
    rw [← e2]; exact hh.1

theorem readLoop (F : FsEnv) (fs : FsSt) (T : Nat → Img UInt8) : ∀ (ns : List (List UInt8)) (z0 : Nat) (im : Img UInt8),
    (∀ k (hk : k < ns.length), readName F fs (z0 + k) ns[k] = .ok (T (z0 + k)) ∧ Img.In (T (z0 + k)).dims ⟨0, 0, 0⟩) →
    0 < im.dims.w → 0 < im.dims.h → z0 + ns.length ≤ im.dims.d →
    ∃ R, (ns.zipIdx z0).foldlM (readStep F fs) im = .ok R ∧ R.dims = im.dims ∧
      (∀ p, (∀ i, z0 ≤ i → i < z0 + ns.length → ¬ Img.In (T i).dims (deeper p (-(i : Int)))) → R.at? p = im.at? p) ∧
      ∀ j q a, z0 ≤ j → j < z0 + ns.length → (T j).at? q = some a → Img.In im.dims (deeper q j) →
        (∀ i, j < i → i < z0 + ns.length → ¬ Img.In (T i).dims (deeper (deeper q j) (-(i : Int)))) → R.at? (deeper q j) = some a := by
  intro ns
  induction ns with
  | nil =>
    intro z0 im _ _ _ _
    exact ⟨im, rfl, rfl, fun _ _ => rfl, fun j q a h1 h2 => by simp at h2; omega⟩
  | cons n ns ih =>
    intro z0 im h hw hh hd
    obtain ⟨hr, hp⟩ := h 0 (by simp)
    rw [Nat.add_zero] at hr hp
    have hd' : z0 + (ns.length + 1) ≤ im.dims.d := hd
    obtain ⟨o, e1, e2, e3, e4⟩ := putSlice_spec (T z0) im z0 hp (by unfold Img.In; simp only; omega)
    obtain ⟨R, f1, f2, f3, f4⟩ := ih (z0 + 1) o (by
      intro k hk
      have := h (k + 1) (by simpa using hk)
      rw [show z0 + (k + 1) = z0 + 1 + k by omega] at this
      exact this) (by rw [e2]; exact hw) (by rw [e2]; exact hh) (by rw [e2]; omega)
    refine ⟨R, ?_, by rw [f2, e2], ?_, ?_⟩
    · rw [List.zipIdx_cons, List.foldlM_cons]
      have : readStep F fs im (n, z0) = .ok o := by
        unfold readStep
        simp only [List.getElem_cons_zero] at hr
        rw [hr]; exact e1
      rw [this]
      exact f1
    · intro p hp
      rw [f3 p fun i h1 h2 => hp i (by omega) (by simp; omega)]
      exact e4 p (hp z0 (by omega) (by simp))
    · intro j q a h1 h2 h3 h4 h5
      simp only [List.length_cons] at h2 h5
      rcases Nat.eq_or_lt_of_le h1 with rfl | h1
      · rw [f3 _ fun i h6 h7 => h5 i (by omega) (by omega)]
        exact e3 q a h3 h4
      · exact f4 j q a (by omega) (by omega) h3 (by rw [e2]; exact h4) fun i h6 h7 => h5 i h6 (by omega)

/-- **C109**, reading: the image has the width and height of the first file and a slice for each file. File `j` is laid with its first slice at depth `j`, and what does not fit is cut off; where
several files lie, the last one shows, and where there is none the image is zero. -/
theorem C109_read (F : FsEnv) (fs : FsSt) (names : List (List UInt8)) (h0 : names ≠ []) (T : Nat → Img UInt8)
    (h : ∀ k (hk : k < names.length), readName F fs k names[k] = .ok (T k) ∧ Img.In (T k).dims ⟨0, 0, 0⟩) :
    ∃ R, readList F fs names = .ok R ∧ R.dims = ⟨(T 0).dims.w, (T 0).dims.h, names.length⟩ ∧
      (∀ p, Img.In R.dims p → (∀ i, i < names.length → ¬ Img.In (T i).dims (deeper p (-(i : Int)))) → R.at? p = some 0) ∧
      ∀ j q a, j < names.length → (T j).at? q = some a → Img.In R.dims (deeper q j) →
        (∀ i, j < i → i < names.length → ¬ Img.In (T i).dims (deeper (deeper q j) (-(i : Int)))) → R.at? (deeper q j) = some a := by
  obtain ⟨n, ns, rfl⟩ := List.exists_cons_of_ne_nil h0
  obtain ⟨hr, hp⟩ := h 0 (by simp)
  have hp' := hp
  unfold Img.In at hp'
  simp only at hp'
  set blank : Img UInt8 := ⟨⟨(T 0).dims.w, (T 0).dims.h, ns.length + 1⟩, fun _ => 0⟩ with hb
  obtain ⟨R, f1, f2, f3, f4⟩ := readLoop F fs T (n :: ns) 0 blank (by
    intro k hk; rw [Nat.zero_add]; exact h k hk) (by rw [hb]; simp only; omega) (by rw [hb]; simp only; omega) (by rw [hb]; simp)
  refine ⟨R, ?_, ?_, ?_, ?_⟩
  · rw [← f1, List.zipIdx_cons, List.foldlM_cons]
    rw [readList]
    have e : readStep F fs blank (n, 0) = (readName F fs 0 n).bind fun t => putSlice t blank 0 := rfl
    simp only [List.getElem_cons_zero] at hr
    rw [e, hr]
    rfl
  · rw [f2]; rfl
  · intro p hin hno
    rw [f3 p fun i _ h2 => hno i (by simpa using h2), Img.at?_some _ _ (by rw [← f2]; exact hin)]
    rfl
  · intro j q a h1 h2 h3 h4
    exact f4 j q a (by omega) (by simpa using h1) h2 (by rw [← f2]; exact h3) fun i h5 h6 => h4 i h5 (by simpa using h6)

/-- **C109**, reading files of one slice and of the same size: slice `z` is file `z`. -/
theorem C109_slices (F : FsEnv) (fs : FsSt) (names : List (List UInt8)) (h0 : names ≠ []) (w h : Nat) (hw : 0 < w) (hh : 0 < h)
    (T : Nat → Img UInt8) (hT : ∀ k (hk : k < names.length), readName F fs k names[k] = .ok (T k) ∧ (T k).dims = ⟨w, h, 1⟩) :
    ∃ R, readList F fs names = .ok R ∧ R.dims = ⟨w, h, names.length⟩ ∧
      ∀ x y z : Nat, x < w → y < h → z < names.length → R.at? ⟨x, y, z⟩ = (T z).at? ⟨x, y, 0⟩ := by
  obtain ⟨R, f1, f2, -, f4⟩ := C109_read F fs names h0 T (by
    intro k hk
    refine ⟨(hT k hk).1, ?_⟩
    rw [(hT k hk).2]; unfold Img.In; simp only; omega)
  have hl : 0 < names.length := List.length_pos_iff.2 h0
  rw [(hT 0 hl).2] at f2
  refine ⟨R, f1, f2, ?_⟩
  intro x y z hx hy hz
  have hin : Img.In (T z).dims ⟨x, y, 0⟩ := by rw [(hT z hz).2]; unfold Img.In; simp only; omega
  have := f4 z ⟨x, y, 0⟩ _ hz (Img.at?_some _ _ hin) (by rw [f2]; unfold Img.In deeper; simp only; omega) (by
    intro i h1 h2
    rw [(hT i h2).2]; unfold Img.In deeper; simp only; omega)
  rw [Img.at?_some _ _ hin, ← this]
  unfold deeper
  simp

/-- **C109**, reading: an empty list is refused; a file that cannot be read makes the call fail. -/
theorem C109_read_errors (F : FsEnv) (fs : FsSt) :
    readList F fs [] = .err ∧ ∀ n ns, readName F fs 0 n = .err → readList F fs (n :: ns) = .err := by
  refine ⟨rfl, fun n ns h => ?_⟩
  rw [readList, h]; rfl

/-! ### Writing a stack and reading it back -/

theorem writeFrom_spec (F : FsEnv) (im : Img UInt8) (hw : 0 < im.dims.w) (hh : 0 < im.dims.h) :
    ∀ (ns : List (List UInt8)) (z : Nat) (fs : FsSt), z + ns.length ≤ im.dims.d →
    (∀ n ∈ ns, ReadsBack F im.dims.w im.dims.h n ∧ F.canWrite n = true) → (ns.map F.file).Nodup →
    ∃ fs', writeFrom F im ns z fs = some (true, fs') ∧ (∀ i, i ∉ ns.map F.file → fs' i = fs i) ∧
      ∀ k (hk : k < ns.length), ∃ c b, handlerFor F ns[k] = some c ∧ fs' (F.file ns[k]) = some b ∧
        ∀ init, ∃ r, c.read b init = .ok r ∧ r.dims = ⟨im.dims.w, im.dims.h, 1⟩ ∧
          ∀ x y : Nat, x < im.dims.w → y < im.dims.h → r.at? ⟨x, y, 0⟩ = im.at? ⟨x, y, ((z + k : Nat) : Int)⟩ := by
  intro ns
  induction ns with
  | nil =>
    intro z fs _ _ _
    exact ⟨fs, rfl, fun _ _ => rfl, fun k hk => by simp at hk⟩
  | cons n ns ih =>
    intro z fs hd hn hnd
    rw [List.length_cons] at hd
    rw [List.map_cons, List.nodup_cons] at hnd
    obtain ⟨s, s1, s2, s3, -⟩ := C21_copy id im ⟨0, 0, z⟩ im.dims ⟨⟨im.dims.w, im.dims.h, 1⟩, F.raw z⟩ ⟨0, 0, 0⟩
      (by unfold Img.In Dims.toPt; simp only; omega) (by unfold Img.In Dims.toPt; simp only; omega)
    obtain ⟨⟨c, hc, hrb⟩, hcan⟩ := hn n (by simp)
    obtain ⟨b, hb, hread⟩ := hrb s s2
    have hwn : writeName F fs s n = (true, Function.update fs (F.file n) (some b)) := by
      unfold writeName
      rw [hc]; simp only; rw [hb]; simp only; rw [if_pos hcan]
    obtain ⟨fs', f1, f2, f3⟩ := ih (z + 1) (Function.update fs (F.file n) (some b)) (by omega) (fun m hm => hn m (by simp [hm])) hnd.2
    refine ⟨fs', ?_, ?_, ?_⟩
    · rw [writeFrom, s1]
      simp only [if_true]
      rw [hwn]
      exact f1
    · intro i hi
      rw [List.map_cons, List.mem_cons, not_or] at hi
      rw [f2 i hi.2, Function.update_of_ne hi.1]
    · intro k hk
      rcases k with - | k
      · refine ⟨c, b, by simpa using hc, ?_, ?_⟩
        · rw [List.getElem_cons_zero, f2 _ hnd.1, Function.update_self]
        · intro init
          obtain ⟨r, r1, r2, r3⟩ := hread init
          refine ⟨r, r1, by rw [r2, s2], ?_⟩
          intro x y hx hy
          rw [r3]
          have hin : Img.In im.dims ⟨x, y, z⟩ := by unfold Img.In; simp only; omega
          have e1 : shiftBy ⟨0, 0, z⟩ ⟨(x : Int), y, 0⟩ = ⟨x, y, z⟩ := by unfold shiftBy; simp
          have e2 : shiftBy ⟨0, 0, 0⟩ ⟨(x : Int), y, 0⟩ = ⟨x, y, 0⟩ := by unfold shiftBy; simp
          have := s3 ⟨x, y, 0⟩ _ (by unfold Img.In; simp only; omega) (by rw [e1]; exact Img.at?_some _ _ hin)
            (by rw [e2]; unfold Img.In; simp only; omega)
          rw [e2] at this
          rw [this, Nat.add_zero, Img.at?_some _ _ hin]
          rfl
      · obtain ⟨c', b', g1, g2, g3⟩ := f3 k (by simpa using hk)
        refine ⟨c', b', by simpa using g1, by simpa using g2, ?_⟩
        rw [show z + (k + 1) = z + 1 + k by omega]
        exact g3

/-- **C109**, any formats: when each handler reads back the slices it writes, a stack written over names of different files is read back whole; no other file changes. -/
theorem C109_stack (F : FsEnv) (fs : FsSt) (im : Img UInt8) (names : List (List UInt8)) (hw : 0 < im.dims.w) (hh : 0 < im.dims.h)
    (hd : 0 < im.dims.d) (hd2 : im.dims.d < 2 ^ 32) (hl : names.length = im.dims.d) (hnd : (names.map F.file).Nodup)
    (hn : ∀ n ∈ names, PlainName n ∧ F.canWrite n = true ∧ ReadsBack F im.dims.w im.dims.h n) :
    ∃ fs', writeList F fs im names = some (true, fs') ∧ (∀ i, i ∉ names.map F.file → fs' i = fs i) ∧
      ∃ R, readList F fs' names = .ok R ∧ SameIm R im := by
  obtain ⟨fs', f1, f2, f3⟩ := writeFrom_spec F im hw hh names 0 fs (by omega) (fun n h => ⟨(hn n h).2.2, (hn n h).2.1⟩) hnd
  refine ⟨fs', ?_, f2, ?_⟩
  · unfold writeList
    have e : names.length % 2 ^ 32 = im.dims.d := by rw [hl]; exact Nat.mod_eq_of_lt hd2
    rw [e, if_neg (by simp), ← hl, List.take_length]
    exact f1
  have hr : ∀ k, ∃ r, ∀ (hk : k < names.length), readName F fs' k names[k] = .ok r ∧ r.dims = ⟨im.dims.w, im.dims.h, 1⟩ ∧
      ∀ x y : Nat, x < im.dims.w → y < im.dims.h → r.at? ⟨x, y, 0⟩ = im.at? ⟨x, y, (k : Int)⟩ := by
    intro k
    by_cases hk : k < names.length
    · obtain ⟨c, b, g1, g2, g3⟩ := f3 k hk
      obtain ⟨r, r1, r2, r3⟩ := g3 (F.raw k)
      refine ⟨r, fun _ => ⟨?_, r2, ?_⟩⟩
      · rw [readName_plain F fs' k _ (hn _ (List.getElem_mem hk)).1, g1]
        simp only
        rw [g2]
        exact r1
      · intro x y hx hy
        have := r3 x y hx hy
        rwa [Nat.zero_add] at this
    · exact ⟨im, fun h => absurd h hk⟩
  choose T hT using hr
  obtain ⟨R, r1, r2, r3⟩ := C109_slices F fs' names (by intro h; rw [h] at hl; simp at hl; omega) im.dims.w im.dims.h hw hh T
    fun k hk => ⟨(hT k hk).1, (hT k hk).2.1⟩
  have hdims : R.dims = im.dims := by rw [r2, hl]
  refine ⟨R, r1, hdims, ?_⟩
  intro p
  by_cases hp : Img.In im.dims p
  · have hp' := hp
    unfold Img.In at hp'
    obtain ⟨x, y, z⟩ := p
    simp only at hp'
    obtain ⟨x, rfl⟩ := Int.eq_ofNat_of_zero_le hp'.1
    obtain ⟨y, rfl⟩ : ∃ n : Nat, y = n := Int.eq_ofNat_of_zero_le (by omega)
    obtain ⟨z, rfl⟩ : ∃ n : Nat, z = n := Int.eq_ofNat_of_zero_le (by omega)
    have := r3 x y z (by omega) (by omega) (by omega)
    rw [this]
    exact (hT z (by omega)).2.2 x y (by omega) (by omega)
  · rw [Img.at?_none _ _ hp, Img.at?_none _ _ (by rw [hdims]; exact hp)]

theorem sameIm_of_rows (r s : Img UInt8) (w h : Nat) (hs : s.dims = ⟨w, h, 1⟩) (hr : r.dims = ⟨w, h, 1⟩)
    (hb : ∀ i, i < w * h → r.buf i = s.buf i) : SameIm r s := by
  refine ⟨by rw [hr, hs], fun p => ?_⟩
  by_cases hp : Img.In s.dims p
  · have hp' : Img.In r.dims p := by rw [hr, ← hs]; exact hp
    rw [Img.buf_offOf s p hp, Img.buf_offOf r p hp', hr, hs]
    rw [hb]
    have := offOf_lt hp
    rw [hs] at this
    unfold Dims.count at this
    simpa [Nat.mul_comm] using this
  · rw [Img.at?_none _ _ hp, Img.at?_none _ _ (by rw [hr, ← hs]; exact hp)]

/-- The bytes that the BMP writer leaves unset have the right number. -/
def FsEnv.Ok (F : FsEnv) : Prop := F.xp.length = 8 ∧ ∀ w j, (F.pad w j).length = (4 - w % 4) % 4

theorem bmp_readsBack (F : FsEnv) (hF : F.Ok) (w h : Nat) (hw : 0 < w) (hw2 : w + 4 < 2 ^ 31) (hh : h < 2 ^ 31) (n : List UInt8)
    (hn : fileExt n = strB "BMP") : ReadsBack F w h n := by
  refine ⟨bmpCodec F, by unfold handlerFor; rw [if_pos hn], ?_⟩
  intro s hs
  refine ⟨_, rfl, fun init => ?_⟩
  obtain ⟨r, r1, r2, r3⟩ := C57_bmp8 s F.xp (F.pad s.dims.w) init (by rw [hs]; exact hw) (by rw [hs]; exact hw2) (by rw [hs]; exact hh)
    hF.1 (by
      intro j
      rw [hF.2]
      unfold scanSize
      split <;> omega)
  refine ⟨r, r1, sameIm_of_rows r s w h hs (by rw [r2, hs]) ?_⟩
  intro i hi
  have h1 : i % w < w := Nat.mod_lt _ hw
  have h2 : i / w < h := Nat.div_lt_of_lt_mul hi
  have := r3 (i % w) (i / w) (by rw [hs]; exact h1) (by rw [hs]; exact h2)
  rw [hs] at this
  simp only at this
  rwa [Nat.div_add_mod'] at this

theorem pgm_readsBack (F : FsEnv) (w h : Nat) (hw : w < 2 ^ 31) (hh : h < 2 ^ 31) (hwh : w * h < 2 ^ 31) (n : List UInt8)
    (hn : fileExt n = strB "PGM") (hlf : (10 : UInt8) ∉ n) : ReadsBack F w h n := by
  refine ⟨pgmCodec F, ?_, ?_⟩
  · unfold handlerFor libExts
    rw [hn, if_neg (by decide +kernel), if_neg (by decide +kernel), if_neg (by decide +kernel), if_pos rfl]
  intro s hs
  refine ⟨_, rfl, fun init => ?_⟩
  obtain ⟨r, r1, r2, r3⟩ := C57_pgm s n F.mv init (fun b hb e => hlf (e ▸ hb)) (by rw [hs]; exact hw) (by rw [hs]; exact hh) (by rw [hs]; exact hwh)
  refine ⟨r, r1, sameIm_of_rows r s w h hs (by rw [r2, hs]) ?_⟩
  intro i hi
  exact r3 i (by rw [hs]; exact hi)

/-- **C109**, round trip: an image of any depth written over BMP and PGM names of different files, mixed as one likes, is read back whole. -/
theorem C109_roundtrip_partial (F : FsEnv) (hF : F.Ok) (fs : FsSt) (im : Img UInt8) (names : List (List UInt8)) (hw : 0 < im.dims.w) (hh : 0 < im.dims.h)
    (hd : 0 < im.dims.d) (hd2 : im.dims.d < 2 ^ 32) (hw2 : im.dims.w + 4 < 2 ^ 31) (hh2 : im.dims.h < 2 ^ 31) (hwh : im.dims.w * im.dims.h < 2 ^ 31)
    (hl : names.length = im.dims.d) (hnd : (names.map F.file).Nodup)
    (hn : ∀ n ∈ names, PlainName n ∧ F.canWrite n = true ∧ (10 : UInt8) ∉ n ∧ (fileExt n = strB "BMP" ∨ fileExt n = strB "PGM")) :
    ∃ fs', writeList F fs im names = some (true, fs') ∧ (∀ i, i ∉ names.map F.file → fs' i = fs i) ∧
      ∃ R, readList F fs' names = .ok R ∧ SameIm R im := by
  refine C109_stack F fs im names hw hh hd hd2 hl hnd fun n h => ?_
  obtain ⟨h1, h2, h3, h4 | h4⟩ := hn n h
  · exact ⟨h1, h2, bmp_readsBack F hF _ _ hw hw2 hh2 n h4⟩
  · exact ⟨h1, h2, pgm_readsBack F _ _ (by omega) hh2 hwh n h4 h3⟩

/-- **C109**, writing: with another number of names than slices nothing is written. -/
theorem C109_count (F : FsEnv) (fs : FsSt) (im : Img UInt8) (names : List (List UInt8)) (hl : names.length < 2 ^ 32)
    (h : names.length ≠ im.dims.d) : writeList F fs im names = some (false, fs) := by
  unfold writeList
  rw [if_pos (by rw [Nat.mod_eq_of_lt hl]; exact h)]

theorem writeFrom_append (F : FsEnv) (im : Img UInt8) (b : List (List UInt8)) : ∀ (a : List (List UInt8)) (z : Nat) (fs fs' : FsSt),
    writeFrom F im a z fs = some (true, fs') → writeFrom F im (a ++ b) z fs = writeFrom F im b (z + a.length) fs' := by
  intro a
  induction a with
  | nil =>
    intro z fs fs' h
    rw [writeFrom] at h
    simp only [Option.some.injEq, Prod.mk.injEq, true_and] at h
    rw [h]; rfl
  | cons n a ih =>
    intro z fs fs' h
    rw [writeFrom] at h
    rw [List.cons_append, writeFrom, List.length_cons]
    split at h
    · exact absurd h (by simp)
    · rename_i c s hs
      by_cases hc : c = 1
      · rw [if_pos hc] at h ⊢
        split at h
        · rename_i fs1 h1
          rw [ih (z + 1) fs1 fs' h, show z + 1 + a.length = z + (a.length + 1) by omega]
        · simp at h
      · rw [if_neg hc] at h
        simp at h

/-- **C109**, writing: when a file cannot be opened the call fails, but the files of the slices before it have been replaced; the others are as before. -/
theorem C109_write_stops (F : FsEnv) (fs : FsSt) (im : Img UInt8) (a b : List (List UInt8)) (m : List UInt8) (hw : 0 < im.dims.w) (hh : 0 < im.dims.h)
    (hd2 : im.dims.d < 2 ^ 32) (hl : (a ++ m :: b).length = im.dims.d) (hnd : (a.map F.file).Nodup)
    (hn : ∀ n ∈ a, F.canWrite n = true ∧ ReadsBack F im.dims.w im.dims.h n) (hm : F.canWrite m = false) :
    ∃ fs', writeList F fs im (a ++ m :: b) = some (false, fs') ∧ (∀ i, i ∉ a.map F.file → fs' i = fs i) ∧
      ∀ k (hk : k < a.length), PlainName a[k] → ∃ r, readName F fs' k a[k] = .ok r ∧ r.dims = ⟨im.dims.w, im.dims.h, 1⟩ ∧
          ∀ x y : Nat, x < im.dims.w → y < im.dims.h → r.at? ⟨x, y, 0⟩ = im.at? ⟨x, y, (k : Int)⟩ := by
  have hl' : a.length + (b.length + 1) = im.dims.d := by simpa using hl
  obtain ⟨fs', f1, f2, f3⟩ := writeFrom_spec F im hw hh a 0 fs (by omega) (fun n h => ⟨(hn n h).2, (hn n h).1⟩) hnd
  refine ⟨fs', ?_, f2, ?_⟩
  · unfold writeList
    have e : (a ++ m :: b).length % 2 ^ 32 = im.dims.d := by rw [hl]; exact Nat.mod_eq_of_lt hd2
    rw [e, if_neg (by simp), ← hl, List.take_length, writeFrom_append F im (m :: b) a 0 fs fs' f1, writeFrom]
    obtain ⟨s, s1, -⟩ := C21_copy id im ⟨0, 0, 0 + a.length⟩ im.dims ⟨⟨im.dims.w, im.dims.h, 1⟩, F.raw (0 + a.length)⟩ ⟨0, 0, 0⟩
      (by unfold Img.In Dims.toPt; simp only; omega) (by unfold Img.In Dims.toPt; simp only; omega)
    rw [s1]
    simp only [if_true]
    have : writeName F fs' s m = (false, fs') := by
      unfold writeName
      split
      · rfl
      · split
        · rfl
        · rw [if_neg (by rw [hm]; simp)]
    rw [this]
  · intro k hk hpl
    obtain ⟨c, d, g1, g2, g3⟩ := f3 k hk
    obtain ⟨r, r1, r2, r3⟩ := g3 (F.raw k)
    refine ⟨r, ?_, r2, ?_⟩
    · rw [readName_plain F fs' k _ hpl, g1]
      simp only
      rw [g2]
      exact r1
    · intro x y hx hy
      have := r3 x y hx hy
      rwa [Nat.zero_add] at this

/-! ### Cases, and where the claim fails -/

/-- A machine where each name is its own file, for the names below. -/
def exFs (names : List (List UInt8)) : FsEnv :=
  ⟨fun n => names.idxOf n, fun _ => true, fun k i => UInt8.ofNat (k + i), List.replicate 8 7, fun w _ => List.replicate ((4 - w % 4) % 4) 9, 0, true, fun _ => none⟩

/-- Two slices of 3 by 2. -/
def exStack : Img UInt8 := ⟨⟨3, 2, 2⟩, fun i => UInt8.ofNat (10 * i)⟩

/-- Non-vacuity of `C109_roundtrip_partial`. -/
example : ∃ fs', writeList (exFs [strB "a.bmp", strB "b.PGM"]) (fun _ => none) exStack [strB "a.bmp", strB "b.PGM"] = some (true, fs') ∧
    (∀ i, i ∉ [strB "a.bmp", strB "b.PGM"].map (exFs [strB "a.bmp", strB "b.PGM"]).file → fs' i = none) ∧
    ∃ R, readList (exFs [strB "a.bmp", strB "b.PGM"]) fs' [strB "a.bmp", strB "b.PGM"] = .ok R ∧ SameIm R exStack :=
  C109_roundtrip_partial _ ⟨by decide, fun w j => by simp [exFs]⟩ _ _ _ (by decide) (by decide) (by decide) (by decide) (by decide) (by decide) (by decide) rfl
    (by decide +kernel) (by decide +kernel)

/-- What a test can see of a result. -/
def ioPixels (r : IORes (Img UInt8)) : Option (Dims × List UInt8) :=
  match r with
  | .ok im => some (im.dims, (List.range im.dims.count).map im.buf)
  | _ => none

/-- Write, then read. -/
def thereAndBack (F : FsEnv) (im : Img UInt8) (names : List (List UInt8)) : Option (Bool × Option (Dims × List UInt8)) :=
  (writeList F (fun _ => none) im names).map fun r => (r.1, ioPixels (readList F r.2 names))

/-- A control for the failures below. -/
example : thereAndBack (exFs [strB "a.bmp", strB "b.PGM"]) exStack [strB "a.bmp", strB "b.PGM"] =
    some (true, some (⟨3, 2, 2⟩, [0, 10, 20, 30, 40, 50, 60, 70, 80, 90, 100, 110])) := by decide +kernel

/-- Non-vacuity of `C109_write_stops`: the second file cannot be opened, the first one has been replaced. -/
example : ∃ fs', writeList { exFs [strB "a.bmp"] with canWrite := fun n => n = strB "a.bmp" } (fun _ => none) exStack ([strB "a.bmp"] ++ strB "b.bmp" :: []) =
    some (false, fs') ∧ ∃ r, readName { exFs [strB "a.bmp"] with canWrite := fun n => n = strB "a.bmp" } fs' 0 (strB "a.bmp") = .ok r ∧ r.dims = ⟨3, 2, 1⟩ := by
  obtain ⟨fs', h1, -, h3⟩ := C109_write_stops { exFs [strB "a.bmp"] with canWrite := fun n => n = strB "a.bmp" } (fun _ => none) exStack [strB "a.bmp"] [] (strB "b.bmp")
    (by decide) (by decide) (by decide) rfl (by decide +kernel) (by
      intro n hn
      rw [List.mem_singleton] at hn
      subst hn
      exact ⟨by decide +kernel, bmp_readsBack _ ⟨by decide, fun w j => by simp [exFs]⟩ 3 2 (by decide) (by decide) (by decide) _ (by decide +kernel)⟩) (by decide +kernel)
  obtain ⟨r, r1, r2, -⟩ := h3 0 (by simp) (by decide +kernel)
  exact ⟨fs', h1, r, r1, r2⟩

/-- Non-vacuity of `C109_read`: files of different sizes; the second one is cut and the third one completed with zeros. -/
example : ioPixels (readList (exFs [strB "a.bmp", strB "b.bmp", strB "c.bmp"])
    (fun i => ([⟨⟨2, 1, 1⟩, fun i => UInt8.ofNat (i + 1)⟩, ⟨⟨3, 2, 1⟩, fun i => UInt8.ofNat (i + 10)⟩, ⟨⟨1, 1, 1⟩, fun _ => 30⟩] : List (Img UInt8))[i]?.map
      fun im => writeBMP8 im (List.replicate 8 7) fun _ => List.replicate ((4 - im.dims.w % 4) % 4) 9) [strB "a.bmp", strB "b.bmp", strB "c.bmp"]) =
    some (⟨2, 1, 3⟩, [1, 2, 10, 11, 30, 0]) := by decide +kernel

/-- C109 fails when two names lead to the same file: the slices of the last one come back twice, and the call succeeds. -/
theorem C109_repeat_bug : thereAndBack (exFs [strB "a.bmp"]) exStack [strB "a.bmp", strB "a.bmp"] =
    some (true, some (⟨3, 2, 2⟩, [60, 70, 80, 90, 100, 110, 60, 70, 80, 90, 100, 110])) := by decide +kernel

/-- C109 fails for names with `file://`, which `read` understands and `write` does not: the image is written to another file than the one that is read. -/
theorem C109_scheme_bug : thereAndBack (exFs [strB "a.bmp", strB "b.bmp", strB "file://a.bmp", strB "file://b.bmp"]) exStack
    [strB "file://a.bmp", strB "file://b.bmp"] = some (true, none) := by decide +kernel

/-- The VTK file of an image. -/
def vtkBytes (im : Img UInt8) : List UInt8 := writeVTK .u8 1 true im.dims fun i => [im.buf i]

/-- C109 fails as "slice `z` is file `z`" when a file of the list has several slices: they appear where a smaller file follows. Here the second file has one pixel. -/
theorem C109_spill_bug : ioPixels (readList (exFs [strB "a.vtk", strB "b.vtk"])
    (fun i => if i = 0 then some (vtkBytes ⟨⟨2, 1, 2⟩, fun i => UInt8.ofNat (i + 1)⟩) else some (vtkBytes ⟨⟨1, 1, 1⟩, fun _ => 9⟩)) [strB "a.vtk", strB "b.vtk"]) =
    some (⟨2, 1, 2⟩, [1, 2, 9, 4]) := by decide +kernel

end Smil
