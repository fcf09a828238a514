import Verif.Draw
import Verif.DrawSpec
import Mathlib.Tactic.Linarith
import Mathlib.Tactic.Ring

/-!
# Lemmas on drawing
-/

namespace Smil
variable {α : Type}

theorem lineAt_in {D : Dims} {p : IntPoint} (h : Img.In D p) :
    lineAt D p.z p.y = some ((p.z * D.h + p.y) * D.w) := by
  obtain ⟨h1, h2, h3, h4, h5, h6⟩ := h
  unfold lineAt
  refine if_pos ⟨by positivity, ?_⟩
  have : p.z * D.h + p.y < (p.z + 1) * D.h := by rw [add_mul]; omega
  refine lt_of_lt_of_le this ?_
  rw [Nat.cast_mul, mul_comm]
  exact mul_le_mul_of_nonneg_left (by omega) (by positivity)

theorem offOf_eq {D : Dims} {p : IntPoint} (h : Img.In D p) :
    ((p.z * D.h + p.y) * D.w + p.x : Int) = (offOf D p : Nat) := by
  obtain ⟨h1, h2, h3, h4, h5, h6⟩ := h
  unfold offOf rasterIndex
  push_cast [Int.toNat_of_nonneg h1, Int.toNat_of_nonneg h3, Int.toNat_of_nonneg h5]
  ring

theorem storePx_in (v : α) (im : Img α) {p : IntPoint} (h : Img.In im.dims p) :
    storePx v im p = some ⟨im.dims, Function.update im.buf (offOf im.dims p) v⟩ := by
  unfold storePx storeAt
  rw [lineAt_in h]
  simp only [Option.bind_some]
  rw [offOf_eq h, if_pos ⟨by positivity, by exact_mod_cast offOf_lt h⟩, Int.toNat_natCast]

theorem loadPx_in (im : Img α) {p : IntPoint} (h : Img.In im.dims p) :
    loadPx im p = im.at? p := by
  unfold loadPx
  rw [lineAt_in h]
  simp only [Option.bind_some]
  rw [offOf_eq h, if_pos ⟨by positivity, by exact_mod_cast offOf_lt h⟩, Int.toNat_natCast, Img.at?_some im p h]
  rfl

theorem at?_buf (im : Img α) {p : IntPoint} (h : Img.In im.dims p) : im.at? p = some (im.buf (offOf im.dims p)) := by
  rw [Img.at?_some im p h]; rfl

/-- One store paints one point. -/
theorem storePx_painted (v : α) (im : Img α) {p : IntPoint} (h : Img.In im.dims p) :
    ∃ r, storePx v im p = some r ∧ IsPainted im v (· = p) r := by
  refine ⟨_, storePx_in v im h, rfl, ?_, ?_⟩
  · rintro q _ rfl
    rw [at?_buf _ (by exact h)]
    simp only [Function.update_self]
  · intro q hq
    by_cases hi : Img.In im.dims q
    · rw [at?_buf _ (by exact hi), at?_buf im hi]
      simp only [Option.some.injEq]
      exact Function.update_of_ne (fun e => hq (offOf_inj hi h e)) _ _
    · rw [Img.at?_none _ _ (by exact hi), Img.at?_none _ _ hi]

theorem IsPainted.nil (im : Img α) (v : α) : IsPainted im v (fun _ => False) im :=
  ⟨rfl, fun _ _ h => h.elim, fun _ _ => rfl⟩

theorem IsPainted.congr {im r : Img α} {v : α} {S T : IntPoint → Prop} (h : IsPainted im v S r)
    (e : ∀ q, Img.In im.dims q → (S q ↔ T q)) : IsPainted im v T r := by
  refine ⟨h.1, fun q hi hq => h.2.1 q hi ((e q hi).mpr hq), fun q hq => ?_⟩
  by_cases hi : Img.In im.dims q
  · exact h.2.2 q fun hs => hq ((e q hi).mp hs)
  · rw [Img.at?_none _ _ hi, Img.at?_none _ _ (by rw [h.1]; exact hi)]

theorem IsPainted.trans {im r r' : Img α} {v : α} {S T : IntPoint → Prop} (h : IsPainted im v S r)
    (h' : IsPainted r v T r') : IsPainted im v (fun q => S q ∨ T q) r' := by
  refine ⟨h'.1.trans h.1, ?_, ?_⟩
  · intro q hi hq
    by_cases ht : T q
    · exact h'.2.1 q (by rw [h.1]; exact hi) ht
    · rw [h'.2.2 q ht]
      exact h.2.1 q hi (hq.resolve_right ht)
  · intro q hq
    rw [h'.2.2 q fun ht => hq (Or.inr ht), h.2.2 q fun hs => hq (Or.inl hs)]

/-- A fold of painting steps paints the union. -/
theorem foldlM_painted {ι : Type} (v : α) (f : Img α → ι → Option (Img α)) (S : ι → IntPoint → Prop) (D : Dims) (l : List ι)
    (hf : ∀ i ∈ l, ∀ im : Img α, im.dims = D → ∃ r, f im i = some r ∧ IsPainted im v (S i) r) :
    ∀ im : Img α, im.dims = D → ∃ r, l.foldlM f im = some r ∧ IsPainted im v (fun q => ∃ i ∈ l, S i q) r := by
  induction l with
  | nil => exact fun im _ => ⟨im, rfl, (IsPainted.nil im v).congr (by simp)⟩
  | cons i l ih =>
    intro im hD
    obtain ⟨r, hr, hp⟩ := hf i (by simp) im hD
    obtain ⟨r', hr', hp'⟩ := ih (fun j hj => hf j (by simp [hj])) r (hp.1.trans hD)
    refine ⟨r', ?_, (hp.trans hp').congr (by simp)⟩
    rw [List.foldlM_cons, hr]
    exact hr'

theorem storePts_painted (v : α) (l : List IntPoint) (im : Img α) (hl : ∀ p ∈ l, Img.In im.dims p) :
    ∃ r, storePts v l im = some r ∧ IsPainted im v (· ∈ l) r := by
  obtain ⟨r, hr, hp⟩ := foldlM_painted v (storePx v) (fun p q => q = p) im.dims l
    (fun p hp b hb => storePx_painted v b (by rw [hb]; exact hl p hp)) im rfl
  exact ⟨r, hr, hp.congr (by simp)⟩

/-- A fold fails as soon as one of its steps fails, for steps that keep the size. -/
theorem foldlM_fails {ι : Type} (f : Img α → ι → Option (Img α)) (D : Dims) (hd : ∀ im i r, im.dims = D → f im i = some r → r.dims = D)
    (i : ι) (hf : ∀ im : Img α, im.dims = D → f im i = none) (l : List ι) (hi : i ∈ l) :
    ∀ im : Img α, im.dims = D → l.foldlM f im = none := by
  induction l with
  | nil => cases hi
  | cons j l ih =>
    intro im hD
    rw [List.foldlM_cons]
    rcases List.mem_cons.mp hi with rfl | h
    · rw [hf im hD]; rfl
    · cases hr : f im j with
      | none => rfl
      | some r => exact ih h r (hd im j r hD hr)

theorem storePx_dims (v : α) (im r : Img α) (p : IntPoint) (h : storePx v im p = some r) : r.dims = im.dims := by
  unfold storePx storeAt at h
  cases ho : lineAt im.dims p.z p.y with
  | none => rw [ho] at h; cases h
  | some o =>
    rw [ho] at h
    simp only [Option.bind_some] at h
    split at h
    · cases h; rfl
    · cases h

theorem storePts_none (v : α) (l : List IntPoint) (im : Img α) (p : IntPoint) (hp : p ∈ l)
    (h : lineAt im.dims p.z p.y = none) : storePts v l im = none := by
  refine foldlM_fails (storePx v) im.dims (fun b i r hb hr => (storePx_dims v b r i hr).trans hb) p ?_ l hp im rfl
  intro b hb
  unfold storePx
  rw [hb, h]; rfl

/-! ### The segment -/

theorem bresRun_length (A B : Int) : ∀ n F k, (bresRun A B n F k).length = n
  | 0, _, _ => rfl
  | n + 1, F, k => by
    unfold bresRun
    rw [List.length_cons]
    split <;> rw [bresRun_length A B n]

/-- The number of small steps after `j` large ones is `B j / A` rounded. -/
theorem bresRun_near {A B : Int} (hB : 0 ≤ B) (hA : B ≤ A) : ∀ n F k (j : Int), F = 2 * B * (j + 1) - A * (2 * k + 1) →
    -A < 2 * (B * j - A * k) → 2 * (B * j - A * k) ≤ A →
    ∀ (i : Nat) (m : Int), (bresRun A B n F k)[i]? = some m → -A < 2 * (B * (j + i) - A * m) ∧ 2 * (B * (j + i) - A * m) ≤ A
  | 0, _, _, _, _, _, _, i, m, h => by simp [bresRun] at h
  | n + 1, F, k, j, hF, h1, h2, i, m, h => by
    unfold bresRun at h
    cases i with
    | zero =>
      simp only [List.getElem?_cons_zero, Option.some.injEq] at h
      subst h
      simpa using ⟨h1, h2⟩
    | succ i =>
      rw [List.getElem?_cons_succ] at h
      by_cases hc : F ≤ 0
      · rw [if_pos hc] at h
        have := bresRun_near hB hA n (F + 2 * B) k (j + 1) (by rw [hF]; ring) (by nlinarith) (by nlinarith) i m h
        have e : j + 1 + (i : Int) = j + ((i + 1 : Nat) : Int) := by push_cast; ring
        rw [e] at this
        exact this
      · rw [if_neg hc] at h
        have := bresRun_near hB hA n (F + 2 * B - 2 * A) (k + 1) (j + 1) (by rw [hF]; ring) (by nlinarith) (by nlinarith) i m h
        have e : j + 1 + (i : Int) = j + ((i + 1 : Nat) : Int) := by push_cast; ring
        rw [e] at this
        exact this

/-- The run of the whole segment. -/
theorem bresRun_all {A B : Int} (hB : 0 ≤ B) (hA : B ≤ A) (h0 : 0 < A) :
    let l := bresRun A B (A + 1).toNat (2 * B - A) 0
    (∀ (i : Nat) (m : Int), l[i]? = some m → -A < 2 * (B * i - A * m) ∧ 2 * (B * i - A * m) ≤ A ∧ 0 ≤ m ∧ m ≤ B ∧ (i : Int) ≤ A) ∧
    l[0]? = some 0 ∧ l[l.length - 1]? = some B ∧
    ∀ (i : Nat) (m m' : Int), l[i]? = some m → l[i + 1]? = some m' → m' = m ∨ m' = m + 1 := by
  intro l
  have hlen : l.length = (A + 1).toNat := bresRun_length _ _ _ _ _
  have key : ∀ (i : Nat) (m : Int), l[i]? = some m → -A < 2 * (B * i - A * m) ∧ 2 * (B * i - A * m) ≤ A ∧ 0 ≤ m ∧ m ≤ B ∧ (i : Int) ≤ A := by
    intro i m h
    have hi : i < l.length := by
      by_contra hc
      rw [List.getElem?_eq_none (by omega)] at h; cases h
    have hiA : (i : Int) ≤ A := by omega
    have hi0 : (0 : Int) ≤ i := by positivity
    obtain ⟨a, b⟩ := bresRun_near hB hA (A + 1).toNat (2 * B - A) 0 0 (by ring) (by linarith) (by linarith) i m h
    rw [zero_add] at a b
    refine ⟨a, b, ?_, ?_, hiA⟩
    · by_contra hm
      have : m ≤ -1 := by omega
      nlinarith [mul_nonneg hB hi0]
    · by_contra hm
      have : B + 1 ≤ m := by omega
      nlinarith [mul_le_mul_of_nonneg_left hiA hB]
  refine ⟨key, ?_, ?_, ?_⟩
  · have : (A + 1).toNat = A.toNat + 1 := by omega
    simp only [l, this, bresRun, List.getElem?_cons_zero]
  · have hi : l.length - 1 < l.length := by omega
    obtain ⟨m, hm⟩ : ∃ m, l[l.length - 1]? = some m := ⟨_, List.getElem?_eq_getElem hi⟩
    obtain ⟨a, b, _, h3, _⟩ := key _ m hm
    rw [hm]
    have e : ((l.length - 1 : Nat) : Int) = A := by omega
    rw [e] at a b
    have : B - m < 1 := by
      by_contra hc
      nlinarith
    congr 1; omega
  · intro i m m' h h'
    obtain ⟨a, b, _⟩ := key i m h
    obtain ⟨a', b', _⟩ := key (i + 1) m' h'
    push_cast at a' b'
    have h1 : -1 < m' - m := by
      by_contra hc
      nlinarith
    have h2 : m' - m < 2 := by
      by_contra hc
      nlinarith
    omega

theorem getElem?_mapIdx_some {β γ : Type} (f : Nat → β → γ) (l : List β) (i : Nat) (c : γ) (h : (l.mapIdx f)[i]? = some c) :
    ∃ b, l[i]? = some b ∧ c = f i b := by
  rw [List.getElem?_mapIdx] at h
  cases hb : l[i]? with
  | none => rw [hb] at h; cases h
  | some b => rw [hb] at h; cases h; exact ⟨b, rfl, rfl⟩

/-- From a run to a segment. -/
theorem segment_of_run {A B : Int} (hB : 0 ≤ B) (hA : B ≤ A) (h0 : 0 < A) (f : Nat → Int → IntPoint) (p q : IntPoint)
    (hl : segLen p q = A) (hp : f 0 0 = p) (hq : f A.toNat B = q)
    (hs : ∀ (i : Nat) (m m' : Int), (m' = m ∨ m' = m + 1) → f i m ≠ f (i + 1) m' ∧ |(f (i + 1) m').x - (f i m).x| ≤ 1 ∧ |(f (i + 1) m').y - (f i m).y| ≤ 1)
    (hn : ∀ (i : Nat) (m : Int), |(q.x - p.x) * ((f i m).y - p.y) - (q.y - p.y) * ((f i m).x - p.x)| = |B * i - A * m|)
    (hb : ∀ (i : Nat) (m : Int), 0 ≤ m → m ≤ B → (i : Int) ≤ A → min p.x q.x ≤ (f i m).x ∧ (f i m).x ≤ max p.x q.x ∧ min p.y q.y ≤ (f i m).y ∧ (f i m).y ≤ max p.y q.y)
    (hz : ∀ i m, (f i m).z = 0) :
    IsSegment p q ((bresRun A B (A + 1).toNat (2 * B - A) 0).mapIdx f) := by
  obtain ⟨h1, h2, h3, h4⟩ := bresRun_all hB hA h0
  have hlen : (bresRun A B (A + 1).toNat (2 * B - A) 0).length = (A + 1).toNat := bresRun_length _ _ _ _ _
  refine ⟨?_, ?_, ?_, ?_, ?_, ?_, ?_⟩
  · rw [List.length_mapIdx, hlen, hl]; omega
  · rw [List.getElem?_mapIdx, h2]; simp [hp]
  · rw [List.length_mapIdx, List.getElem?_mapIdx, h3]
    have : (bresRun A B (A + 1).toNat (2 * B - A) 0).length - 1 = A.toNat := by omega
    simp [this, hq]
  · intro i a b ha hb'
    obtain ⟨m, hm, rfl⟩ := getElem?_mapIdx_some _ _ _ _ ha
    obtain ⟨m', hm', rfl⟩ := getElem?_mapIdx_some _ _ _ _ hb'
    exact hs i m m' (h4 i m m' hm hm')
  · intro a ha
    obtain ⟨i, hi⟩ := List.getElem?_of_mem ha
    obtain ⟨m, hm, rfl⟩ := getElem?_mapIdx_some _ _ _ _ hi
    obtain ⟨k1, k2, _⟩ := h1 i m hm
    rw [hn, hl]
    have : |B * i - A * m| * 2 ≤ A := by
      rcases abs_cases (B * i - A * m) with ⟨e, _⟩ | ⟨e, _⟩ <;> rw [e] <;> linarith
    linarith
  · intro a ha
    obtain ⟨i, hi⟩ := List.getElem?_of_mem ha
    obtain ⟨m, hm, rfl⟩ := getElem?_mapIdx_some _ _ _ _ hi
    obtain ⟨_, _, k3, k4, k5⟩ := h1 i m hm
    exact hb i m k3 k4 k5
  · intro a ha
    obtain ⟨i, hi⟩ := List.getElem?_of_mem ha
    obtain ⟨m, hm, rfl⟩ := getElem?_mapIdx_some _ _ _ _ hi
    exact hz i m

theorem bresSlope_segment {x1 y1 x2 y2 : Int} (hx : x1 < x2) (hy : y1 ≠ y2) :
    IsSegment ⟨x1, y1, 0⟩ ⟨x2, y2, 0⟩ (bresSlope x1 y1 x2 y2) := by
  unfold bresSlope
  dsimp only
  by_cases h1 : 0 ≤ y2 - y1
  · rw [if_pos h1]
    by_cases h2 : y2 - y1 ≤ x2 - x1
    · rw [if_pos h2]
      refine segment_of_run h1 h2 (by omega) (fun i k => ⟨x1 + i, y1 + k, 0⟩) _ _ ?_ ?_ ?_ ?_ ?_ ?_ ?_
      · unfold segLen; dsimp only; rw [abs_of_nonneg h1, abs_of_pos (by omega)]; omega
      · simp
      · congr 1 <;> omega
      · intro i m m' h
        dsimp only
        refine ⟨fun e => ?_, ?_, ?_⟩
        · have := congrArg IntPoint.x e; dsimp only at this; omega
        · rw [abs_le]; omega
        · rw [abs_le]; omega
      · intro i m
        dsimp only
        rw [← abs_neg]; congr 1; ring
      · intro i m a b c; dsimp only; omega
      · intros; rfl
    · rw [if_neg h2]
      refine segment_of_run (by omega) (by omega) (by omega) (fun i k => ⟨x1 + k, y1 + i, 0⟩) _ _ ?_ ?_ ?_ ?_ ?_ ?_ ?_
      · unfold segLen; dsimp only; rw [abs_of_nonneg h1, abs_of_pos (by omega)]; omega
      · simp
      · congr 1 <;> omega
      · intro i m m' h
        dsimp only
        refine ⟨fun e => ?_, ?_, ?_⟩
        · have := congrArg IntPoint.y e; dsimp only at this; omega
        · rw [abs_le]; omega
        · rw [abs_le]; omega
      · intro i m
        dsimp only
        congr 1; ring
      · intro i m a b c; dsimp only; omega
      · intros; rfl
  · rw [if_neg h1]
    by_cases h2 : -(y2 - y1) ≤ x2 - x1
    · rw [if_pos h2]
      have e : -(2 * (y2 - y1)) - (x2 - x1) = 2 * (-(y2 - y1)) - (x2 - x1) := by ring
      rw [e]
      refine segment_of_run (by omega) h2 (by omega) (fun i k => ⟨x1 + i, y1 - k, 0⟩) _ _ ?_ ?_ ?_ ?_ ?_ ?_ ?_
      · unfold segLen; dsimp only; rw [abs_of_neg (show y2 - y1 < 0 by omega), abs_of_pos (show 0 < x2 - x1 by omega)]; omega
      · simp
      · congr 1 <;> omega
      · intro i m m' h
        dsimp only
        refine ⟨fun e => ?_, ?_, ?_⟩
        · have := congrArg IntPoint.x e; dsimp only at this; omega
        · rw [abs_le]; omega
        · rw [abs_le]; omega
      · intro i m
        dsimp only
        congr 1; ring
      · intro i m a b c; dsimp only; omega
      · intros; rfl
    · rw [if_neg h2]
      have e : 2 * (x2 - x1) + (y2 - y1) = 2 * (x2 - x1) - (-(y2 - y1)) := by ring
      rw [e]
      refine segment_of_run (by omega) (by omega) (by omega) (fun i k => ⟨x1 + k, y1 - i, 0⟩) _ _ ?_ ?_ ?_ ?_ ?_ ?_ ?_
      · unfold segLen; dsimp only; rw [abs_of_neg (show y2 - y1 < 0 by omega), abs_of_pos (show 0 < x2 - x1 by omega)]; omega
      · simp
      · congr 1 <;> omega
      · intro i m m' h
        dsimp only
        refine ⟨fun e => ?_, ?_, ?_⟩
        · have := congrArg IntPoint.y e; dsimp only at this; omega
        · rw [abs_le]; omega
        · rw [abs_le]; omega
      · intro i m
        dsimp only
        rw [← abs_neg]; congr 1; ring
      · intro i m a b c; dsimp only; omega
      · intros; rfl

theorem segLen_comm (p q : IntPoint) : segLen q p = segLen p q := by
  unfold segLen; rw [abs_sub_comm p.x, abs_sub_comm p.y]

theorem IsSegment.reverse {p q : IntPoint} {l : List IntPoint} (h : IsSegment p q l) : IsSegment q p l.reverse := by
  have hpos : 0 < l.length := by
    have := h.len
    have : 0 ≤ segLen p q := le_max_of_le_left (abs_nonneg _)
    omega
  refine ⟨?_, ?_, ?_, ?_, ?_, ?_, ?_⟩
  · rw [List.length_reverse, segLen_comm]; exact h.len
  · rw [List.getElem?_reverse hpos]; simpa using h.last
  · rw [List.length_reverse, List.getElem?_reverse (by omega)]
    have : l.length - 1 - (l.length - 1) = 0 := by omega
    rw [this]; exact h.first
  · intro i a b ha hb
    have hi : i + 1 < l.length := by
      by_contra hc
      rw [List.getElem?_eq_none (by rw [List.length_reverse]; omega)] at hb; cases hb
    rw [List.getElem?_reverse (by omega)] at ha
    rw [List.getElem?_reverse hi] at hb
    have e : l.length - 1 - i = l.length - 1 - (i + 1) + 1 := by omega
    rw [e] at ha
    obtain ⟨h1, h2, h3⟩ := h.step _ _ _ hb ha
    exact ⟨h1.symm, by rwa [abs_sub_comm], by rwa [abs_sub_comm]⟩
  · intro a ha
    have := h.near a (List.mem_reverse.mp ha)
    rw [segLen_comm]
    refine le_of_eq_of_le ?_ this
    congr 1
    rw [← abs_neg]; congr 1; ring
  · intro a ha
    have := h.box a (List.mem_reverse.mp ha)
    rw [min_comm q.x, max_comm q.x, min_comm q.y, max_comm q.y]; exact this
  · exact fun a ha => h.plane a (List.mem_reverse.mp ha)

theorem vertical_segment (x ya yb : Int) (h : ya ≤ yb) :
    IsSegment ⟨x, ya, 0⟩ ⟨x, yb, 0⟩ ((List.range (yb - ya + 1).toNat).map fun (i : Nat) => (⟨x, ya + i, 0⟩ : IntPoint)) := by
  have hL : segLen ⟨x, ya, 0⟩ ⟨x, yb, 0⟩ = yb - ya := by
    unfold segLen; dsimp only; rw [sub_self, abs_zero, abs_of_nonneg (by omega)]; omega
  have hm : ∀ a ∈ ((List.range (yb - ya + 1).toNat).map fun (i : Nat) => (⟨x, ya + i, 0⟩ : IntPoint)),
      a.x = x ∧ ya ≤ a.y ∧ a.y ≤ yb ∧ a.z = 0 := by
    intro a ha
    obtain ⟨i, hi, rfl⟩ := List.mem_map.mp ha
    have := List.mem_range.mp hi
    dsimp only; omega
  refine ⟨?_, ?_, ?_, ?_, ?_, ?_, ?_⟩
  · rw [hL]; simp; omega
  · rw [List.getElem?_map, List.getElem?_range (by omega)]; simp
  · rw [List.length_map, List.length_range, List.getElem?_map, List.getElem?_range (by omega)]
    simp only [Option.map_some, Option.some.injEq]
    congr 1; omega
  · intro i a b ha hb
    rw [List.getElem?_map] at ha hb
    by_cases hi : i + 1 < (yb - ya + 1).toNat
    · rw [List.getElem?_range (by omega)] at ha hb
      simp only [Option.map_some, Option.some.injEq] at ha hb
      subst ha; subst hb
      dsimp only
      refine ⟨fun e => ?_, by simp, ?_⟩
      · have := congrArg IntPoint.y e; dsimp only at this; omega
      · rw [abs_le]; omega
    · rw [List.getElem?_eq_none (by rw [List.length_range]; omega)] at hb; cases hb
  · intro a ha
    obtain ⟨h1, h2, h3, _⟩ := hm a ha
    rw [hL, h1]; simp; omega
  · intro a ha
    obtain ⟨h1, h2, h3, _⟩ := hm a ha
    dsimp only; omega
  · exact fun a ha => (hm a ha).2.2.2

theorem horizontal_segment (y xa xb : Int) (h : xa ≤ xb) :
    IsSegment ⟨xa, y, 0⟩ ⟨xb, y, 0⟩ ((List.range (xb - xa + 1).toNat).map fun (i : Nat) => (⟨xa + i, y, 0⟩ : IntPoint)) := by
  have hL : segLen ⟨xa, y, 0⟩ ⟨xb, y, 0⟩ = xb - xa := by
    unfold segLen; dsimp only; rw [sub_self, abs_zero, abs_of_nonneg (by omega)]; omega
  have hm : ∀ a ∈ ((List.range (xb - xa + 1).toNat).map fun (i : Nat) => (⟨xa + i, y, 0⟩ : IntPoint)),
      a.y = y ∧ xa ≤ a.x ∧ a.x ≤ xb ∧ a.z = 0 := by
    intro a ha
    obtain ⟨i, hi, rfl⟩ := List.mem_map.mp ha
    have := List.mem_range.mp hi
    dsimp only; omega
  refine ⟨?_, ?_, ?_, ?_, ?_, ?_, ?_⟩
  · rw [hL]; simp; omega
  · rw [List.getElem?_map, List.getElem?_range (by omega)]; simp
  · rw [List.length_map, List.length_range, List.getElem?_map, List.getElem?_range (by omega)]
    simp only [Option.map_some, Option.some.injEq]
    congr 1; omega
  · intro i a b ha hb
    rw [List.getElem?_map] at ha hb
    by_cases hi : i + 1 < (xb - xa + 1).toNat
    · rw [List.getElem?_range (by omega)] at ha hb
      simp only [Option.map_some, Option.some.injEq] at ha hb
      subst ha; subst hb
      dsimp only
      refine ⟨fun e => ?_, ?_, by simp⟩
      · have := congrArg IntPoint.x e; dsimp only at this; omega
      · rw [abs_le]; omega
    · rw [List.getElem?_eq_none (by rw [List.length_range]; omega)] at hb; cases hb
  · intro a ha
    obtain ⟨h1, h2, h3, _⟩ := hm a ha
    rw [hL, h1]; simp; omega
  · intro a ha
    obtain ⟨h1, h2, h3, _⟩ := hm a ha
    dsimp only; omega
  · exact fun a ha => (hm a ha).2.2.2

end Smil
