import Verif.Otsu
import Verif.Lookup
import Verif.Convolve

/-!
# The method of Otsu with several thresholds

Base/include/private/DImageHistogram.hpp:549-733 and 792-815. Simplification: as in `Verif.Otsu`, the numbers held in `double` are
rational numbers.
-/

namespace Smil

section
variable {t : PT}

/-- The variables of the search with several thresholds: `thresholdIndexes`, the map (the operator `[]` creates entries),
`classFrequency` and `classMean`. -/
structure MSt (t : PT) where
  idx : Nat → Nat
  hist : List (Px t × Nat)
  f : Nat → ℚ
  m : Nat → ℚ

/-- An assignment to one cell of a vector. -/
def upd {β : Type} (g : Nat → β) (i : Nat) (v : β) : Nat → β := fun j => if j = i then v else g j

/-- The increment of threshold `j` and the update of its class, DImageHistogram.hpp:572-592. -/
def multiBump (j : Nat) (s : MSt t) : MSt t :=
  let x := s.idx j + 1
  let key := t.wrap (x : Int)
  let hist := mapIns key 0 s.hist
  let c : ℚ := mapAt key hist
  let f := s.f j + c
  ⟨upd s.idx j x, hist, upd s.f j f,
    upd s.m j (if f > 0 then (s.m j * s.f j + x * c) / f else 0)⟩

/-- One turn of the loop that sets the higher thresholds, DImageHistogram.hpp:596-604. -/
def multiNext (s : MSt t) (k : Nat) : MSt t :=
  let x := s.idx (k - 1) + 1
  let key := t.wrap (x : Int)
  let hist := mapIns key 0 s.hist
  let c : ℚ := mapAt key hist
  ⟨upd s.idx k x, hist, upd s.f k c, upd s.m k (if c > 0 then (x : ℚ) else 0)⟩

/-- The update of the highest class, DImageHistogram.hpp:607-621. -/
def multiLast (gm tot : ℚ) (K : Nat) (s : MSt t) : MSt t :=
  let f := (List.range K).foldl (fun r k => r - s.f k) tot
  let m := (List.range K).foldl (fun r k => r - s.m k * s.f k) (gm * tot)
  ⟨s.idx, s.hist, upd s.f K f, upd s.m K (if f > 0 then m / f else 0)⟩

/-- The loop over the thresholds from the last one, DImageHistogram.hpp:567-633: the first argument is `j + 1`. The bound of
lines 570-571 is computed in `unsigned long`, with the size of the map at the start of the call. `none`: the
function returns `false`. -/
def multiTry (gm tot : ℚ) (K bins : Nat) : Nat → MSt t → Option (MSt t)
  | 0, _ => none
  | j + 1, s =>
    if s.idx j < sizeT ((bins : Int) - 2 - ((K : Int) - 1 - j)) then
      some (multiLast gm tot K ((List.range' (j + 1) (K - 1 - j)).foldl multiNext (multiBump j s)))
    else multiTry gm tot K bins j s

/-- `IncrementThresholds`, DImageHistogram.hpp:549-636: without any threshold the loop is not entered and the function returns
`true`. -/
def multiInc (gm tot : ℚ) (K : Nat) (s : MSt t) : Option (MSt t) :=
  if K = 0 then some s else multiTry gm tot K s.hist.length K s

/-- The variance between the classes, DImageHistogram.hpp:701-705 and 713-717. -/
def multiVar (gm : ℚ) (K : Nat) (s : MSt t) : ℚ :=
  (List.range (K + 1)).foldl (fun r j => r + s.f j * (gm - s.m j) * (gm - s.m j)) 0

/-- The first configuration, DImageHistogram.hpp:664-699. -/
def multiInit (gm tot : ℚ) (K : Nat) (hist : List (Px t × Nat)) : MSt t :=
  let h := (List.range K).foldl (fun m (j : Nat) => mapIns (t.wrap (j : Int)) 0 m) hist
  let f : Nat → ℚ := fun j => (mapAt (t.wrap (j : Int)) h : ℚ)
  let m : Nat → ℚ := fun j => if f j > 0 then (j : ℚ) else 0
  let fl := tot - (List.range K).foldl (fun r k => r + f k) 0
  let ml := gm * tot - (List.range K).foldl (fun r k => r + m k * f k) 0
  ⟨fun j => j, h, upd f K fl, upd m K (if fl > 0 then ml / fl else 0)⟩

/-- The loop of lines 709-723, with the best configuration and its variance. The first argument bounds the number of turns. -/
def multiLoop (gm tot : ℚ) (K : Nat) : Nat → MSt t → (Nat → Nat) × ℚ → (Nat → Nat) × ℚ
  | 0, _, r => r
  | n + 1, s, r => match multiInc gm tot K s with
    | none => r
    | some s' =>
      multiLoop gm tot K n s' (if multiVar gm K s' > r.2 then (s'.idx, multiVar gm K s') else r)

/-- `otsuThresholdValues(hist, threshLevels)`, DImageHistogram.hpp:646-723, with a bound on the number of turns: the best
configuration and its variance. -/
def multiSearch (n K : Nat) (hist : List (Px t × Nat)) : (Nat → Nat) × ℚ :=
  let tot : ℚ := (hist.map fun e => (e.2 : ℚ)).sum
  let gm : ℚ := (hist.map fun e => (e.1.val : ℚ) * (e.2 : ℚ)).sum / tot
  let s := multiInit gm tot K hist
  multiLoop gm tot K n s (fun j => j, multiVar gm K s)

/-- The values returned, DImageHistogram.hpp:725-733: the thresholds, then the variance. The conversion of a `double` to `T` is
undefined if the integer part is not a value of `T`. -/
def multiValues (n K : Nat) (hist : List (Px t × Nat)) : Option (List (Px t)) := do
  let r := multiSearch n K hist
  let l ← (List.range K).mapM fun j => convToPx t (r.1 j : ℚ)
  let v ← convToPx t r.2
  pure (l ++ [v])

/-- `while (i < *it) { lut[i] = lbl; i++; }`, DImageHistogram.hpp:806-809. The keys come in increasing order. -/
def lutWhile {t2 : PT} (stop : Px t) (lbl : Px t2) : Nat → Px t → LutMap t t2 → Option (Px t × LutMap t t2)
  | 0, i, m => some (i, m)
  | n + 1, i, m => if i < stop then (incrT i).bind fun j => lutWhile stop lbl n j (m ++ [(i, lbl)]) else some (i, m)

/-- `while (i <= max && i > min) { lut[i] = lbl; i++; }`, DImageHistogram.hpp:811-814. -/
def lutTail {t2 : PT} (lbl : Px t2) : Nat → Px t → LutMap t t2 → Option (LutMap t t2)
  | 0, _, m => some m
  | n + 1, i, m => if i ≤ ⊤ ∧ i > ⊥ then (incrT i).bind fun j => lutTail lbl n j (m ++ [(i, lbl)]) else some m

/-- The table of `otsuThreshold(imIn, imOut, nbrThresholds)`, DImageHistogram.hpp:800-814. -/
def multiLut {t2 : PT} (tv : List (Px t)) : Option (LutMap t t2) := do
  let r ← tv.foldlM (fun (s : (Px t × LutMap t t2) × Px t2) v => do
    let q ← lutWhile v s.2 t.card.toNat s.1.1 s.1.2
    let l ← incrT s.2
    pure (q, l)) ((⊥, []), t2.wrap 0)
  lutTail r.2 t.card.toNat r.1.1 r.1.2

/-- `otsuThreshold(imIn, imOut, nbrThresholds)`, DImageHistogram.hpp:792-817: the vector returned, and the output if it is
written. The code returned by `applyLookup` is not looked at. -/
def otsuMulti {t2 : PT} (auto : Bool) (raw : Nat → Px t2) (n K : Nat) (im : Img (Px t)) (dout : Dims) :
    Option (List (Px t) × Option (Img (Px t2))) :=
  if im.dims.count = 0 ∨ dout.count = 0 then some ([], none)
  else do
    let h ← histMap false im
    let tv ← multiValues n K h
    let m ← multiLut tv
    pure (tv, (applyLookupMap auto raw m (t2.wrap 0) im dout).toOption)

end

end Smil
