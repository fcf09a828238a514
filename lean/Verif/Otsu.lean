import Verif.Histogram
import Mathlib.Algebra.Order.Ring.Rat
import Mathlib.Data.Rat.Floor

/-!
# The threshold of Otsu

Base/include/private/DImageHistogram.hpp:549-733 and 826-835 for one threshold (`threshLevels = 1`).
Simplification: frequencies, means and variances, which the code holds in `double`, are rational numbers.
-/

namespace Smil

section
variable {t : PT}

/-- `hist[k]` on a `map<T, UINT>`, after the entry has been created. -/
def mapAt (k : Px t) (m : List (Px t × Nat)) : Nat := ((m.find? fun e => e.1 = k).map (·.2)).getD 0

/-- The variables of the search: `thresholdIndexes[0]`, the map (the operator `[]` creates entries),
`classFrequency`, `classMean`, `maxVarThresholdIndexes[0]` and `maxVarBetween`. -/
structure OtsuSt (t : PT) where
  idx : Nat
  hist : List (Px t × Nat)
  f0 : ℚ
  f1 : ℚ
  m0 : ℚ
  m1 : ℚ
  best : Nat
  bestVar : ℚ

/-- `varBetween`, DImageHistogram.hpp:701-705 and 713-717. -/
def otsuVar (gm f0 f1 m0 m1 : ℚ) : ℚ := f0 * (gm - m0) * (gm - m0) + f1 * (gm - m1) * (gm - m1)

/-- `IncrementThresholds`, DImageHistogram.hpp:549-628, followed by the body of the loop of lines 709-723.
`none`: the threshold cannot be incremented. The bound of lines 570-571 is computed in
`unsigned long`. -/
def otsuStep (gm tot : ℚ) (s : OtsuSt t) : Option (OtsuSt t) :=
  if s.idx < sizeT ((s.hist.length : Int) - 2) then
    let i := s.idx + 1
    let k := t.wrap (i : Int)
    let hist := mapIns k 0 s.hist
    let c : ℚ := mapAt k hist
    let f0 := s.f0 + c
    let m0 := if f0 > 0 then (s.m0 * s.f0 + i * c) / f0 else 0
    let f1 := tot - f0
    let m1 := if f1 > 0 then (gm * tot - m0 * f0) / f1 else 0
    let v := otsuVar gm f0 f1 m0 m1
    if v > s.bestVar then some ⟨i, hist, f0, f1, m0, m1, i, v⟩
    else some ⟨i, hist, f0, f1, m0, m1, s.best, s.bestVar⟩
  else none

/-- The loop; the first argument bounds the number of turns. -/
def otsuLoop (gm tot : ℚ) : Nat → OtsuSt t → OtsuSt t
  | 0, s => s
  | n + 1, s => match otsuStep gm tot s with
    | none => s
    | some s' => otsuLoop gm tot n s'

/-- The initial state, DImageHistogram.hpp:664-705. -/
def otsuInit (gm tot : ℚ) (hist : List (Px t × Nat)) : OtsuSt t :=
  let h := mapIns (t.wrap 0) 0 hist
  let f0 : ℚ := mapAt (t.wrap 0) h
  let f1 := tot - f0
  let m0 : ℚ := 0
  let m1 := if f1 > 0 then (gm * tot - m0 * f0) / f1 else 0
  ⟨0, h, f0, f1, m0, m1, 0, otsuVar gm f0 f1 m0 m1⟩

/-- `otsuThresholdValues(hist, 1)`, DImageHistogram.hpp:646-733, before the conversions to `T`: the
threshold and the variance. A histogram without any pixel, for which the code divides by zero, is outside
the model. -/
def otsuSearch (hist : List (Px t × Nat)) : Nat × ℚ :=
  let tot : ℚ := (hist.map fun e => (e.2 : ℚ)).sum
  let gm : ℚ := (hist.map fun e => (e.1.val : ℚ) * (e.2 : ℚ)).sum / tot
  let s := otsuLoop gm tot (t.card.toNat + 2) (otsuInit gm tot hist)
  (s.best, s.bestVar)

/-- The values returned, DImageHistogram.hpp:724-732: the conversion of a `double` to `T` is undefined
if the integer part is not a value of `T`. -/
def otsuValues (hist : List (Px t × Nat)) : Option (Px t × Px t) :=
  let r := otsuSearch hist
  if ⌊r.2⌋ ≤ t.hi then some (t.wrap (r.1 : Int), t.wrap ⌊r.2⌋) else none

/-- `otsuThreshold(imIn, imOut)`, DImageHistogram.hpp:826-835. The conversion of the variance, which is not
used, is left out. -/
def otsuThreshold {t2 : PT} (auto : Bool) (im : Img (Px t)) (dout : Dims) :
    Option (Px t × Option (Img (Px t2))) :=
  if im.dims.count = 0 ∨ dout.count = 0 then some (⊥, none)
  else do
    let h ← histMap false im
    let k := t.wrap ((otsuSearch h).1 : Int)
    pure (k, (threshold1 auto im k dout).toOption)

end

end Smil
