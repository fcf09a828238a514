import Verif.Watershed

/-!
# Watershed without markers, and waterfall

Model of `minimaLabeled`, of `watershed` without markers and of the two functions `waterfall`
(Morpho/include/private/DMorphoWatershed.hpp:424-436, 533-578). Not modelled: calls in which an output
image is also the relief (`imOut` = `imIn`, `imGradOut` = `gradIn`, `imWsOut` = `gradIn`).
-/

namespace Smil
variable {t : PT}

/-- `minimaLabeled` into a new image of the same size, Morpho/include/private/DMorphoExtrema.hpp:109-123;
the return codes of `minima` and `label` are ignored. `M`: maximum of the label type; `raw`: pixels of a
new label image. -/
def minimaLabeled (E : Env (Px t)) (raw : Nat → Nat) (M : Nat) (se : StrElt) (im : Img (Px t)) :
    Option (Img Nat) :=
  (minima E false se im ⟨im.dims, E.raw⟩).bind fun r =>
    let m : Img (Px t) := match r with | .ok m => m | .error _ => ⟨im.dims, E.raw⟩
    (label E.auto M false se se m im.dims).map fun r =>
      match r with | .ok l => l.2 | .error _ => ⟨im.dims, raw⟩

/-- `watershed(imIn, imOut, se)`, DMorphoWatershed.hpp:424-436, followed by
`watershed(imIn, imMarkers, imOut, se)`, DMorphoWatershed.hpp:413-422, where the basins are a new image.
`dout`: size of the output before the call (only `imIn` is checked for allocation). The labels are `UINT`
in the code, `M` is its maximum. -/
def watershedMinima (E : Env (Px t)) (raw : Nat → Nat) (M : Nat) (se : StrElt) (im : Img (Px t))
    (dout : Dims) : Option (Except Int (Img (Px t))) :=
  if im.dims.count = 0 then some (.error errBadAllocation)
  else if ¬ E.auto ∧ dout ≠ im.dims then some (.error errBadSize)
  else
    (minimaLabeled E raw M se im).bind fun l =>
      (watershed E.auto raw se im l im.dims im.dims).map fun r => r.map Prod.fst

/-- `waterfall(gradIn, wsIn, imGradOut, imWsOut, se)`, DMorphoWatershed.hpp:533-550: the new relief and
the new line. `dg`, `dw`: sizes of the outputs before the call (`wsIn` may be `imWsOut`). The return
codes of `test`, `dualBuild` and `watershed` are ignored: then the outputs keep their pixels. -/
def waterfall (E : Env (Px t)) (raw : Nat → Nat) (M : Nat) (se : StrElt) (grad ws : Img (Px t))
    (dg dw : Dims) : Option (Except Int (Img (Px t) × Img (Px t))) :=
  if grad.dims.count = 0 ∨ ws.dims.count = 0 ∨ dg.count = 0 ∨ dw.count = 0 then
    some (.error errBadAllocation)
  else if ¬ E.auto ∧ ¬ (ws.dims = grad.dims ∧ dg = grad.dims ∧ dw = grad.dims) then
    some (.error errBadSize)
  else
    let ws' : Img (Px t) := if ws.dims = grad.dims then ws else ⟨grad.dims, E.raw⟩
    let f : Img (Px t) := Img.zipF (fun w a => kTest w a (t.wrap t.hi)) ws' grad
    (dualBuild E false se f grad ⟨grad.dims, E.raw⟩).bind fun r =>
      let g : Img (Px t) := match r with | .ok g => g | .error _ => ⟨grad.dims, E.raw⟩
      (watershedMinima E raw M se g grad.dims).map fun r =>
        match r with | .ok w => .ok (g, w) | .error _ => .ok (g, f)

/-- The loop of `waterfall(gradIn, nLevel, imWsOut, se)`, DMorphoWatershed.hpp:571-574: `grad` is
`tmpGradIm`, `ws` is `imWsOut`. -/
def waterfallLoop (E : Env (Px t)) (raw : Nat → Nat) (M : Nat) (se : StrElt) :
    Nat → Img (Px t) → Img (Px t) → Option (Img (Px t))
  | 0, _, ws => some ws
  | n + 1, grad, ws =>
    (waterfall E raw M se grad ws grad.dims ws.dims).bind fun r =>
      match r with
      | .ok r => waterfallLoop E raw M se n r.1 r.2
      | .error _ => waterfallLoop E raw M se n ⟨grad.dims, E.raw⟩ ws

/-- `waterfall(gradIn, nLevel, imWsOut, se)`, DMorphoWatershed.hpp:556-577. `out`: the output before the
call. -/
def waterfallN (E : Env (Px t)) (raw : Nat → Nat) (M : Nat) (se : StrElt) (n : Nat)
    (grad out : Img (Px t)) : Option (Except Int (Img (Px t))) :=
  match checkSize E grad out with
  | .error c => some (.error c)
  | .ok o =>
    (watershedMinima E raw M se grad grad.dims).bind fun r =>
      let ws : Img (Px t) := match r with | .ok w => w | .error _ => o
      (waterfallLoop E raw M se n grad ws).map .ok

end Smil
