import Verif.MaxTree

/-!
# The ultimate opening by max-tree

Morpho/include/private/DMorphoMaxTree.hpp:421-635. The model is that of unsigned pixel types. The recursions are loops
with fuel, as in `MaxTree`.
-/

namespace Smil
variable {M : Type}

/-- `compute_max`, DMorphoMaxTree.hpp:479-540, on the node `c` and its brothers; `mt`, `mi`, `hp`, `vp`, `pv` are
`max_tr`, `max_in`, `hauteur_parent`, `valeur_parent`, `previous_value`. The pages `transformee_node` and
`indicatrice_node` are one function with values in pairs. The two branches of lines 520-524 are the same. -/
def mtMax (t u : PT) (K : MTCrit M) (T : MTree M) (stop : Int) :
    Nat → Nat → Int → Int → Int → Int → Int → (Nat → Int × Int) → Option (Nat → Int × Int)
  | 0, _, _, _, _, _, _, _ => none
  | fuel + 1, c, mt, mi, hp, vp, pv, out =>
    if c = 0 then some out
    else
      let h := (u.wrap (K.val (T.crit c))).val
      let m := (t.wrap (if h = hp then T.lev c - pv else T.lev c - vp)).val
      let r : Int × Int := if stop ≤ h then (mt, 0) else if mt < m then (m, h) else (mt, mi)
      let o : Int × Int := (r.1, if stop ≤ h then 0 else (u.wrap (r.2 + 1)).val)
      (mtMax t u K T stop fuel (T.child c) r.1 r.2 h (T.lev c) (if h = hp then pv else vp)
        (Function.update out c o)).bind (mtMax t u K T stop fuel (T.bro c) mt mi hp vp pv)

/-- `ComputeDeltaUO`, DMorphoMaxTree.hpp:422-478, on the node `c` and its brothers, children of `node`. The attributes
are converted to `UINT` and subtracted in `UINT`. -/
def mtDelta (t u : PT) (K : MTCrit M) (T : MTree M) (stop : Int) (delta : Nat) :
    Nat → Nat → Nat → Int → Bool → (Nat → Int × Int) → Option (Nat → Int × Int)
  | 0, _, _, _, _, _ => none
  | fuel + 1, node, c, prev, isPrev, out =>
    if c = 0 then some out
    else
      let cN : Nat := K.val (T.crit c) % 2 ^ 32
      let cP : Nat := K.val (T.crit node) % 2 ^ 32
      let flag : Bool := decide ((((cP : Int) - cN) % 2 ^ 32).toNat ≤ delta)
      let res := (t.wrap (if flag then prev + T.lev c - T.lev node else T.lev c - T.lev node)).val
      let o := out node
      let isMax : Bool := decide ((cN : Int) < stop ∧ o.1 < res)
      let tr := if isMax then res else o.1
      let ind := if (cN : Int) < stop then
        (if isMax && !(isPrev && flag) then (u.wrap (cN + 1)).val else o.2) else 0
      (mtDelta t u K T stop delta fuel c (T.child c) res isMax (Function.update out c (tr, ind))).bind
        (mtDelta t u K T stop delta fuel node (T.bro c) prev isPrev)

/-- `compute_contrast`, DMorphoMaxTree.hpp:542-576. The two pages are zeroed (lines 611-612). -/
def mtContrast (t u : PT) (K : MTCrit M) (T : MTree M) (root : Nat) (stop : Int) (delta : Nat) :
    Option (Nat → Int × Int) :=
  if delta = 0 then
    mtMax t u K T stop T.cur (T.child root) 0 0 (u.wrap (K.val (T.crit root))).val (T.lev root) (T.lev root)
      (fun _ => (0, 0))
  else mtDelta t u K T stop delta T.cur root (T.child root) 0 false (fun _ => (0, 0))

/-- `build`, DMorphoMaxTree.hpp:372-379, `compute_contrast`, and the values at the offsets, lines 620-624. -/
def mtUltimate (t u : PT) (K : MTCrit M) (C : MTCfg) (top : Nat) (stop : Int) (delta : Nat) :
    Option (Nat → Int × Int) := do
  let s ← mtRun K C top
  let root := s.labels (mtMin C top).1
  let crit ← mtCriteria K s.tree s.tree.cur root (s.tree.child root) s.tree.crit
  let T : MTree M := ⟨s.tree.lev, s.tree.child, s.tree.bro, crit, s.tree.cur⟩
  let out ← mtContrast t u K T root stop delta
  pure fun i => out (s.eti i)

/-- The checks of `ultimateOpen`, DMorphoMaxTree.hpp:597-598. -/
def checkTwoOut (auto : Bool) (di d1 d2 : Dims) : Except Int Unit :=
  if di.count = 0 ∨ d1.count = 0 ∨ d2.count = 0 then .error errBadAllocation
  else if d1 = di ∧ d2 = di then .ok ()
  else if auto then .ok ()
  else .error errBadSize

/-- `ultimateOpen`, DMorphoMaxTree.hpp:593-635: `t` is the type of the input and of the residue, `u` that of the
indicator and of `stopSize`; 0 stands for the height of the image less 1 (lines 600-601). The residue and the indicator
are two images; they are written after the last read of the input. -/
def ultimateOpen {t u : PT} (auto : Bool) (se : StrElt) (stop : Px u) (delta : Nat) (im : Img (Px t))
    (d1 d2 : Dims) : Option (Except Int (Img (Px t) × Img (Px u))) :=
  match checkTwoOut auto im.dims d1 d2 with
  | .error c => some (.error c)
  | .ok _ => do
    let nbr ← cardT t
    let st := if stop.val = 0 then (u.wrap ((im.dims.h : Int) - 1)).val else stop.val
    let o ← mtUltimate t u heightCrit (mtCfg nbr se im) t.hi.toNat st delta
    pure (.ok (⟨im.dims, fun i => t.wrap (o i).1⟩, ⟨im.dims, fun i => u.wrap (o i).2⟩))

end Smil
