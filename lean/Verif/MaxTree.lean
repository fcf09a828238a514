import Verif.Flood
import Verif.Label
import Verif.Histogram
import Verif.Residues

/-!
# Attribute openings by max-tree

Morpho/include/private/DMorphoMaxTree.hpp and DMorphoMaxTreeCriteria.hpp. The model is that of unsigned pixel
types. The recursions of the code are loops with fuel; the depth of the C++ stack is not modelled.
-/

namespace Smil
variable {M : Type}

/-! ### Criteria -/

/-- A criterion class: the state left by `reset()`, the state left by `initialize()`, `update(x, y, z)`,
`merge`, and `getAttributeValue()`. -/
structure MTCrit (M : Type) where
  zero : M
  first : M
  upd : M → Nat → Nat → Nat → M
  merge : M → M → M
  val : M → Nat

/-- `AreaCriterion`, DMorphoMaxTreeCriteria.hpp:44-77; the counts are exact (they stay below the number of
pixels). -/
def areaCrit : MTCrit Nat := ⟨0, 1, fun m _ _ _ => m + 1, (· + ·), id⟩

/-- `y_max_ - y_min_ + 1` in `size_t`. -/
def spanVal (m : Nat × Nat) : Nat := sizeT ((m.1 : Int) - m.2 + 1)

/-- `HeightCriterion`, DMorphoMaxTreeCriteria.hpp:80-125: the pair is `y_max_`, `y_min_`. -/
def heightCrit : MTCrit (Nat × Nat) :=
  ⟨(0, 2 ^ 64 - 1), (0, 2 ^ 64 - 1), fun m _ y _ => (max m.1 y, min m.2 y),
    fun m m' => (max m.1 m'.1, min m.2 m'.2), spanVal⟩

/-- `WidthCriterion`, DMorphoMaxTreeCriteria.hpp:130-174: the pair is `x_max_`, `x_min_`. -/
def widthCrit : MTCrit (Nat × Nat) :=
  ⟨(0, 2 ^ 64 - 1), (0, 2 ^ 64 - 1), fun m x _ _ => (max m.1 x, min m.2 x),
    fun m m' => (max m.1 m'.1, min m.2 m'.2), spanVal⟩

/-! ### Building the tree -/

/-- The pages of the tree, DMorphoMaxTree.hpp:81-85, as functions of the node, and `curLabel`. -/
structure MTree (M : Type) where
  lev : Nat → Nat
  child : Nat → Nat
  bro : Nat → Nat
  crit : Nat → M
  cur : Nat

/-- What a construction is made of: queue constants, number of pixels, pixel values (they index `labels`, and
are levels of the queue), coordinates of the offsets, neighbours. -/
structure MTCfg where
  P : HQParam
  n : Nat
  f : Nat → Nat
  pos : Nat → Nat × Nat × Nat
  nbs : Nat → List Nat

/-- The tree, `labels`, `img_eti` and the queue. -/
structure MTSt (M : Type) where
  tree : MTree M
  labels : Nat → Nat
  eti : Nat → Nat
  hq : HQ Nat

/-- `COLUMN_NBR * COLUMN_SIZE`, DMorphoMaxTree.hpp:53-54: the page of a larger label is outside of the tables of
pages. -/
def mtMaxLabel : Nat := 20 * 2097152

/-- `initialize`, DMorphoMaxTree.hpp:115-187: value and offset of the first pixel of least value. The loop of the
code stops at the least value of the type, which changes nothing. -/
def mtMin (C : MTCfg) (top : Nat) : Nat × Nat :=
  (List.range C.n).foldl (fun s i => if C.f i < s.1 then (C.f i, i) else s) (top, 0)

/-- `nextHigherLabel`, DMorphoMaxTree.hpp:206-216; `none`: label outside of the pages. -/
def mtHigher (K : MTCrit M) (T : MTree M) (parent v : Nat) : Option (MTree M) :=
  if T.cur < mtMaxLabel then
    some ⟨Function.update T.lev T.cur v, Function.update T.child parent T.cur,
      Function.update T.bro T.cur (T.child parent), Function.update T.crit T.cur K.zero, T.cur + 1⟩
  else none

/-- `for (i = valeur - 1; labels[i] == 0; i--)`, DMorphoMaxTree.hpp:195-196, searching below the argument;
`none`: read before the table. -/
def mtBelow (labels : Nat → Nat) : Nat → Option Nat
  | 0 => none
  | i + 1 => if labels i = 0 then mtBelow labels i else some i

/-- `nextLowerLabel`, DMorphoMaxTree.hpp:189-204. -/
def mtLower (K : MTCrit M) (T : MTree M) (labels : Nat → Nat) (v : Nat) : Option (MTree M) :=
  if T.cur < mtMaxLabel then
    (mtBelow labels v).map fun i =>
      let p := labels i
      let c := T.child p
      let child := Function.update (Function.update T.child T.cur c) p T.cur
      let bro := Function.update T.bro T.cur (T.bro (child T.cur))
      ⟨Function.update T.lev T.cur v, child, Function.update bro (child T.cur) 0,
        Function.update T.crit T.cur K.zero, T.cur + 1⟩
  else none

/-- `getCriterion(indice).update(x, y, z)`, DMorphoMaxTree.hpp:235-238. -/
def mtUpdate (K : MTCrit M) (C : MTCfg) (T : MTree M) (node i : Nat) : MTree M :=
  ⟨T.lev, T.child, T.bro, Function.update T.crit node
    (K.upd (T.crit node) (C.pos i).1 (C.pos i).2.1 (C.pos i).2.2), T.cur⟩

/-- `subFlood`, DMorphoMaxTree.hpp:218-250; the result tells whether the loop on the neighbours stops. -/
def mtSub (K : MTCrit M) (C : MTCfg) (s : MTSt M) (p q : Nat) : Option (MTSt M × Bool) :=
  if C.f q > C.f p then do
    let labels := fun j => if C.f p < j ∧ j < C.f q then 0 else s.labels j
    let node := s.tree.cur
    let T ← mtHigher K s.tree (labels (C.f p)) (C.f q)
    let hq ← s.hq.push C.P (C.f q) q
    let hq ← hq.push C.P (C.f p) p
    pure (⟨mtUpdate K C T node q, Function.update labels (C.f q) node, Function.update s.eti q node, hq⟩, true)
  else if s.labels (C.f q) = 0 then do
    let node := s.tree.cur
    let T ← mtLower K s.tree s.labels (C.f q)
    let hq ← s.hq.push C.P (C.f q) q
    pure (⟨mtUpdate K C T node q, Function.update s.labels (C.f q) node, Function.update s.eti q node, hq⟩, false)
  else do
    let node := s.labels (C.f q)
    let hq ← s.hq.push C.P (C.f q) q
    pure (⟨mtUpdate K C s.tree node q, s.labels, Function.update s.eti q node, hq⟩, false)

/-- The loop on the neighbours, DMorphoMaxTree.hpp:275-296. -/
def mtVisit (K : MTCrit M) (C : MTCfg) (p : Nat) : List Nat → MTSt M → Option (MTSt M)
  | [], s => some s
  | q :: l, s =>
    if s.eti q = 0 then (mtSub K C s p q).bind fun r => if r.2 then some r.1 else mtVisit K C p l r.1
    else mtVisit K C p l s

/-- `flood`, DMorphoMaxTree.hpp:252-299, with at most `fuel` tests of the loop condition. -/
def mtFlood (K : MTCrit M) (C : MTCfg) (level : Nat) : Nat → MTSt M → Option (MTSt M)
  | 0, _ => none
  | fuel + 1, s =>
    if level ≤ s.hq.higherLevel ∧ s.hq.isEmpty = false then
      (s.hq.pop C.P).bind fun r =>
        (mtVisit K C r.1 (C.nbs r.1) ⟨s.tree, s.labels, s.eti, r.2⟩).bind (mtFlood K C level fuel)
    else some s

/-- `initialize` and `flood`, DMorphoMaxTree.hpp:115-187, 372-376; `top` is the greatest value of the type. The
pages are zeroed (lines 107-113), the criteria are constructed by `initialize()`. -/
def mtRun (K : MTCrit M) (C : MTCfg) (top : Nat) : Option (MTSt M) :=
  let m := mtMin C top
  if m.1 < C.P.nbr then
    ((HQ.init C.P : HQ Nat).push C.P m.1 m.2).bind fun hq =>
      mtFlood K C m.1 (2 * C.n + 1)
        ⟨⟨Function.update (fun _ => 0) 1 m.1, fun _ => 0, fun _ => 0, fun _ => K.first, 2⟩,
          Function.update (fun _ => 0) m.1 1, Function.update (fun _ => 0) m.2 1, hq⟩
  else none

/-! ### Using the tree -/

/-- `updateCriteria(node)`, DMorphoMaxTree.hpp:407-418: the loop on the children from `c` on, the children being
updated before they are merged. -/
def mtCriteria (K : MTCrit M) (T : MTree M) : Nat → Nat → Nat → (Nat → M) → Option (Nat → M)
  | 0, _, _, _ => none
  | fuel + 1, node, c, crit =>
    if c = 0 then some crit
    else (mtCriteria K T fuel c (T.child c) crit).bind fun crit =>
      mtCriteria K T fuel node (T.bro c) (Function.update crit node (K.merge (crit node) (crit c)))

/-- `processMaxTree`, DMorphoMaxTree.hpp:1004-1022, and the loop of `compute_AttributeOpening`, lines
1042-1048: the nodes `c`, its brothers and their descendants. -/
def mtLut (K : MTCrit M) (T : MTree M) (stop : Nat) : Nat → Nat → Nat → (Nat → Nat) → Option (Nat → Nat)
  | 0, _, _, _ => none
  | fuel + 1, prev, c, lut =>
    if c = 0 then some lut
    else
      let v := if K.val (T.crit c) < stop then prev else T.lev c
      (mtLut K T stop fuel v (T.child c) (Function.update lut c v)).bind (mtLut K T stop fuel prev (T.bro c))

/-- `build`, DMorphoMaxTree.hpp:372-379, and `compute_AttributeOpening`, lines 1025-1050: the value at each
offset. -/
def mtOpen (K : MTCrit M) (C : MTCfg) (top stop : Nat) : Option (Nat → Nat) := do
  let s ← mtRun K C top
  let root := s.labels (mtMin C top).1
  let crit ← mtCriteria K s.tree s.tree.cur root (s.tree.child root) s.tree.crit
  let T : MTree M := ⟨s.tree.lev, s.tree.child, s.tree.bro, crit, s.tree.cur⟩
  let lut ← mtLut K T stop T.cur (T.lev root) (T.child root) (Function.update (fun _ => 0) root (T.lev root))
  pure fun i => lut (s.eti i)

/-- The construction on an image: reverse queue, neighbours as in DMorphoMaxTree.hpp:266-289. -/
def mtCfg {t : PT} (nbr : Nat) (se : StrElt) (im : Img (Px t)) : MTCfg :=
  ⟨⟨nbr, t.hi.toNat, true⟩, im.dims.count, fun i => (im.buf i).val.toNat,
    fun i => (i % im.dims.w, (i % (im.dims.w * im.dims.h)) / im.dims.w, i / (im.dims.w * im.dims.h)),
    nbOffsets im.dims se⟩

/-- `attributeOpen`, DMorphoMaxTree.hpp:1054-1092, for unsigned types; `GRAY_LEVEL_NBR` (line 304) is computed in
the promoted type: it is 0 for `UINT32`. The output is written after the last read of the input, so that
the call in place is the same. -/
def attributeOpen {t : PT} (K : MTCrit M) (auto : Bool) (se : StrElt) (stop : Nat) (im : Img (Px t))
    (dout : Dims) : Option (Except Int (Img (Px t))) :=
  match checkDims auto im.dims dout with
  | .error c => some (.error c)
  | .ok _ => do
    let nbr ← cardT t
    let o ← mtOpen K (mtCfg nbr se im) t.hi.toNat stop
    pure (.ok ⟨im.dims, fun i => t.wrap (o i)⟩)

/-- `heightClose`, `widthClose` and `areaClose`, DMorphoMaxTree.hpp:1111-1124, 1143-1156 and 1185-1198: the opening
of the complement (`inv`), complemented. -/
def attributeClose {t : PT} (K : MTCrit M) (auto : Bool) (se : StrElt) (stop : Nat) (im : Img (Px t))
    (dout : Dims) : Option (Except Int (Img (Px t))) :=
  match checkDims auto im.dims dout with
  | .error c => some (.error c)
  | .ok _ =>
    (Img.mapK kInv im).bind fun tmp =>
      (attributeOpen K auto se stop tmp im.dims).bind fun r =>
        match r with
        | .error c => some (.error c)
        | .ok o => (Img.mapK kInv o).map .ok

end Smil
