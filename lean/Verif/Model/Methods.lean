import Verif.Model.Dag
/-
Models of the built-in methods: Direct, BH, FMM, FMM97
(/repo/include/builtins/direct_method.h, bh_method.h, fmm_method.h, fmm97_method.h).
-/
namespace Dashmm

/-! ### Direct -/

/-- One pass of the `for` loop in `Direct::process`, include/builtins/direct_method.h:81-97. -/
def directPass (curr : TNode) (leaf : Bool) : List TNode → List Act × List TNode
  | [] => ([], [])
  | i :: rest =>
    let r := directPass curr leaf rest
    if i.isLeaf then
      if leaf then (Act.StoT i.ix curr.ix :: r.1, r.2) else (r.1, i :: r.2)
    else (r.1, i.kids ++ r.2)

/-- `do { pass } while (leaf && !consider.empty())`, direct_method.h:80-101 and bh_method.h:104-138.
`fuel` bounds the number of iterations; `C33`/`C34` show that the list is empty at the end. -/
def doWhile (pass : List TNode → List Act × List TNode) (leaf : Bool) :
    Nat → List TNode → List Act × List TNode
  | 0, consider => ([], consider)
  | fuel + 1, consider =>
    let r := pass consider
    if leaf && !r.2.isEmpty then
      let r' := doWhile pass leaf fuel r.2
      (r.1 ++ r'.1, r'.2)
    else r

/-- A number of iterations that suffices: one more than the largest height. -/
def loopFuel (consider : List TNode) : Nat :=
  1 + (consider.map fun n => (Oct.node n.c).height).foldl max 0

/-- `class Direct`, include/builtins/direct_method.h:44-115. -/
def Direct : Method where
  generate n := [Act.addParts .src n.ix]
  aggregate _ := []
  inherit n _ leaf := if leaf then [Act.addParts .tgt n.ix] else []
  process n consider leaf := doWhile (directPass n leaf) leaf (loopFuel consider) consider
  refineTest _ _ _ := true

/-! ### Barnes-Hut -/

/-- One pass of the `for` loop in `BH::process`, include/builtins/bh_method.h:105-133. `mac i c`
stands for `MAC(icenter, isize, nearest(icenter, ccenter, csize))`, a function of the two indices
and the domain (see the Mac model). -/
def bhPass (mac : Index → Index → Bool) (curr : TNode) (leaf : Bool) :
    List TNode → List Act × List TNode
  | [] => ([], [])
  | i :: rest =>
    let r := bhPass mac curr leaf rest
    if mac i.ix curr.ix then
      if !leaf then (r.1, i :: r.2) else (Act.MtoT i.ix curr.ix :: r.1, r.2)
    else if i.isLeaf then
      if leaf then (Act.StoT i.ix curr.ix :: r.1, r.2) else (r.1, i :: r.2)
    else (r.1, i.kids ++ r.2)

/-- `class BH`, include/builtins/bh_method.h:49-190. -/
def BH (mac : Index → Index → Bool) : Method where
  generate n := [Act.addParts .src n.ix, Act.addNormal .src n.ix, Act.StoM n.ix n.ix]
  aggregate n := Act.addNormal .src n.ix :: n.kids.map fun k => Act.MtoM k.ix n.ix
  inherit n _ leaf := if leaf then [Act.addParts .tgt n.ix] else []
  process n consider leaf := doWhile (bhPass mac n leaf) leaf (loopFuel consider) consider
  refineTest _ _ _ := true

/-! ### FMM -/

/-- `well_sep_test`, include/builtins/fmm_method.h:181-188 (and fmm97_method.h:214-221). -/
def wellSep (source target : Index) : Bool :=
  if ((source.x : Int) - target.x).natAbs > 1 then true
  else if ((source.y : Int) - target.y).natAbs > 1 then true
  else if ((source.z : Int) - target.z).natAbs > 1 then true
  else false

/-- `well_sep_test_asymmetric`, include/builtins/fmm_method.h:165-179 (and fmm97_method.h:198-212).
The code shifts by `smaller.level() - larger.level()`, undefined if negative; all calls have it
non-negative (`C38`). -/
def wellSepAsym (smaller larger : Index) : Bool :=
  let delta := smaller.level - larger.level
  let shift : Int := (1 <<< delta : Nat) - 1
  let lx : Int := (larger.x <<< delta : Nat)
  let ly : Int := (larger.y <<< delta : Nat)
  let lz : Int := (larger.z <<< delta : Nat)
  decide (lx - smaller.x > 1) || decide ((smaller.x : Int) - (lx + shift) > 1)
  || decide (ly - smaller.y > 1) || decide ((smaller.y : Int) - (ly + shift) > 1)
  || decide (lz - smaller.z > 1) || decide ((smaller.z : Int) - (lz + shift) > 1)

/-- `proc_coll_recur(T, S)`, include/builtins/fmm_method.h:190-210 (and fmm97_method.h:223-243). -/
def procColl (t : Index) : Index → Oct → List Act
  | _, .nil => []
  | s, .node c =>
    if wellSepAsym s t then [Act.MtoT s t]
    else if (TNode.mk s c).isLeaf then [Act.StoT s t]
    else (List.finRange 8).flatMap fun i : Fin 8 => procColl t (s.child i) (c i)

/-- The loop over `consider` for a leaf target, include/builtins/fmm_method.h:96-111. -/
def fmmLeafLoop (t : Index) : List TNode → List Act
  | [] => []
  | s :: rest =>
    (if s.ix.level < t.level then
      if wellSepAsym t s.ix then [Act.StoL s.ix t] else [Act.StoT s.ix t]
    else
      if wellSep s.ix t then [Act.MtoL s.ix t] else procColl t s.ix (.node s.c))
    ++ fmmLeafLoop t rest

/-- The loop over `consider` for an inner target, include/builtins/fmm_method.h:118-143. -/
def fmmInnerLoop (t : Index) : List TNode → List Act × List TNode
  | [] => ([], [])
  | s :: rest =>
    let r := fmmInnerLoop t rest
    if s.ix.level < t.level then
      if wellSepAsym t s.ix then (Act.StoL s.ix t :: r.1, r.2) else (r.1, s :: r.2)
    else
      if wellSep s.ix t then (Act.MtoL s.ix t :: r.1, r.2)
      else if s.kids.isEmpty then (r.1, s :: r.2) else (r.1, s.kids ++ r.2)

/-- `refine_test`, include/builtins/fmm_method.h:149-163 (and fmm97_method.h:182-196). -/
def fmmRefine (same : Bool) (curr : TNode) (consider : List TNode) : Bool :=
  if same then true
  else consider.any fun i =>
    i.ix.level == curr.ix.level && (!wellSep i.ix curr.ix && !i.isLeaf)

/-- `class FMM`, include/builtins/fmm_method.h:40-211. For a leaf target `consider` is left as it
is. -/
def FMM : Method where
  generate n := Act.addParts .src n.ix ::
    if n.ix.level ≥ 2 then [Act.addNormal .src n.ix, Act.StoM n.ix n.ix] else []
  aggregate n := if n.ix.level ≥ 2 then
      Act.addNormal .src n.ix :: n.kids.map fun k => Act.MtoM k.ix n.ix
    else []
  inherit n _ leaf :=
    (if leaf then [Act.addParts .tgt n.ix] else []) ++
    (if n.ix.level ≥ 2 then
      Act.addNormal .tgt n.ix ::
        (if n.ix.level ≥ 3 then [Act.LtoL n.ix.parent n.ix] else [])
     else [])
  process n consider leaf :=
    if leaf then
      (fmmLeafLoop n.ix consider ++
        (if n.ix.level ≥ 2 then [Act.LtoT n.ix n.ix] else []), consider)
    else fmmInnerLoop n.ix consider
  refineTest := fmmRefine

/-! ### FMM97 -/

/-- The loop over `consider` for a leaf target, include/builtins/fmm97_method.h:116-128. -/
def fmm97LeafLoop (t : Index) : List TNode → List Act
  | [] => []
  | s :: rest =>
    (if s.ix.level < t.level then
      if wellSepAsym t s.ix then [Act.StoL s.ix t] else [Act.StoT s.ix t]
    else
      if !wellSep s.ix t then procColl t s.ix (.node s.c) else [])
    ++ fmm97LeafLoop t rest

/-- The loop over `consider` for an inner target, include/builtins/fmm97_method.h:137-168. Returns
the actions, `newcons` and `merge`. -/
def fmm97InnerLoop (t : Index) : List TNode → List Act × List TNode × List TNode
  | [] => ([], [], [])
  | s :: rest =>
    let r := fmm97InnerLoop t rest
    if s.ix.level < t.level then
      if wellSepAsym t s.ix then (Act.StoL s.ix t :: r.1, r.2.1, r.2.2)
      else (r.1, s :: r.2.1, r.2.2)
    else
      if !wellSep s.ix t then
        let doI2I := decide (t.level ≥ 1) &&
          (decide (s.ix.x ≠ t.x) || decide (s.ix.y ≠ t.y) || decide (s.ix.z ≠ t.z))
        if s.kids.isEmpty then (r.1, s :: r.2.1, r.2.2)
        else (r.1, s.kids ++ r.2.1, (if doI2I then s.kids else []) ++ r.2.2)
      else r

/-- `class FMM97`, include/builtins/fmm97_method.h:40-244. -/
def FMM97 : Method where
  generate n := Act.addParts .src n.ix ::
    if n.ix.level ≥ 2 then
      [Act.addNormal .src n.ix, Act.StoM n.ix n.ix, Act.addInterm .src n.ix, Act.MtoI n.ix n.ix]
    else []
  aggregate n := if n.ix.level ≥ 2 then
      (Act.addNormal .src n.ix :: n.kids.map fun k => Act.MtoM k.ix n.ix) ++
      [Act.addInterm .src n.ix, Act.MtoI n.ix n.ix]
    else []
  inherit n pInterm leaf :=
    (if leaf then [Act.addParts .tgt n.ix] else []) ++
    (if n.ix.level ≥ 2 then
      Act.addNormal .tgt n.ix ::
        ((if pInterm then [Act.ItoL n.ix.parent n.ix] else []) ++
         (if n.ix.level ≥ 3 then [Act.LtoL n.ix.parent n.ix] else []))
     else [])
  process n consider leaf :=
    if leaf then
      (fmm97LeafLoop n.ix consider ++
        (if n.ix.level ≥ 2 then [Act.LtoT n.ix n.ix] else []), consider)
    else
      let r := fmm97InnerLoop n.ix consider
      (r.1 ++ (if r.2.2.isEmpty then [] else
          Act.addInterm .tgt n.ix :: r.2.2.map fun s => Act.ItoI s.ix n.ix), r.2.1)
  refineTest := fmmRefine

end Dashmm
