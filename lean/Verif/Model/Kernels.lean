import Verif.Model.Dag
import Mathlib.Analysis.SpecialFunctions.Log.Base
/-!
Which operations the built-in expansions implement, and what serving an edge does with the answer
(/repo/include/builtins/laplace.h, yukawa.h, helmholtz.h, laplace_com.h, laplace_com_acc.h;
/repo/include/dashmm/expansionlco.h).
-/
namespace Dashmm

/-- The expansions of the library (doc/docsource/basic.tex:813-930). -/
inductive Expansion where
  | laplace | yukawa | helmholtz | laplaceCOM | laplaceCOMAcc
  deriving DecidableEq, Repr

/-- What an operation of an expansion hands back: an expansion, or an addition to the targets
(`value`); `std::unique_ptr<expansion_t>{nullptr}` (`null`); nothing at all, the targets are left as
they are (`nothing`); the operation does not come back because an assertion fails (`abort`), or an
array of the table is read outside its bounds (`outside`). -/
inductive Answer where
  | value | null | nothing | abort | outside
  deriving DecidableEq, Repr

/-- `maxlev`, src/yukawa_table.cc:25, 29 and src/helmholtz_table.cc:23: the tables of Yukawa and
Helmholtz have one entry for each of the levels 0, …, 21 (yukawa_table.cc:47-55, 475, 521;
helmholtz_table.cc:46-66). -/
def maxlev : ℕ := 21

/-- Reading an array with an entry for each level, at the level `lev`
(`nexp_[level(scale)]` and the like, yukawa_table.h:48-66, helmholtz_table.h:54-106). -/
def inTable (lev : ℤ) : Bool := decide (0 ≤ lev) && decide (lev ≤ maxlev)

/-- `level(1.0)`, yukawa_table.h:66, helmholtz_table.h:149: `log2(scale_ / 1.0)` truncated to an
`int`, where `scale_` is the scale of the root.  It is asked for by every
`new expansion_t{role}`, whose scale is 1.0 by default (helmholtz.h:53-58). -/
noncomputable def unitLevel (scale0 : ℝ) : ℤ :=
  if 0 ≤ Real.logb 2 scale0 then ⌊Real.logb 2 scale0⌋ else ⌈Real.logb 2 scale0⌉

/-- Check the reads of the table first, then answer. -/
def guarded (ok : Bool) (a : Answer) : Answer := if ok then a else .outside

/-- `Helmholtz(ExpansionRole role, double scale = 1.0, …)`, helmholtz.h:53-58, reads `n_e(scale)`
and `n_p(scale)` whatever the role; `Yukawa(…)`, yukawa.h:90-117, reads `nexp(scale)` for the
intermediate roles only; the other expansions have no table with levels (laplace.h:72-104,
laplace_com.h, laplace_com_acc.h).  `lev` is the level of the scale. -/
def Expansion.construct (k : Expansion) (interm : Bool) (lev : ℤ) : Bool :=
  match k with
  | .helmholtz => inTable lev
  | .yukawa => !interm || inTable lev
  | _ => true

/-- yukawa.h:166-290; `M_to_L`, 201-203, is `nullptr`; `M_to_M` and `L_to_L` read `m2m(scale)` and
`l2l(scale)`, yukawa.cc:159, 199, with the scale of the source of the edge, whose level is `lev`;
`M_to_I`, `I_to_I` read the tables at that scale, `I_to_L` at half of it. -/
def yukawaAnswer (op : Op) (lev : ℤ) : Answer :=
  match op with
  | .MtoL => .null
  | .MtoM => guarded (inTable lev) .value
  | .LtoL => guarded (inTable lev) .value
  | .MtoI => guarded (inTable lev) .value
  | .ItoI => guarded (inTable lev) .value
  | .ItoL => guarded (inTable (lev + 1)) .value
  | _ => .value

/-- helmholtz.h:154-760; `M_to_L`, 316-318, is `nullptr`; `m2m`, helmholtz_table.h:44-48, has the
levels 3 to 21 and asserts the lower limit, `l2l`, 49-53, has the levels 2 to 20 and asserts both.
`u` is the level that the table finds for the scale 1.0, `dlev` the level of the receiving node. -/
def helmholtzAnswer (u : ℤ) (op : Op) (lev dlev : ℤ) : Answer :=
  match op with
  | .MtoL => .null
  | .StoM => guarded (Expansion.helmholtz.construct false dlev) .value
  | .StoL => guarded (Expansion.helmholtz.construct false u) .value
  | .MtoM => guarded (Expansion.helmholtz.construct false u)
      (if lev - 3 < 0 then .abort else guarded (inTable lev) .value)
  | .LtoL => guarded (Expansion.helmholtz.construct false u)
      (if 0 ≤ lev - 2 ∧ lev - 2 ≤ (maxlev : ℤ) - 3 then .value else .abort)
  | .MtoI => guarded (Expansion.helmholtz.construct true lev) .value
  | .ItoI => guarded (inTable lev) .value
  | .ItoL => guarded (Expansion.helmholtz.construct false u && inTable (lev + 1)) .value
  | _ => .value

/-- laplace_com.h:160-249 and laplace_com_acc.h:160-276: `S_to_L`, `M_to_L`, `L_to_L`, `M_to_I`,
`I_to_I`, `I_to_L` are `nullptr`, `L_to_T` has an empty body. -/
def comAnswer (op : Op) : Answer :=
  match op with
  | .StoM => .value
  | .MtoM => .value
  | .MtoT => .value
  | .StoT => .value
  | .LtoT => .nothing
  | _ => .null

/-- The bodies of the eleven operations of each expansion, seen only as far as what kind of answer
they give, for the edge `e`.  laplace.h:161-330: all eleven compute something. -/
def Expansion.answer (k : Expansion) (u : ℤ) (e : Edge) : Answer :=
  match k with
  | .laplace => .value
  | .yukawa => yukawaAnswer e.op e.src.ix.level
  | .helmholtz => helmholtzAnswer u e.op e.src.ix.level e.dst.ix.level
  | .laplaceCOM => comAnswer e.op
  | .laplaceCOMAcc => comAnswer e.op

/-- The expansion of the receiving LCO, made by the first contribution
(`new expansion_t{lhs->role, lhs->scale, lhs->center}`, expansionlco.h:338-342) with the scale of
its node; the LCO of a target holds no expansion. -/
def Expansion.receive (k : Expansion) (e : Edge) : Bool :=
  match e.dst.kind with
  | .parts => true
  | .normal => k.construct false e.dst.ix.level
  | .interm => k.construct true e.dst.ix.level

/-- Serving one out edge, expansionlco.h:200-250, 586-686: `x_out_edge` calls the operation and
passes the answer to `contribute`, expansionlco.h:256-258, which begins with
`expand->get_all_views()`, so a null pointer is dereferenced: `none`.  A failing assertion and an
access outside an array are `none` as well.  `some true`: the contribution of the edge has been
made; `some false`: the edge is served and contributes nothing.  The numbers themselves are not kept
here (see the Laplace, Yukawa, Helmholtz and Com models). -/
def Expansion.serve (k : Expansion) (u : ℤ) (e : Edge) : Option Bool :=
  match k.answer u e with
  | .value => if k.receive e then some true else none
  | .nothing => some false
  | _ => none

/-- Serving all the edges of a DAG; the order does not matter for whether a null pointer is met.
`none`: some edge crashed; `some n`: `n` edges contributed. -/
def Expansion.serveAll (k : Expansion) (u : ℤ) : List Edge → Option Nat
  | [] => some 0
  | e :: es =>
    match k.serve u e, k.serveAll u es with
    | some true, some n => some (n + 1)
    | some false, some n => some n
    | _, _ => none

end Dashmm
