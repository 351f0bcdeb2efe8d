import Verif.Model.Geometry
import Verif.Model.Reduce
import Mathlib.Algebra.Order.Floor.Defs
/-
Model of the first phase of tree construction: the domain, the uniform grid and the grouping of the
local records (/repo/include/dashmm/dualtree.h:506-690, /repo/include/dashmm/tree.h:421-447, 627-710).

Simplification: `double` is an arbitrary linearly ordered field `K` (exact arithmetic).
-/
namespace Dashmm
namespace Grid

variable {K : Type*} [Field K] [LinearOrder K]

/-! ### Domain -/

/-- The six numbers `var` of include/dashmm/dualtree.h:526: xmin, xmax, ymin, ymax, zmin, zmax. -/
structure Box6 (K : Type*) where
  x0 : K
  x1 : K
  y0 : K
  y1 : K
  z0 : K
  z1 : K

/-- The initial value, include/dashmm/dualtree.h:526, and `domain_geometry_init_handler`,
include/dashmm/dualtree.h:562-570. -/
def boxInit : Box6 K := ⟨10 ^ 50, -10 ^ 50, 10 ^ 50, -10 ^ 50, 10 ^ 50, -10 ^ 50⟩

/-- One iteration of the loops over the records, include/dashmm/dualtree.h:528-535 and 543-550. -/
def addPoint (v : Box6 K) (p : Point K) : Box6 K :=
  ⟨min v.x0 p.x, max v.x1 p.x, min v.y0 p.y, max v.y1 p.y, min v.z0 p.z, max v.z1 p.z⟩

/-- `set_domain_geometry_handler`, include/dashmm/dualtree.h:518-556: one rank's contribution. -/
def localBox (same : Bool) (src tgt : List (Point K)) : Box6 K :=
  let v := src.foldl addPoint boxInit
  if same then v else tgt.foldl addPoint v

/-- `domain_geometry_op_handler`, include/dashmm/dualtree.h:577-587. -/
def boxOp (l r : Box6 K) : Box6 K :=
  ⟨min l.x0 r.x0, max l.x1 r.x1, min l.y0 r.y0, max l.y1 r.y1, min l.z0 r.z0, max l.z1 r.z1⟩

/-- The domain made from the reduced box, include/dashmm/dualtree.h:679-684. -/
def domainOf (v : Box6 K) : Domain K :=
  let length := max (v.x1 - v.x0) (max (v.y1 - v.y0) (v.z1 - v.z0))
  ⟨⟨(v.x1 + v.x0 - length) / 2, (v.y1 + v.y0 - length) / 2, (v.z1 + v.z0 - length) / 2⟩, length⟩

/-! ### Uniform grid -/

/-- `Tree::simple_key(x, y, z, max)`, include/dashmm/tree.h:421-423 (no overflow of `unsigned`). -/
def simpleKey (x y z max : Nat) : Nat := x + y * max + z * max * max

/-- `Tree::get_unif_grid_index(idx, uniflevel)`, include/dashmm/tree.h:432-447; `none` is `-1`. -/
def unifGridIndex (idx : Index) (uniflevel : Nat) : Option Nat :=
  let delta : Int := (idx.level : Int) - uniflevel
  if delta < 0 then none
  else
    let max := 1 <<< uniflevel
    if delta > 0 then
      let tester := idx.parent delta.toNat
      some (simpleKey tester.x tester.y tester.z max)
    else some (simpleKey idx.x idx.y idx.z max)

section
variable [FloorRing K]

/-- The conversion `(int)v` of a `double`: truncation towards zero. -/
def trunc (v : K) : Int := if 0 ≤ v then ⌊v⌋ else ⌈v⌉

/-- `xid`, `yid`, `zid`, include/dashmm/tree.h:639-644, for a coordinate `p` and `corner`. -/
def cellCoord (dim : Nat) (corner scale p : K) : Int :=
  min ((dim : Int) - 1) (trunc ((dim : K) * (p - corner) * scale))

/-- `gid[i]`, include/dashmm/tree.h:634-645. -/
def gidOf (d : Domain K) (level : Nat) (p : Point K) : Nat :=
  let scale := 1 / d.size
  let dim := 2 ^ level
  simpleKey (cellCoord dim d.low.x scale p.x).toNat (cellCoord dim d.low.y scale p.y).toNat
    (cellCoord dim d.low.z scale p.z).toNat dim

/-- `assign_points_to_unif_grid_handler`, include/dashmm/tree.h:627-650: `gid` and `count`, where
`count` has `8 ^ level` entries, initially zero (include/dashmm/dualtree.h:796). -/
def assignPoints (d : Domain K) (level : Nat) (P : List (Point K)) : List Nat × List Nat :=
  P.foldl (fun a p =>
      let g := gidOf d level p
      (a.1 ++ [g], a.2.set g (a.2.getD g 0 + 1)))
    ([], List.replicate (8 ^ level) 0)
end

/-! ### Grouping -/

/-- The initial `offset`, include/dashmm/tree.h:670-675. -/
def startOffsets (dim3 : Nat) (count : List Nat) : List Nat :=
  (List.range' 1 (dim3 - 1)).foldl
    (fun o i => o.set i (o.getD (i - 1) 0 + count.getD (i - 1) 0)) (List.replicate dim3 0)

/-- The loop that turns `gid_of_points` into final positions, include/dashmm/tree.h:679-683:
`gid_of_points` and `offset` afterwards. -/
def finalPlaces (npts : Nat) (gid offset : List Nat) : List Nat × List Nat :=
  (List.range npts).foldl (fun a i =>
      let g := a.1.getD i 0
      (a.1.set i (a.2.getD g 0), a.2.set g (a.2.getD g 0 + 1)))
    (gid, offset)

variable {R : Type} [Inhabited R]

/-- One iteration of the `while` loop, include/dashmm/tree.h:691-698. -/
def swapStep (i : Nat) (a : List R × List Nat) : List R × List Nat :=
  let save := a.1.getD (a.2.getD i 0) default
  let idx := a.2.getD (a.2.getD i 0) 0
  let p := a.1.set (a.2.getD i 0) (a.1.getD i default)
  let g := a.2.set (a.2.getD i 0) (a.2.getD i 0)
  let g := g.set i idx
  let p := p.set i save
  (p, g)

/-- The `while` loop, include/dashmm/tree.h:690-699, for at most `fuel` iterations; `none` if it is
still running then. -/
def settle (i : Nat) : Nat → List R × List Nat → Option (List R × List Nat)
  | 0, a => if a.2.getD i 0 ≠ i then none else some a
  | fuel + 1, a => if a.2.getD i 0 ≠ i then settle i fuel (swapStep i a) else some a

/-- `group_points_on_unif_grid_handler`, include/dashmm/tree.h:664-710: the records and the offsets. -/
def groupPoints (fuel : Nat) (recs : List R) (dim3 : Nat) (gid count : List Nat) :
    Option (List R × List Nat) := do
  let offset := startOffsets dim3 count
  let (gid, offset) := finalPlaces recs.length gid offset
  let (recs, _) ← (List.range recs.length).foldlM (fun a i => settle i fuel a) (recs, gid)
  let offset := (List.range dim3).foldl (fun o i => o.set i (o.getD i 0 - count.getD i 0)) offset
  return (recs, offset)

end Grid
end Dashmm
