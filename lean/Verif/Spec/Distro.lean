import Verif.Model.Dag
/-!
Specification of a good placement of DAG nodes on ranks.
-/
namespace Dashmm
namespace Distro

/-- The total weight of the edges from `r` to nodes placed on rank `v`. -/
def weightTo (w : Edge → Int) (es : List Edge) (loc : Ref → Int) (r : Ref) (v : Int) : Int :=
  ((es.filter fun e => e.src = r ∧ loc e.dst = v).map w).sum

/-- `v` is the first of the ranks `0, .., ranks - 1` for which `W` is largest. -/
structure FirstHeaviest (ranks : Nat) (W : Int → Int) (v : Int) : Prop where
  nonneg : 0 ≤ v
  lt : v < ranks
  largest : ∀ u : Int, 0 ≤ u → u < ranks → W u ≤ W v
  first : ∀ u : Int, 0 ≤ u → u < v → W u < W v

/-- The placement `loc` of the DAG with the given nodes and edges, where `before` are the places
given when the DAG was made (negative for the nodes without a place) and `home` says which rank owns
the points of a box. -/
structure GoodPlacement (ranks : Nat) (nodes : List Ref) (es : List Edge) (home : Index → Option Int)
    (before loc : Ref → Int) : Prop where
  /-- Every DAG node sits on an existing rank. -/
  exists_ : ∀ r ∈ nodes, 0 ≤ loc r ∧ loc r < ranks
  /-- Nodes that had a place keep it. -/
  kept : ∀ r, 0 ≤ before r → loc r = before r
  /-- Sources and targets sit on the rank that owns the points. -/
  parts : ∀ r ∈ nodes, r.kind = .parts → home r.ix = some (loc r)
  /-- No `S->M` edge leaves its rank. -/
  local_ : ∀ e ∈ es, e.op = .StoM → loc e.src = loc e.dst

/-- Each node without a place goes to the rank that receives most of its output. -/
def FollowsWork (ranks : Nat) (nodes : List Ref) (es : List Edge) (w : Edge → Int)
    (before loc : Ref → Int) : Prop :=
  ∀ r ∈ nodes, before r < 0 → FirstHeaviest ranks (weightTo w es loc r) (loc r)

end Distro
end Dashmm
