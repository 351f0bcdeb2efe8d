import Mathlib.Algebra.BigOperators.Group.Finset.Basic
import Mathlib.Algebra.Order.BigOperators.Group.Finset
import Mathlib.Data.Fintype.Basic
/-
Model of the creation of the dual tree on all ranks: `DualTree::create_dual_tree_handler`
(/repo/include/dashmm/dualtree.h:1165-1290), with `send_points_handler` (dualtree.h:1004-1137),
`recv_points_handler` (dualtree.h:853-985), `Tree::initPointExchange`, `initPointExchangeSameSAndT`
(/repo/include/dashmm/tree.h:214-270, 290-342), `mergePoints`, `mergePointsSameSAndT` (tree.h:361-411),
`sendNode` (tree.h:187-195), `send_node_handler` and `recv_node_handler` (tree.h:795-864).

A state is the set of the events that have happened, with the counters `first_` of the cells of the uniform grid and the
number of inputs of the LCOs `dual_tree_complete`. Every event that is enabled may be the next one, so that every schedule and
every order of the messages is covered. Simplifications: an event is atomic (the merging of messages into one
cell is modelled in detail in `Model/Merge`, the messages in `Model/Points`, the partitioning in
`Model/Build`; here `part` stands for the whole partitioning of a cell and the firing of its completion LCO); the cells are
distributed in any way (`distribute_points` is modelled in `Model/Distribute`).
-/
namespace Dashmm
namespace Exch
open Finset

/-- What is given: the number of ranks, `dim3_`, `rank_map_`, `same_sandt_`, and how many points of a cell each rank
holds at the beginning. The first argument of `cnt` is the tree: `false` sources, `true` targets. -/
structure Cfg where
  ranks : Nat
  dim3 : Nat
  owner : Nat → Nat
  same : Bool
  cnt : Bool → Nat → Nat → Nat

/-- `unif_count_src(c)`, `unif_count_tar(c)`: the sum over all ranks. -/
def Cfg.total (C : Cfg) (t : Bool) (c : Nat) : Nat := ∑ r ∈ range C.ranks, C.cnt t r c

inductive Event
  /-- Rank `r` has contributed its counts to `unif_count_` (`sort_local_points`). -/
  | count (r : Nat)
  /-- Rank `r` has done `initPointExchange` for both trees (which takes in the local points and sets `unif_done_`) and spawned
  the sends. -/
  | init (r : Nat)
  /-- The loop of dualtree.h:1234-1272 on rank `r`. -/
  | watch (r : Nat)
  /-- `send_points_` of rank `r` for rank `r'`. -/
  | send (r r' : Nat)
  /-- `recv_points_` on rank `r'` with the message of rank `r`, up to spawning the merges. -/
  | recv (r r' : Nat)
  /-- `merge_points_` (`merge_points_same_s_and_t_`) on rank `r'` for the points of cell `c` from rank `r`. -/
  | merge (t : Bool) (r r' c : Nat)
  /-- The partitioning of a cell by its owner, up to the completion LCO of the cell. -/
  | part (t : Bool) (c : Nat)
  /-- `send_node_` on the owner of a cell. -/
  | sendNode (t : Bool) (c : Nat)
  /-- `recv_node_` on rank `r`. -/
  | recvNode (t : Bool) (r c : Nat)
  /-- Input of `dual_tree_complete` of rank `r` for a cell with points. -/
  | signal (t : Bool) (r c : Nat)
  /-- Rank `r` is past `hpx_lco_wait(dual_tree_complete)`, it prunes the tree and frees the local arrays. -/
  | finish (r : Nat)
  deriving DecidableEq

/-- `first` is `first_` of the cell on its owner. -/
structure State where
  done : Finset Event
  first : Bool → Nat → Nat
  sets : Nat → Nat

def start : State := ⟨∅, fun _ _ => 0, fun _ => 0⟩

/-- When an event may happen. -/
def Enabled (C : Cfg) (s : State) : Event → Prop
  | .count r => r < C.ranks
  | .init r => r < C.ranks ∧ ∀ r' < C.ranks, .count r' ∈ s.done                       -- dualtree.h:1199 hpx_lco_get(unif_count_)
  | .watch r => .init r ∈ s.done
  | .send r r' => .init r ∈ s.done ∧ r' < C.ranks ∧ r ≠ r'                              -- dualtree.h:1223-1229
  | .recv r r' => .send r r' ∈ s.done ∧ .init r' ∈ s.done                               -- dualtree.h:872-875 waitForUnifDone
  | .merge t r r' c => .recv r r' ∈ s.done ∧ c < C.dim3 ∧ C.owner c = r' ∧ C.cnt t r c ≠ 0   -- dualtree.h:906-970
  | .part t c => c < C.dim3 ∧ C.total t c ≠ 0 ∧ C.total t c ≤ s.first t c ∧             -- node.h:167-175
      (C.same = true → t = true → .part false c ∈ s.done)                               -- tree.h:331, 778 partitionWhen
  | .sendNode t c => .part t c ∈ s.done ∧ .watch (C.owner c) ∈ s.done                   -- tree.h:193 hpx_call_when
  | .recvNode t r c => .sendNode t c ∈ s.done ∧ r < C.ranks ∧ r ≠ C.owner c             -- tree.h:820-826
  | .signal t r c => .watch r ∈ s.done ∧ (if C.owner c = r then .sendNode t c ∈ s.done else .recvNode t r c ∈ s.done)
  | .finish r => .watch r ∈ s.done ∧ 2 * C.dim3 ≤ s.sets r                              -- dualtree.h:1231, 1274

/-- The trees and cells without any point. -/
def empties (C : Cfg) : Finset (Bool × Nat) := (univ ×ˢ range C.dim3).filter fun p => C.total p.1 p.2 = 0

/-- What an event does. -/
def effect (C : Cfg) (s : State) (e : Event) : State where
  done := insert e s.done
  first := match e with
    | .init r => fun t c => if C.owner c = r then s.first t c + C.cnt t r c else s.first t c       -- tree.h:245-268, 313-336
    | .merge t r _ c => fun t' c' => if t' = t ∧ c' = c then s.first t' c' + C.cnt t r c else s.first t' c'
    | _ => s.first
  sets := match e with
    | .watch r => fun r' => if r' = r then s.sets r' + (empties C).card else s.sets r'             -- hpx_lco_and_set
    | .signal _ r _ => fun r' => if r' = r then s.sets r' + 1 else s.sets r'
    | _ => s.sets

/-- One step. -/
def Step (C : Cfg) (s s' : State) : Prop := ∃ e, e ∉ s.done ∧ Enabled C s e ∧ s' = effect C s e

/-- Reachable in `k` steps. -/
inductive Reach (C : Cfg) : Nat → State → Prop
  | init : Reach C 0 start
  | step {k s s'} : Reach C k s → Step C s s' → Reach C (k + 1) s'

end Exch
end Dashmm
