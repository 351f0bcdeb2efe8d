import Verif.Model.Route
import Verif.Spec.Branch
import Verif.Spec.Life
/-
What is said about the messages of the out edges.
-/
namespace Dashmm.Route
open Arr (Serializer)

/-- The rank `k` before `execute_DAG`: it has the two trees, and its DAG was made by `create_DAG` with the placement `loc`, on some schedule. -/
structure Ready (m : Method) (unif : Nat) (same : Bool) (s t : Fin 8 → Oct) (loc : Ref → Int) (k : Nat) (R : Rank) : Prop where
  src : Branch.Copy R.srcHeap R.srcRoot ⟨Index.root, s⟩
  tgt : Branch.Copy R.tgtHeap R.tgtRoot ⟨Index.root, t⟩
  dag : ∃ acts h₀ d, Runs (createProg m unif same s t) acts ∧ Life.Blank h₀ ∧ Life.Created s t k loc acts h₀ d R.dag

/-- The global addresses `g k i` of the LCO `i` of the rank `k` are not null. -/
def GoodAddresses (g : Nat → Nat → Addr) : Prop := ∀ k i, g k i ≠ 0 ∧ g k i < 2 ^ 64

/-- `A` gives for each node of the DAG that is served by an LCO the address of the LCO that serves it on the rank it is placed on. -/
def LcoAddress (W : Nat → Rank) (g : Nat → Nat → Addr) (loc : Ref → Int) (nodes : List Ref) (A : Ref → Addr) : Prop :=
  ∀ r ∈ nodes, Life.NeedsLco r → ∃ i, Life.Serves (W (loc r).toNat).dag r i ∧ A r = g (loc r).toNat i

/-- The calls that the edges ask for: on which rank, which operation, which LCO gets the result, the index of the target. -/
def wanted (loc : Ref → Int) (A : Ref → Addr) (es : List Edge) : List (Nat × Call) :=
  es.map fun e => ((loc e.dst).toNat, ⟨e.op, A e.dst, e.dst.ix⟩)

/-- What comes of the pieces of work of a source leaf of rank `me`: on which rank, with which sources, which calls. -/
def LeafDone {S : Type} (W : Nat → Rank) (g : Nat → Nat → Addr) (ser : Serializer S) (me : Nat) (srcs : List S) : Out → Nat × List S × List Call → Prop
  | .work c, x => x.1 = me ∧ x.2.1 = srcs ∧ c = some x.2.2
  | .parcel k b, x => x.1 = k ∧ (W k).instigRemote (g k) ser b = some x.2

/-- What comes of the pieces of work of an expansion of rank `me`: on which rank, with which header and views, which calls. The parcel may lie anywhere in the memory of the rank. -/
def ExpansionDone (W : Nat → Rank) (g : Nat → Nat → Addr) (me : Nat) (d : Head) (views : ViewSet) : Out → Nat × Head × ViewSet × List Call → Prop
  | .work c, x => x.1 = me ∧ x.2.1 = d ∧ x.2.2.1 = views ∧ c = some x.2.2.2
  | .parcel k b, x => x.1 = k ∧ ∀ (m : Mem) (q : Nat), m.load q b.length = b → (W k).outRemote (g k) m q b.length = some x.2

/-- The memory outside of the `n` bytes at `p` is unchanged. -/
def Only (p n : Nat) (m m' : Mem) : Prop := ∀ a, (a < p ∨ p + n ≤ a) → m' a = m a

/-- The members of the index are `int`s. -/
def SmallIndex (i : Index) : Prop := i.x < 2 ^ 31 ∧ i.y < 2 ^ 31 ∧ i.z < 2 ^ 31 ∧ i.level < 2 ^ 31

/-- The members of the header can hold its values. -/
def SmallHead (d : Head) : Prop := d.node < 2 ^ 64 ∧ d.rwaddr < 2 ^ 64 ∧ d.data < 2 ^ 64 ∧ SmallIndex d.index

end Dashmm.Route
