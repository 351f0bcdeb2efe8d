import Verif.Spec.RankTree
import Verif.Model.ReadBack
/-!
Specification vocabulary for what the user reads back after an evaluation (C82).
-/
namespace Dashmm
open Lap RankTree Branch

/-- `path` numbers the cells of the uniform grid as the code does. -/
def Numbers {R : Type} (C : Cfg R) (path : Nat → List Nat) : Prop := ∀ c < 8 ^ C.unif, C.IsCell (path c) ∧ cellOf C.unif (path c) = c

/-- The records with their results answer the question of the user, up to a relative error `ε`: each record of `T` is there once, and with it its potential due to
the sources `P`, added to what it held before. `tgt` are the position and the member with the result of a record. -/
def Answered {R : Type} (tgt : R → Tgt) (P : List Src) (T : List R) (ε : ℝ) (out : List (R × WithTop ℝ)) : Prop :=
  (out.map Prod.fst).Perm T ∧
  ∀ y ∈ out, ∃ v : ℝ, y.2 = (v : WithTop ℝ) ∧ |v - (tgt y.1).phi - potential P (tgt y.1).pos| ≤ ε * absPotential P (tgt y.1).pos

/-- What the array of rank `r` is after the evaluation: `recs r` are its records, and they are those that the tree sorted into it, with the results of the LCOs in them.
A record in memory (of type `F`) is a record of the tree with a result, `view`. -/
def Afterwards {R F V : Type} (C : Cfg R) (path : Nat → List Nat) (old : R → V) (rs : List Ref) (acc : Ref → Nat → V) (w : World R) (view : F → R × V)
    (recs : Fin C.ranks → List F) : Prop :=
  ∀ r, (recs r).map view = ReadBack.rankArray C path old rs acc w r

/-- The same for an evaluation of Laplace potentials. -/
def AfterLap {R F : Type} (C : Cfg R) (path : Nat → List Nat) (tgt : R → Tgt) (acts : List Act) (acc : Ref → LapVal) (w : World R) (view : F → R × WithTop ℝ)
    (recs : Fin C.ranks → List F) : Prop :=
  Afterwards C path (fun x => ((tgt x).phi : WithTop ℝ)) (resultNodes acts) (fun r i => (acc r).2.2 i) w view recs

/-- `mem` is what a collect on rank 0 of an array with these records on the ranks returns: the result array has room for all of them, and in some schedule as many completions have been
set as there are ranks. -/
def Collected {F : Type} {n : Nat} (ser : Arr.Serializer F) (l : Fin n → Arr.Local F) (recs : Fin n → List F) (mem : List F) : Prop :=
  ∃ mem0 c, mem0.length = ((List.finRange n).map fun r => (recs r).length).sum ∧ Arr.CReach ser (fun r => ReadBack.replace (l r) (recs r)) mem0 c ∧ c.done = n ∧ mem = c.mem

end Dashmm
