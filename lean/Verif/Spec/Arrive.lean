import Verif.Model.Arrive
/-!
Specification vocabulary for the way of the records to the cells (C81).
-/
namespace Dashmm
namespace Arrive
open Grid

variable {K : Type} [Field K] [LinearOrder K] [FloorRing K] {S T : Type}

/-- The other ranks. -/
def others (ranks o : Nat) : List Nat := (List.range ranks).filter (· ≠ o)

/-- What happened on all ranks: each has sorted its records, and has received, from each other rank, the bytes that this rank put into its
message (at any address, in any memory). `rcv r o` is what rank `o` asks for because of the message of rank `r`. If the targets are the sources, they
are only counted, not sorted. -/
structure Exchanged [Inhabited S] [Inhabited T] (E : Points.Env S T) (ranks : Nat) (d : Domain K) (level fuel : Nat) (posS : S → Point K)
    (posT : T → Point K) (PS : Nat → List S) (PT : Nat → List T) (srt : Nat → Sorted S) (trt : Nat → Sorted T)
    (rcv : Nat → Nat → Points.Received S T) : Prop where
  dim : E.dim3 = 8 ^ level
  sortS : ∀ r < ranks, sortLocal d level fuel posS (PS r) = some (srt r)
  sortT : E.same = false → ∀ r < ranks, sortLocal d level fuel posT (PT r) = some (trt r)
  countT : ∀ r < ranks, (trt r).count = (assignPoints d level ((PT r).map posT)).2
  message : ∀ r < ranks, ∀ o < ranks, r ≠ o → ∃ rw smeta tmeta p m p' m', rw < 2 ^ 64 ∧ smeta < 2 ^ 64 ∧ tmeta < 2 ^ 64 ∧
    Mem.load m' p' (Points.parcelBytes E (args (srt r) (trt r) rw smeta tmeta) o) =
      (Points.fill E (args (srt r) (trt r) rw smeta tmeta) o p m).1.load p (Points.parcelBytes E (args (srt r) (trt r) rw smeta tmeta) o) ∧
    Points.recv E o p' (Points.parcelBytes E (args (srt r) (trt r) rw smeta tmeta) o) m' = some (rcv r o)

/-- The cell is complete: it holds each record of `Q` once, nothing was written outside of it, and its partitioning is started, once. -/
def Filled {R : Type} (s : Merge.State R) (Q : List R) : Prop :=
  s.overrun = false ∧ s.started = 1 ∧ ∃ L : List R, s.parts = L.map some ∧ L.Perm Q

end Arrive
end Dashmm
