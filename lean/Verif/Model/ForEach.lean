/-
Model of /repo/include/dashmm/arrayforeachaction.h.
-/
namespace Dashmm
namespace ForEach

/-- A pending call of `spawn_handler`: `data` (as an offset from the segment's start) and `count`. -/
structure Task where
  data : Nat
  count : Nat
  deriving DecidableEq, Repr

/-- `over_factor`, include/dashmm/arrayforeachaction.h:143-152. -/
def overFactor (factor threads : Nat) : Nat :=
  if factor = 0 then 1 else if threads = 1 then 1 else threads * factor

/-- `n_per_chunk` and `n_chunks`, include/dashmm/arrayforeachaction.h:153-166. -/
def chunking (total overF : Nat) : Nat × Nat :=
  let nPer := total / overF
  if nPer = 0 then (1, total)
  else (nPer, if total % nPer ≠ 0 then total / nPer + 1 else total / nPer)

/-- `spawn_handler`, include/dashmm/arrayforeachaction.h:196-222: `none` when the leaf function is
called on the task's records (and the completion LCO set), otherwise the two spawned calls. -/
def spawn (chunk : Nat) (t : Task) : Option (Task × Task) :=
  if t.count ≤ chunk then none
  else
    let numChunks := if t.count % chunk ≠ 0 then t.count / chunk + 1 else t.count / chunk
    let numLeft := numChunks / 2
    let countLeft := numLeft * chunk
    some (⟨t.data, countLeft⟩, ⟨t.data + countLeft, t.count - countLeft⟩)

/-- State of a running `forEach` on a rank: pending calls of `spawn_handler`, the leaf calls made
(`data`, `count`), the inputs set on `alldone`, and the records. -/
structure St (T : Type) where
  pool : List Task
  calls : List Task
  sets : Nat
  mem : List T

/-- Any pending call may run next. The leaf function gets the records of its task and replaces them by
`f` of them (chunks being disjoint is a theorem, so leaf calls may be taken as atomic). -/
inductive Step {T : Type} (f : List T → List T) (chunk : Nat) : St T → St T → Prop
  | leaf {a b : List Task} {t calls sets mem} : spawn chunk t = none →
      Step f chunk ⟨a ++ t :: b, calls, sets, mem⟩
        ⟨a ++ b, calls ++ [t], sets + 1,
          mem.take t.data ++ f ((mem.drop t.data).take t.count) ++ mem.drop (t.data + t.count)⟩
  | split {a b : List Task} {t t1 t2 calls sets mem} : spawn chunk t = some (t1, t2) →
      Step f chunk ⟨a ++ t :: b, calls, sets, mem⟩ ⟨a ++ t1 :: t2 :: b, calls, sets, mem⟩

/-- The first `spawn_` call, include/dashmm/arrayforeachaction.h:171-172. -/
def start {T : Type} (mem : List T) : St T := ⟨[⟨0, mem.length⟩], [], 0, mem⟩

/-- States reachable under any schedule. -/
inductive Reach {T : Type} (f : List T → List T) (chunk : Nat) (mem : List T) : St T → Prop
  | start : Reach f chunk mem (start mem)
  | step {s s'} : Reach f chunk mem s → Step f chunk s s' → Reach f chunk mem s'

/-- `hpx_lco_wait(alldone)` in `root_handler` returns, include/dashmm/arrayforeachaction.h:169-177:
`alldone` was created for `n_chunks` inputs. -/
def released {T : Type} (nChunks : Nat) (s : St T) : Prop := nChunks ≤ s.sets

end ForEach
end Dashmm
