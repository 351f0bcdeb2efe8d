/-!
# Model of `RankLocal` and `RankWise`, include/dashmm/rankwise.h

The objects live on the rank `me`. Simplifications: the data (`T`) is one value; the cyclic allocation of a `RankWise` lives as long as the objects; its
block `r` is on rank `r` (`hpx_gas_calloc_cyclic` with as many blocks as ranks), so that `hpx_gas_try_pin` succeeds exactly on the own block.
`operator=(RankLocal &&)` ends without a `return` (undefined in C++): its effect on the members is modelled, what happens afterwards is not.
-/

namespace Dashmm.RankLocal

/-- A global address: the allocation and the block, `hpx_addr_add(data_, sizeof(T) * rank, sizeof(T))`, include/dashmm/rankwise.h:195-198. -/
structure Addr where
  alloc : Nat
  rank : Nat
  deriving DecidableEq

/-- What `local_` points to: pinned memory, or the memory of a copy that was fetched. -/
inductive Ptr where
  | mem (a : Addr)
  | copy (b : Nat)
  deriving DecidableEq

/-- The members `local_`, `global_` and `remote_`, include/dashmm/rankwise.h:113-117; `none` is `nullptr` and `HPX_NULL`. -/
structure Obj where
  ptr : Option Ptr
  glob : Option Addr
  remote : Bool
  deriving DecidableEq

/-- What has been acquired and must be given back: a pin, or registered memory. -/
inductive Res where
  | pin (a : Addr)
  | buf (b : Nat)
  deriving DecidableEq

/-- The state of the rank: the data of all ranks, the contents of the copies, what is acquired, the number of the next copy, and the objects with
their names. -/
structure State (V : Type) where
  mem : Addr → V
  copies : Nat → V
  live : List Res
  next : Nat
  objs : List (Nat × Obj)

/-- An object after it has been moved from, include/dashmm/rankwise.h:79-81, 89-91. -/
def Obj.empty : Obj := ⟨none, none, false⟩

/-- The first object of a name. -/
def find : List (Nat × Obj) → Nat → Option Obj
  | [], _ => none
  | (k, o) :: l, v => if k = v then some o else find l v

/-- The members of an object change. -/
def put : List (Nat × Obj) → Nat → Obj → List (Nat × Obj)
  | [], _, _ => []
  | (k, o) :: l, v, o' => if k = v then (k, o') :: l else (k, o) :: put l v o'

/-- The object is gone. -/
def del : List (Nat × Obj) → Nat → List (Nat × Obj)
  | [], _ => []
  | (k, o) :: l, v => if k = v then l else (k, o) :: del l v

/-- The constructor `RankLocal(global)`, include/dashmm/rankwise.h:40-55. `nomem` says whether `hpx_malloc_registered` fails. -/
def construct {V : Type} (me : Nat) (nomem : Bool) (S : State V) : Option Addr → Obj × State V
  | none => (⟨none, none, false⟩, S)
  | some a =>
    if a.rank = me then (⟨some (.mem a), some a, false⟩, { S with live := .pin a :: S.live })
    else if nomem then (⟨none, none, false⟩, S)
    else (⟨some (.copy S.next), some a, true⟩, { S with
      copies := fun b => if b = S.next then S.mem a else S.copies b
      live := .buf S.next :: S.live
      next := S.next + 1 })

/-- Something acquired is given back; `none` if it is not there (undefined). -/
def giveBack (live : List Res) (r : Res) : Option (List Res) :=
  if r ∈ live then some (live.erase r) else none

/-- The destructor, include/dashmm/rankwise.h:58-68: what is acquired afterwards. `hpx_free_registered` gets `local_`, `hpx_gas_unpin` gets `global_`;
given anything else than a copy or an address they are undefined. -/
def release (live : List Res) (o : Obj) : Option (List Res) :=
  match o.ptr with
  | none => some live
  | some p =>
    if o.remote then
      match p with
      | .copy b => giveBack live (.buf b)
      | .mem _ => none
    else
      match o.glob with
      | some a => giveBack live (.pin a)
      | none => none

/-- What a program does with the objects. -/
inductive Cmd (V : Type) where
  /-- `RankLocal<T> v(g)`; also `RankWise::there(rank)` and `here()`, include/dashmm/rankwise.h:181-191, with the address of the block -/
  | make (v : Nat) (g : Option Addr) (nomem : Bool)
  /-- the object `v` is destroyed -/
  | drop (v : Nat)
  /-- `RankLocal<T> v(std::move(w))` -/
  | move (v w : Nat)
  /-- `v = std::move(w)` -/
  | assign (v w : Nat)
  /-- `*v = x` -/
  | write (v : Nat) (x : V)
  /-- another thread or rank writes its data -/
  | outside (a : Addr) (x : V)

/-- One step; `none` is undefined behaviour, or a name that is not right. -/
def step {V : Type} (me : Nat) (S : State V) : Cmd V → Option (State V)
  | .make v g nomem =>
    if (find S.objs v).isSome then none
    else
      let (o, S') := construct me nomem S g
      some { S' with objs := (v, o) :: S'.objs }
  | .drop v =>
    match find S.objs v with
    | none => none
    | some o => (release S.live o).map fun l => { S with live := l, objs := del S.objs v }
  | .move v w => -- include/dashmm/rankwise.h:75-82
    if (find S.objs v).isSome then none
    else match find S.objs w with
      | none => none
      | some o => some { S with objs := (v, o) :: put S.objs w .empty }
  | .assign v w => -- include/dashmm/rankwise.h:85-92
    match find S.objs v, find S.objs w with
    | some _, some o => some { S with objs := put (put S.objs v o) w .empty }
    | _, _ => none
  | .write v x => -- include/dashmm/rankwise.h:110
    match find S.objs v with
    | some ⟨some (.mem a), _, _⟩ => some { S with mem := fun c => if c = a then x else S.mem c }
    | some ⟨some (.copy b), _, _⟩ =>
      if .buf b ∈ S.live then some { S with copies := fun c => if c = b then x else S.copies c } else none
    | _ => none
  | .outside a x => some { S with mem := fun c => if c = a then x else S.mem c }

/-- `*v`, include/dashmm/rankwise.h:110; `none` if it is undefined. -/
def read {V : Type} (S : State V) (v : Nat) : Option V :=
  match find S.objs v with
  | some ⟨some (.mem a), _, _⟩ => if .pin a ∈ S.live then some (S.mem a) else none
  | some ⟨some (.copy b), _, _⟩ => if .buf b ∈ S.live then some (S.copies b) else none
  | _ => none

/-- `v.valid()`, include/dashmm/rankwise.h:96. -/
def valid {V : Type} (S : State V) (v : Nat) : Bool :=
  match find S.objs v with
  | some o => o.glob.isSome && o.ptr.isSome
  | none => false

/-- `v.remote()`, include/dashmm/rankwise.h:97. -/
def remote {V : Type} (S : State V) (v : Nat) : Bool :=
  match find S.objs v with
  | some o => o.remote
  | none => false

/-- A rank on which no object has been made yet. -/
def start {V : Type} (mem : Addr → V) (copies : Nat → V) : State V := ⟨mem, copies, [], 0, []⟩

/-- A history. -/
def run {V : Type} (me : Nat) (S : State V) (h : List (Cmd V)) : Option (State V) := h.foldlM (step me) S

end Dashmm.RankLocal
