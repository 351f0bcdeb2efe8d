import Mathlib.Data.Multiset.AddSub
import Verif.Model.Dag
import Verif.Model.Kernels
/-
The memory that the operations of the built-in expansions allocate and free
(/repo/include/builtins/laplace.h, yukawa.h, helmholtz.h, laplace_com.h, laplace_com_acc.h,
/repo/src/laplace.cc, yukawa.cc, special_function.cc).

A program acts on a ledger of the live blocks.  It gets stuck (`none`) when it frees a block that is
not live, frees memory that belongs to a parcel, uses memory that is not live, or reads a view that an
expansion does not have.  Contents are left out: what is computed is in the models of the operators
(Model/Laplace, Plane, Yukawa, Waves, Helmholtz, Com).  `std::vector` scratch space frees itself and is
left out.  A block is freed whatever type it is freed through (`delete [] T2` for a `dcomplex_t` array,
`delete [] views_.view_data(i)` for a `char` array that may have been a `dcomplex_t` one).
-/
namespace Dashmm.ExpMem

/-- Where the data of a view is: a block of its own, or inside a parcel (the views that
`ViewSet::interpret` gives, src/viewset.cc:91-135). -/
inductive Ptr where
  | own (b : ℕ)
  | inside (q : ℕ)
  deriving DecidableEq

/-- The live memory: blocks from `new`, and parcels. -/
structure Led where
  /-- no block or parcel so far has this number, or a larger one -/
  next : ℕ
  heap : Multiset ℕ
  parc : Multiset ℕ

/-- A program that allocates and frees. -/
abbrev Prog := StateT Led Option

/-- `new T[n]` -/
def new : Prog ℕ := fun L => some (L.next, { L with next := L.next + 1, heap := L.next ::ₘ L.heap })

/-- `delete [] p` for a block from `new` -/
def del (b : ℕ) : Prog Unit := fun L => if b ∈ L.heap then some ((), { L with heap := L.heap.erase b }) else none

/-- `delete [] p` -/
def delPtr : Ptr → Prog Unit
  | .own b => del b
  | .inside _ => fun _ => none

/-- Read or write through a pointer. -/
def use : Ptr → Prog Unit
  | .own b => fun L => if b ∈ L.heap then some ((), L) else none
  | .inside q => fun L => if q ∈ L.parc then some ((), L) else none

/-- `if (c) delete [] p` -/
def delIf (c : Bool) (b : ℕ) : Prog Unit := if c then del b else pure ()

/-- A loop with `n` turns. -/
def rep : ℕ → Prog Unit → Prog Unit
  | 0, _ => pure ()
  | n + 1, P => do P; rep n P

/-- The views of an expansion: the index of the view and its data (struct View, include/dashmm/viewset.h:31-36). -/
abbrev Views := List (ℕ × Ptr)

/-- An expansion made with `new expansion_t`: the object and its views. -/
structure Obj where
  self : ℕ
  views : Views

/-- `enum ExpansionRole`, include/dashmm/types.h:65-71. -/
inductive Role where
  | sourcePrimary | sourceIntermediate | targetPrimary | targetIntermediate
  deriving DecidableEq

/-- How many views the constructor of an expansion makes: laplace.h:84-113, yukawa.h:90-119,
helmholtz.h:53-106, laplace_com.h:72-86, laplace_com_acc.h:72-86. -/
def viewCount : Expansion → Role → ℕ
  | .laplace, .sourcePrimary | .laplace, .targetPrimary => 1
  | .laplace, .sourceIntermediate => 6
  | .laplace, .targetIntermediate => 28
  | .yukawa, .sourcePrimary | .yukawa, .targetPrimary => 1
  | .yukawa, .sourceIntermediate => 6
  | .yukawa, .targetIntermediate => 28
  | .helmholtz, .sourcePrimary | .helmholtz, .targetPrimary => 1
  | .helmholtz, .sourceIntermediate => 9
  | .helmholtz, .targetIntermediate => 56
  | .laplaceCOM, _ | .laplaceCOMAcc, _ => 1

/-- The loops over `add_view(i, bytes, new char[bytes]())` in the constructors: views `i`, `i + 1`, …. -/
def mkViews : ℕ → ℕ → Prog Views
  | 0, _ => pure []
  | n + 1, i => do
    let b ← new
    let vs ← mkViews n (i + 1)
    pure ((i, .own b) :: vs)

/-- `new expansion_t{role, …}`. -/
def construct (k : Expansion) (r : Role) : Prog Obj := do
  let self ← new
  let vs ← mkViews (viewCount k r) 0
  pure ⟨self, vs⟩

/-- The destructor: laplace.h:117-124, yukawa.h:122-129, helmholtz.h:110-117, laplace_com.h:98-103. -/
def destruct : Views → Prog Unit
  | [] => pure ()
  | v :: vs => do delPtr v.2; destruct vs

/-- `delete` of an expansion, or the end of the `unique_ptr` that owns it. -/
def delete (o : Obj) : Prog Unit := do
  destruct o.views
  del o.self

/-- `views_.view_data(i)` and its use. -/
def useView (vs : Views) (i : ℕ) : Prog Unit :=
  match vs[i]? with
  | some v => use v.2
  | none => fun _ => none

/-- Views `i`, …, `i + n - 1` are used. -/
def useViews (vs : Views) : ℕ → ℕ → Prog Unit
  | 0, _ => pure ()
  | n + 1, i => do useView vs i; useViews vs n (i + 1)

/-- `add_expansion`: laplace.h:323-338, yukawa.h:279-294, helmholtz.h:1043-1058; the centre-of-mass
expansions read view 0 of the one and write the data of the other, laplace_com.h:251-290.  Every view of the
incoming expansion is added to the view of that index. -/
def addExpansion (lhs : Views) : Views → Prog Unit
  | [] => pure ()
  | v :: vs => do
    useView lhs v.1
    use v.2
    addExpansion lhs vs

/-- What the cost of an operation depends on: the number of sources or targets at hand, and the numbers
of quadrature nodes of the tables (`s`, `s_e`, `s_p`). -/
structure Sizes where
  points : ℕ
  s : ℕ
  sE : ℕ
  sP : ℕ

/-! ### Laplace -/

/-- laplace.h:160-174 (`kSourcePrimary`) and 176-184 (`kTargetPrimary`). `lap_s_to_m`, `lap_s_to_l`
(laplace.cc:68-145) allocate vectors only. Also Yukawa: yukawa.h:165-187. -/
def sphFromSources (k : Expansion) (r : Role) (z : Sizes) : Prog (Option Obj) := do
  let o ← construct k r
  rep z.points (useView o.views 0)
  pure (some o)

/-- laplace.h:186-192, 251-258; yukawa.h:191-198, 204-212. -/
def sphTranslate (k : Expansion) (r : Role) (src : Views) : Prog (Option Obj) := do
  let o ← construct k r
  useView src 0
  useView o.views 0
  pure (some o)

/-- laplace.h:194-249. -/
def lapMToL (src : Views) : Prog (Option Obj) := do
  let o ← construct .laplace .targetPrimary
  let powersRho ← new
  let W2 ← new
  useView o.views 0
  useView src 0
  del W2
  del powersRho
  pure (some o)

/-- laplace.h:260-280, 299-304 (`lap_m_to_i`, laplace.cc:277-383, has no array of its own); yukawa.h:254-260
(`yuk_m_to_i`, yukawa.cc:508-623). -/
def sphMToI (k : Expansion) (src : Views) : Prog (Option Obj) := do
  let o ← construct k .sourceIntermediate
  useView src 0
  useViews o.views 6 0
  pure (some o)

/-- The loop over the entries of `merge_and_shift_table` that are not -1, laplace.cc:419-440,
yukawa.cc:659-680: the views of the result. `T` are the arrays that are still there. -/
def shiftLoop : List ℕ → List ℕ → Prog Views
  | tag :: tags, T :: Ts => do
    use (.own T)
    let vs ← shiftLoop tags Ts
    pure ((tag, .own T) :: vs)
  | _, _ => pure []

/-- laplace.h:306-311 with laplace.cc:384-447; yukawa.h:262-268 with yukawa.cc:625-689. `tags`: the entries of
`merge_and_shift_table` for this pair, up to the first -1 (at most three). -/
def sphIToI (src : Views) (tags : List ℕ) : Prog (Option Obj) := do
  useViews src 6 0
  let T1 ← new
  let T2 ← new
  let T3 ← new
  let vs ← shiftLoop tags [T1, T2, T3]
  delIf (tags.length ≤ 1) T2
  delIf (tags.length ≤ 2) T3
  let self ← new
  pure (some ⟨self, vs⟩)

/-- `lap_e_to_l`, laplace.cc:663-770. -/
def lapEToL (z : Sizes) (L : Views) : Prog Unit := do
  let W1 ← new
  let W2 ← new
  rep z.s (do
    let zz ← new
    use (.own zz)
    del zz)
  useView L 0
  del W1
  del W2

/-- laplace.h:313-321 with laplace.cc:449-637. -/
def lapIToL (z : Sizes) (src : Views) : Prog (Option Obj) := do
  let o ← construct .laplace .targetPrimary
  useViews src 28 0
  let S ← new
  use (.own S)
  rep 6 (lapEToL z o.views)
  del S
  pure (some o)

/-! ### Yukawa -/

/-- `yuk_e_to_l`, yukawa.cc:903-1019: `z` (928) is not freed. -/
def yukEToL (z : Sizes) (L : Views) : Prog Unit := do
  let legendre ← new
  let W1 ← new
  let W2 ← new
  rep z.s (do
    let zz ← new
    use (.own zz))
  useView L 0
  del W1
  del W2
  del legendre

/-- yukawa.h:270-277 with yukawa.cc:691-879. -/
def yukIToL (z : Sizes) (src : Views) : Prog (Option Obj) := do
  let o ← construct .yukawa .targetPrimary
  useViews src 28 0
  let S ← new
  use (.own S)
  rep 6 (yukEToL z o.views)
  del S
  pure (some o)

/-! ### Helmholtz -/

/-- `bessel_hn_scaled`, special_function.cc:1367-1405: `Jn` and `Yn` are not freed. -/
def besselHn : Prog Unit := do
  let Jn ← new
  let Yn ← new
  use (.own Jn)
  use (.own Yn)

/-- helmholtz.h:154-207. -/
def helmSToM (z : Sizes) : Prog (Option Obj) := do
  let o ← construct .helmholtz .sourcePrimary
  let legendre ← new
  let powersEphi ← new
  let bessel ← new
  rep z.points (useView o.views 0)
  del legendre
  del powersEphi
  del bessel
  pure (some o)

/-- helmholtz.h:209-264. -/
def helmSToL (z : Sizes) : Prog (Option Obj) := do
  let o ← construct .helmholtz .targetPrimary
  let legendre ← new
  let bessel ← new
  let powersEphi ← new
  rep z.points (do
    besselHn
    useView o.views 0)
  del legendre
  del bessel
  del powersEphi
  pure (some o)

/-- `rotate_sph_z`, helmholtz.h:1099-1123. -/
def rotateZ : Prog Unit := do
  let powersEalpha ← new
  use (.own powersEalpha)
  del powersEalpha

/-- helmholtz.h:266-314 and 322-372. -/
def helmTranslate (r : Role) (src : Views) : Prog (Option Obj) := do
  let o ← construct .helmholtz r
  useView src 0
  useView o.views 0
  let W2 ← new
  rotateZ
  rotateZ
  del W2
  pure (some o)

/-- helmholtz.h:374-426. -/
def helmMToT (z : Sizes) (src : Views) : Prog Unit := do
  let legendre ← new
  let bessel ← new
  let powersEphi ← new
  rep z.points (do
    besselHn
    useView src 0)
  del legendre
  del powersEphi
  del bessel

/-- helmholtz.h:428-477. -/
def helmLToT (z : Sizes) (src : Views) : Prog Unit := do
  let legendre ← new
  let bessel ← new
  let powersEphi ← new
  rep z.points (useView src 0)
  del powersEphi
  del bessel
  del legendre

/-- helmholtz.h:499-648. -/
def helmMToI (z : Sizes) (src : Views) : Prog (Option Obj) := do
  let o ← construct .helmholtz .sourceIntermediate
  useView src 0
  useViews o.views 9 0
  let W1 ← new
  let W2 ← new
  rotateZ
  let legendreE ← new
  let legendreP ← new
  rep 3 (do
    rep z.sP (do
      let zp ← new
      let zm ← new
      del zp
      del zm)
    rep z.sE (do
      let z1 ← new
      let z2 ← new
      del z1
      del z2))
  del W1
  del W2
  del legendreP
  del legendreE
  pure (some o)

/-- The loop of helmholtz.h:708-735: two views for each entry of the table. -/
def shiftLoop2 : List ℕ → List (ℕ × ℕ) → Prog Views
  | tag :: tags, T :: Ts => do
    use (.own T.1)
    use (.own T.2)
    let vs ← shiftLoop2 tags Ts
    pure ((2 * tag, .own T.1) :: (2 * tag + 1, .own T.2) :: vs)
  | _, _ => pure []

/-- helmholtz.h:650-749. -/
def helmIToI (src : Views) (tags : List ℕ) : Prog (Option Obj) := do
  useViews src 9 0
  let T1 ← new
  let T2 ← new
  let T3 ← new
  let T4 ← new
  let T5 ← new
  let T6 ← new
  let vs ← shiftLoop2 tags [(T1, T2), (T3, T4), (T5, T6)]
  delIf (tags.length ≤ 1) T3
  delIf (tags.length ≤ 1) T4
  delIf (tags.length ≤ 2) T5
  delIf (tags.length ≤ 2) T6
  let self ← new
  pure (some ⟨self, vs⟩)

/-- `e2l`, helmholtz.h:1241-1445; `y` tells whether `dir == 'y'`. -/
def helmEToL (z : Sizes) (L : Views) (y : Bool) : Prog Unit := do
  let legendreE ← new
  let legendreP ← new
  let W1 ← new
  let W2 ← new
  rep z.sE (do
    let zz ← new
    use (.own zz)
    del zz)
  rep z.sP (do
    let zz ← new
    use (.own zz)
    del zz)
  (if y then rotateZ else pure ())
  useView L 0
  del W1
  del W2
  del legendreE
  del legendreP

/-- helmholtz.h:751-1041. -/
def helmIToL (z : Sizes) (src : Views) : Prog (Option Obj) := do
  let o ← construct .helmholtz .targetPrimary
  useViews src 56 0
  let S ← new
  use (.own S)
  rep 2 (helmEToL z o.views false)
  rep 2 (helmEToL z o.views true)
  rep 2 (helmEToL z o.views false)
  del S
  pure (some o)

/-! ### Centre of mass -/

/-- laplace_com.h:160-167, laplace_com_acc.h:160-167. -/
def comSToM (k : Expansion) : Prog (Option Obj) := do
  let o ← construct k .sourcePrimary
  useView o.views 0
  pure (some o)

/-- laplace_com.h:174-181, laplace_com_acc.h:174-181. -/
def comMToM (k : Expansion) (src : Views) : Prog (Option Obj) := do
  useView src 0
  let o ← construct k .sourcePrimary
  useView o.views 0
  pure (some o)

/-! ### All operations -/

/-- The operations that give an expansion: `none` is `std::unique_ptr<expansion_t>{nullptr}` (laplace_com.h:169-172,
183-189, 239-249, the same lines of laplace_com_acc.h up to 275, yukawa.h:200-203, helmholtz.h:315-318).
`src` are the views of the expansion the operation is called on. -/
def opProg (k : Expansion) (z : Sizes) (op : Op) (src : Views) (tags : List ℕ) : Prog (Option Obj) :=
  match k, op with
  | .laplace, .StoM | .yukawa, .StoM => sphFromSources k .sourcePrimary z
  | .laplace, .StoL | .yukawa, .StoL => sphFromSources k .targetPrimary z
  | .laplace, .MtoM | .yukawa, .MtoM => sphTranslate k .sourcePrimary src
  | .laplace, .LtoL | .yukawa, .LtoL => sphTranslate k .targetPrimary src
  | .laplace, .MtoL => lapMToL src
  | .laplace, .MtoI | .yukawa, .MtoI => sphMToI k src
  | .laplace, .ItoI | .yukawa, .ItoI => sphIToI src tags
  | .laplace, .ItoL => lapIToL z src
  | .yukawa, .ItoL => yukIToL z src
  | .helmholtz, .StoM => helmSToM z
  | .helmholtz, .StoL => helmSToL z
  | .helmholtz, .MtoM => helmTranslate .sourcePrimary src
  | .helmholtz, .LtoL => helmTranslate .targetPrimary src
  | .helmholtz, .MtoI => helmMToI z src
  | .helmholtz, .ItoI => helmIToI src tags
  | .helmholtz, .ItoL => helmIToL z src
  | .laplaceCOM, .StoM | .laplaceCOMAcc, .StoM => comSToM k
  | .laplaceCOM, .MtoM | .laplaceCOMAcc, .MtoM => comMToM k src
  | _, _ => pure none

/-- The operations that act on targets: `M_to_T`, `L_to_T`, `S_to_T`. Those of Laplace (laplace.h:260-297), Yukawa
(yukawa.h:214-252) and the centre-of-mass expansions (laplace_com.h:191-237) allocate vectors only; `L_to_T` of the
centre-of-mass expansions does nothing (laplace_com.h:217); `S_to_T` uses no view. -/
def tgtProg (k : Expansion) (z : Sizes) (op : Op) (src : Views) : Prog Unit :=
  match k, op with
  | .helmholtz, .MtoT => helmMToT z src
  | .helmholtz, .LtoT => helmLToT z src
  | .laplaceCOM, .LtoT | .laplaceCOMAcc, .LtoT => pure ()
  | _, .MtoT | _, .LtoT => rep z.points (useView src 0)
  | _, _ => pure ()

end Dashmm.ExpMem
