import Mathlib.Data.List.Sort
/-!
# The files of test points and their combination

`test/common/common.h`, `save_to_file` of `test/makepoints/makepoints.cc`,
`test/combinepoints/combiner.h`, `combiner.cc` and `combine.cc`.

The layout of the records in a file (sizes, padding) is a parameter: a `Codec` with an inverse.
`S` is the type of source records, `P` of positions, `V` of potentials, `F` of kernel parameters.
-/
namespace Dashmm.Combine

/-- Writing a record of type `α` with `fwrite` and reading it with `fread`: a fixed positive number of
bytes (`sizeof`), and reading gives back what was written. An `int` is an `Int32`. -/
structure Codec (α : Type) where
  size : ℕ
  pos : 0 < size
  enc : α → List UInt8
  dec : List UInt8 → α
  len : ∀ a, (enc a).length = size
  inv : ∀ a, dec (enc a) = a

/-- `FileHeader`, test/common/common.h:8-17. -/
@[ext] structure Header (F : Type) where
  nSources : Int32
  nTargets : Int32
  refinementLimit : Int32
  hasLaplace : Bool
  hasYukawa : Bool
  hasHelmholtz : Bool
  yukawaParam : F
  helmholtzParam : F
deriving DecidableEq

/-- `FileTargetData`, test/common/common.h:25-32. -/
@[ext] structure FileTarget (P V : Type) where
  position : P
  phi : V
  phiLaplace : V
  phiYukawa : V
  phiHelmholtz : V
  index : Int32
deriving DecidableEq

/-- `Combiner`, test/combinepoints/combiner.h:43-47; null pointers are empty lists. -/
@[ext] structure Combiner (S P V F : Type) where
  head : Header F
  sources : List S
  targets : List (FileTarget P V)
deriving DecidableEq

variable {S P V F : Type}

/-- The three codecs of a file. -/
structure Layout (S P V F : Type) where
  header : Codec (Header F)
  source : Codec S
  target : Codec (FileTarget P V)

/-- `fread(_, size, n, file)`: the complete records read and what remains; it stops at the first record
that is not there in full. -/
def fread {α : Type} (c : Codec α) : ℕ → List UInt8 → List α × List UInt8
  | 0, bs => ([], bs)
  | n + 1, bs =>
    if bs.length < c.size then ([], [])
    else
      let r := fread c n (bs.drop c.size)
      (c.dec (bs.take c.size) :: r.1, r.2)

/-- How constructing a `Combiner` from a file ends: normally, with one of the four
`std::ios_base::failure`, or with the `std::bad_array_new_length` of `new T[negative]`. -/
inductive ReadEnd (S P V F : Type) where
  | ok (c : Combiner S P V F)
  | noFile
  | noHeader
  | noSources
  | noTargets
  | badLength

/-- `Combiner::Combiner(std::string)`, test/combinepoints/combiner.cc:9-57. `file` is `none` if `fopen`
fails. -/
def readFile (L : Layout S P V F) (file : Option (List UInt8)) : ReadEnd S P V F :=
  match file with
  | none => .noFile
  | some bs =>
    match fread L.header 1 bs with
    | (head :: _, bs1) =>
      if head.nSources.toInt < 0 then .badLength
      else
        let rs := fread L.source head.nSources.toInt.toNat bs1
        if rs.1.length ≠ head.nSources.toInt.toNat then .noSources
        else if head.nTargets.toInt < 0 then .badLength
        else
          let rt := fread L.target head.nTargets.toInt.toNat rs.2
          if rt.1.length ≠ head.nTargets.toInt.toNat then .noTargets
          else .ok ⟨head, rs.1, rt.1⟩
    | ([], _) => .noHeader

/-- What `Combiner::Combine` throws: `std::runtime_error` with one of five messages or, for
`badFunction`, the `std::bad_function_call` of an empty `std::function`. `outOfBounds` stands for an
access outside of `other.targets_`. -/
inductive Thrown where
  | countMismatch
  | bothLaplace
  | bothYukawa
  | bothHelmholtz
  | indexMismatch
  | badFunction
  | outOfBounds
deriving DecidableEq

/-- Lines 60-117 of `Combiner::Combine`, test/combinepoints/combiner.cc: the checks, the new header and
the function to copy a field. -/
def setup (h o : Header F) :
    Header F × (Thrown ⊕ Option (FileTarget P V → FileTarget P V → FileTarget P V)) :=
  if h.nSources ≠ o.nSources ∨ h.nTargets ≠ o.nTargets then (h, .inl .countMismatch)
  else if o.hasLaplace then
    if h.hasLaplace then (h, .inl .bothLaplace)
    else ({ h with hasLaplace := true }, .inr (some fun a b => { a with phiLaplace := b.phiLaplace }))
  else if o.hasYukawa then
    if h.hasYukawa then (h, .inl .bothYukawa)
    else ({ h with hasYukawa := true }, .inr (some fun a b => { a with phiYukawa := b.phiYukawa }))
  else if o.hasHelmholtz then
    if h.hasHelmholtz then (h, .inl .bothHelmholtz)
    else ({ h with hasHelmholtz := true }, .inr (some fun a b => { a with phiHelmholtz := b.phiHelmholtz }))
  else (h, .inr none)

/-- The loop over the targets, test/combinepoints/combiner.cc:122-133. It runs to `n_targets`, the length
of both arrays. -/
def copyLoop (copy : Option (FileTarget P V → FileTarget P V → FileTarget P V)) :
    List (FileTarget P V) → List (FileTarget P V) → List (FileTarget P V) × Option Thrown
  | [], _ => ([], none)
  | t :: ts, [] => (t :: ts, some .outOfBounds)
  | t :: ts, o :: os =>
    if t.index = o.index then
      match copy with
      | none => (t :: ts, some .badFunction)
      | some f =>
        let r := copyLoop copy ts os
        (f t o :: r.1, r.2)
    else (t :: ts, some .indexMismatch)

/-- `Combiner::Combine`, test/combinepoints/combiner.cc:59-134: the state of the object afterwards and the
exception, if any. -/
def combine (c o : Combiner S P V F) : Combiner S P V F × Option Thrown :=
  match setup (P := P) (V := V) c.head o.head with
  | (h, .inl e) => ({ c with head := h }, some e)
  | (h, .inr copy) =>
    let r := copyLoop copy c.targets o.targets
    ({ c with head := h, targets := r.1 }, r.2)

/-- `Combiner::HasAllPhis`, test/combinepoints/combiner.h:39-41. -/
def Combiner.hasAllPhis (c : Combiner S P V F) : Bool :=
  c.head.hasLaplace && c.head.hasYukawa && c.head.hasHelmholtz

/-- `Combiner::Write`, test/combinepoints/combiner.cc:136-164, on a disk with room: header, sources,
targets. (The file is never closed; what is buffered is written at exit.) -/
def write (L : Layout S P V F) (c : Combiner S P V F) : List UInt8 :=
  L.header.enc c.head ++ (c.sources.map L.source.enc).flatten ++ (c.targets.map L.target.enc).flatten

/-- How the program ends: it returns `code` having printed a complaint or not, and the line that the
files were combined successfully or not; or an exception ends it. -/
inductive MainEnd where
  | returned (code : ℤ) (complained said : Bool)
  | terminated
deriving DecidableEq

/-- `main` of test/combinepoints/combine.cc:12-41 with four file names: the output file, if it was
written, and the end. `outOk`: the output can be opened. The use of the second file is commented out
there, lines 22 and 25. -/
def mainRun (L : Layout S P V F) (f1 _f2 f3 : Option (List UInt8)) (outOk : Bool) :
    Option (List UInt8) × MainEnd :=
  match readFile L f1 with
  | .badLength => (none, .terminated)
  | .ok c1 =>
    match readFile L f3 with
    | .badLength => (none, .terminated)
    | .ok c3 =>
      match combine c1 c3 with
      | (_, some .badFunction) => (none, .terminated)
      | (_, some _) => (none, .returned 0 true true)
      | (c, none) => if outOk then (some (write L c), .returned 0 false true) else (none, .returned 0 true true)
    | _ => (none, .returned 0 true true)
  | _ => (none, .returned 0 true true)

/-- `TargetData` of makepoints, test/makepoints/makepoints.cc:44-48. -/
structure MadeTarget (P V : Type) where
  position : P
  phi : V
  index : Int32

/-- The kernel named on the command line of makepoints, test/makepoints/makepoints.cc:248-271; any other
name leaves `saver` empty. -/
inductive Kernel where
  | laplace
  | yukawa
  | helmholtz
  | other
deriving DecidableEq

/-- `saver`, test/makepoints/makepoints.cc:247-271, on a `FileTargetData loop{}` whose fields are `zero`. -/
def saver (zero : V) (k : Kernel) (a : MadeTarget P V) : Option (FileTarget P V) :=
  match k with
  | .laplace => some ⟨a.position, zero, a.phi, zero, zero, a.index⟩
  | .yukawa => some ⟨a.position, zero, zero, a.phi, zero, a.index⟩
  | .helmholtz => some ⟨a.position, zero, zero, zero, a.phi, a.index⟩
  | .other => none

/-- The header, test/makepoints/makepoints.cc:237-246 and the flags at 249, 256, 263. -/
def savedHeader (nS nT limit : Int32) (yuk helm : F) (k : Kernel) : Header F :=
  ⟨nS, nT, limit, k = .laplace, k = .yukawa, k = .helmholtz, yuk, helm⟩

/-- The saving of the targets, test/makepoints/makepoints.cc:278-282: the loop runs to `kNSources`, here
`n`; `none` is the exception of an empty `saver`. -/
def savedTargets (zero : V) (k : Kernel) (n : ℕ) (ts : List (MadeTarget P V)) : Option (List (FileTarget P V)) :=
  (ts.take n).mapM (saver zero k)

/-- `save_to_file`, test/makepoints/makepoints.cc:212-286: sorting by index, header, sources, targets.
`std::sort` is modelled by a merge sort: all indices differ. `none`: the program is ended by an
exception. Running out of memory is not modelled. `idx` is the index of a source. -/
def saveFile (L : Layout S P V F) (idx : S → Int32) (zero : V) (limit : Int32) (yuk helm : F) (k : Kernel)
    (ss : List S) (ts : List (MadeTarget P V)) : Option (List UInt8) :=
  let ss := ss.mergeSort fun a b => (idx a).toInt ≤ (idx b).toInt
  let ts := ts.mergeSort fun a b => a.index.toInt ≤ b.index.toInt
  (savedTargets zero k ss.length ts).map fun fts =>
    L.header.enc (savedHeader (.ofNat ss.length) (.ofNat ts.length) limit yuk helm k) ++
      (ss.map L.source.enc).flatten ++ (fts.map L.target.enc).flatten

end Dashmm.Combine
