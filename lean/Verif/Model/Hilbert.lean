import Mathlib.Data.Fin.VecNotation
/-
Model of /repo/src/hilbert.cc.

Indices, keys and counts are natural numbers (no `int` overflow; with `slen = 2 ^ lvl` keys are below
`8 ^ lvl`).
-/
namespace Dashmm
namespace Hilbert

/-- `h_indicies`, src/hilbert.cc:54. -/
def hIndicies : Fin 8 → Fin 8 := ![0, 1, 3, 2, 7, 6, 4, 5]

/-- `h_transforms`, src/hilbert.cc:55-64. -/
def hTransforms : Fin 8 → Fin 8 → Fin 8 :=
  ![![0, 7, 4, 3, 2, 5, 6, 1],
    ![0, 3, 4, 7, 6, 5, 2, 1],
    ![0, 3, 4, 7, 6, 5, 2, 1],
    ![2, 1, 0, 3, 4, 7, 6, 5],
    ![2, 1, 0, 3, 4, 7, 6, 5],
    ![6, 5, 2, 1, 0, 3, 4, 7],
    ![6, 5, 2, 1, 0, 3, 4, 7],
    ![6, 1, 2, 5, 4, 3, 0, 7]]

/-- `m_index`, src/hilbert.cc:73-75. -/
def mIndex (x y z s : Nat) : Fin 8 :=
  ⟨4 * (if z % s ≥ s / 2 then 1 else 0) + 2 * (if y % s ≥ s / 2 then 1 else 0)
    + (if x % s ≥ s / 2 then 1 else 0), by split <;> split <;> split <;> omega⟩

/-- The loop of `hilbert_key`, src/hilbert.cc:72-82: what is added to `key` from the iteration with
the given `s` and `offsets` on. -/
def loop (x y z : Nat) (s : Nat) (offsets : Fin 8 → Fin 8) : Nat :=
  if h : s > 1 then
    let d := offsets (hIndicies (mIndex x y z s))
    s * s * s / 8 * d.val + loop x y z (s / 2) fun i => hTransforms d (offsets i)
  else 0
  termination_by s
  decreasing_by omega

/-- `hilbert_key(x, y, z, slen)`, src/hilbert.cc:67-85. -/
def key (x y z slen : Nat) : Nat := loop x y z slen fun i => i

/-- One stage `(split | split << c) & mask` of `split`. -/
def stage (v : BitVec 64) (c : Nat) (mask : BitVec 64) : BitVec 64 := (v ||| v <<< c) &&& mask

/-- `split(unsigned k)`, src/hilbert.cc:33-41. -/
def split (k : BitVec 32) : BitVec 64 :=
  let v := k.setWidth 64 &&& 0x1fffff#64
  let v := stage v 32 0x1f00000000ffff#64
  let v := stage v 16 0x1f0000ff0000ff#64
  let v := stage v 8 0x100f00f00f00f00f#64
  let v := stage v 4 0x10c30c30c30c30c3#64
  stage v 2 0x1249249249249249#64

/-- `morton_key(x, y, z)`, src/hilbert.cc:45-49 (used if `USEMORTONKEYS` is defined). -/
def morton (x y z : BitVec 32) : BitVec 64 :=
  0 ||| (split x ||| split y <<< 1 ||| split z <<< 2)

/-! ### partition -/

/-- `cumulative[i]`, src/hilbert.cc:94-98. -/
def cumulative (counts : List Nat) (i : Nat) : Nat := (counts.take i).sum

/-- `std::partition_point(cumulative, cumulative + len + 1, a < target)`, src/hilbert.cc:104-107: the
first position (`len + 1` if there is none) whose value is not below the target. The values are
non-decreasing, so this is what the library's binary search gives. -/
def splitter (counts : List Nat) (target : Nat) : Nat :=
  (List.range (counts.length + 1)).findIdx fun i => !decide (cumulative counts i < target)

/-- One cut, src/hilbert.cc:104-119. `none`: the code dereferences a pointer outside `cumulative`, or
one of its assertions fails. -/
def cut (counts : List Nat) (share split : Nat) : Option Nat :=
  let target := share * split
  let p := splitter counts target
  if p ≥ counts.length + 1 then none
  else if p = 0 then none
  else
    let upper : Int := cumulative counts p - target
    let lower : Int := target - cumulative counts (p - 1)
    if upper < 0 ∨ lower < 0 then none
    else
      let idx : Int := (if upper < lower then (p : Int) else p - 1) - 1
      if idx < 0 then none else some idx.toNat

/-- `cuts`, src/hilbert.cc:100-120. -/
def cuts (counts : List Nat) (np : Nat) : Option (List Nat) := do
  let share := cumulative counts counts.length / np
  let cs ← (List.range (np - 1)).mapM fun s => cut counts share (s + 1)
  return cs ++ [counts.length - 1]

/-- The inner loop over `j`, src/hilbert.cc:128-130. -/
def fill (ret : List Nat) (i b e : Nat) : List Nat :=
  (List.range' b (e + 1 - b)).foldl (fun r j => r.set j i) ret

/-- The loop over ranks, src/hilbert.cc:125-131. -/
def assign (ret cs : List Nat) (np : Nat) : List Nat :=
  (List.range np).foldl
    (fun r i => fill r i (if i = 0 then 0 else cs.getD (i - 1) 0 + 1) (cs.getD i 0)) ret

/-- `partition(counts, np, len)`, src/hilbert.cc:89-134, for `len = counts.size()`. -/
def partition (counts : List Nat) (np : Nat) : Option (List Nat) := do
  let cs ← cuts counts np
  return assign (List.replicate counts.length 0) cs np

/-- The cells in the order of the loops, src/hilbert.cc:151-155. -/
def cells (klen : Nat) : List (Nat × Nat × Nat) :=
  (List.range klen).flatMap fun z => (List.range klen).flatMap fun y =>
    (List.range klen).map fun x => (x, y, z)

/-- `i` for a cell, src/hilbert.cc:152-156. -/
def cellPos (klen : Nat) (c : Nat × Nat × Nat) : Nat :=
  c.1 + (c.2.2 * klen * klen + c.2.1 * klen)

/-- `counts` and `origin` after the loops, src/hilbert.cc:149-167. -/
def gather (key : Nat × Nat × Nat → Nat) (s t : List Nat) (klen : Nat) : List Nat × List Nat :=
  (cells klen).foldl
    (fun a c => (a.1.set (key c) (s.getD (cellPos klen c) 0 + t.getD (cellPos klen c) 0),
      a.2.set (key c) (cellPos klen c)))
    (List.replicate s.length 0, List.replicate s.length 0)

/-- `distribute_points_hilbert(num_ranks, global, len, lvl)`, src/hilbert.cc:139-178: the rank of
every cell of the grid. `s`, `t` are the two halves of `global`. -/
def distribute (ranks : Nat) (s t : List Nat) (lvl : Nat) : Option (List Nat) := do
  let klen := 2 ^ lvl
  let (counts, origin) := gather (fun c => key c.1 c.2.1 c.2.2 klen) s t klen
  let rm ← partition counts ranks
  return (List.range s.length).foldl (fun r h => r.set (origin.getD h 0) (rm.getD h 0))
    (List.replicate s.length 0)

end Hilbert
end Dashmm
