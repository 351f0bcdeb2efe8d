/-
Model of the reduction operators of /repo/src/reductionops.cc and of an HPX-5 reduction LCO.

A contribution is an array of `n` numbers (`n` is `bytes / sizeof(...)`), here a function on `Fin n`.
`int` is modelled by `Int` (no overflow of sums; `INT_MIN` is explicit); `size_t` by `Nat`, with sums
reduced modulo `2 ^ 64`.
-/
namespace Dashmm

/-- Number of values of `size_t`. -/
abbrev sizeMod : Nat := 2 ^ 64

/-- `std::numeric_limits<int>::min()`. -/
abbrev intMin : Int := -(2 ^ 31)
/-- `std::numeric_limits<int>::max()`. -/
abbrev intMax : Int := 2 ^ 31 - 1

namespace Reduce

/-- `int_sum_ident_handler`, src/reductionops.cc:27-32. -/
def intSumIdent {n : Nat} : Fin n → Int := fun _ => 0
/-- `int_sum_op_handler`, src/reductionops.cc:37-42: the new contents of `lhs`. -/
def intSumOp {n : Nat} (lhs rhs : Fin n → Int) : Fin n → Int := fun i => lhs i + rhs i

/-- `size_sum_ident_handler`, src/reductionops.cc:47-52. -/
def sizeSumIdent {n : Nat} : Fin n → Nat := fun _ => 0
/-- `size_sum_op_handler`, src/reductionops.cc:57-62. -/
def sizeSumOp {n : Nat} (lhs rhs : Fin n → Nat) : Fin n → Nat :=
  fun i => (lhs i + rhs i) % sizeMod

/-- `int_max_ident_handler`, src/reductionops.cc:66-71. -/
def intMaxIdent {n : Nat} : Fin n → Int := fun _ => intMin
/-- `int_max_op_handler`, src/reductionops.cc:75-80. -/
def intMaxOp {n : Nat} (lhs rhs : Fin n → Int) : Fin n → Int := fun i => max (lhs i) (rhs i)

/-- An HPX-5 reduction LCO (`hpx_lco_reduce_new(inputs, size, id, op)`): starts with the identity, and
every `hpx_lco_set` combines its value into the accumulated one, in order of arrival. A get returns
the value once all inputs have arrived (assumed behaviour of the runtime). -/
def lco {α : Type} (ident : α) (op : α → α → α) (arrivals : List α) : α := arrivals.foldl op ident

end Reduce
end Dashmm
