import Mathlib.Data.Real.Archimedean
import Mathlib.Data.Real.Sqrt

/-!
The maps of precomputed rotation matrices, keyed by the cosine of the rotation angle.

Doubles are modelled by reals and an arbitrary function `rnd` that is applied to the result of every
floating-point operation that may round (`*`, `/`, `sqrt`); `floor` of a double, negation and
conversions of small integers are exact. Instead of the matrix itself the model stores the cosine
the matrix was computed for.
-/

namespace Dashmm.Rot

open Classical

/-- The number two keys are compared by, include/builtins/builtin_table.h:31-32. -/
noncomputable def cmpVal (rnd : ℝ → ℝ) (a : ℝ) : ℝ :=
  rnd ((⌊rnd (a * 1000000)⌋ : ℤ) / 100000)

/-- `builtin_cmp::operator()`, include/builtins/builtin_table.h:27-36. -/
noncomputable def builtinCmp (rnd : ℝ → ℝ) (a b : ℝ) : Prop :=
  if cmpVal rnd a = cmpVal rnd b then False else cmpVal rnd a < cmpVal rnd b

/-- Keys a `std::map` with this comparison takes to be the same. -/
def SameKey (rnd : ℝ → ℝ) (a b : ℝ) : Prop := ¬ builtinCmp rnd a b ∧ ¬ builtinCmp rnd b a

/-- `builtin_map_t`, include/builtins/builtin_table.h:39: the pairs it holds. -/
abbrev Map := List (ℝ × ℝ)

/-- `map[k] = v` of a `std::map`. -/
noncomputable def put (rnd : ℝ → ℝ) (m : Map) (k v : ℝ) : Map :=
  if ∃ e ∈ m, SameKey rnd e.1 k then m.map fun e => if SameKey rnd e.1 k then (e.1, v) else e
  else m ++ [(k, v)]

/-- `map.at(k)` of a `std::map`; `none` is the exception `std::out_of_range`. -/
noncomputable def lookup (rnd : ℝ → ℝ) (m : Map) (k : ℝ) : Option ℝ :=
  (m.find? fun e => decide (SameKey rnd e.1 k)).map (·.2)

/-- The loops `(*dmat_plus_)[key] = data` over a list of keys. -/
noncomputable def build (rnd : ℝ → ℝ) (keys : List ℝ) : Map :=
  keys.foldl (fun m k => put rnd m k k) []

/-- `c / sqrt(b)` in doubles. -/
noncomputable def overSqrt (rnd : ℝ → ℝ) (c b : ℝ) : ℝ := rnd (c / rnd (√b))

/-- `sqrt(a / b)` in doubles. -/
noncomputable def sqrtOf (rnd : ℝ → ℝ) (a b : ℝ) : ℝ := rnd (√(rnd (a / b)))

/-- The entries of `cbeta` other than the last, src/laplace_table.cc:262-269. -/
noncomputable def laplaceCbeta (rnd : ℝ → ℝ) : List ℝ :=
  [overSqrt rnd 1 5, overSqrt rnd 1 6, overSqrt rnd 1 9,
   overSqrt rnd 1 10, overSqrt rnd 1 11, overSqrt rnd 1 14,
   overSqrt rnd 1 19, overSqrt rnd 2 5, sqrtOf rnd 2 3,
   sqrtOf rnd 1 2, sqrtOf rnd 4 9, sqrtOf rnd 1 3,
   sqrtOf rnd 4 13, sqrtOf rnd 2 7, sqrtOf rnd 4 17,
   sqrtOf rnd 2 11, sqrtOf rnd 9 10, sqrtOf rnd 9 11,
   sqrtOf rnd 9 13, sqrtOf rnd 9 14, sqrtOf rnd 9 17,
   sqrtOf rnd 9 19, sqrtOf rnd 9 22]

/-- `LaplaceTable::generate_wigner_dmatrix`, src/laplace_table.cc:258-289: the 24 entries of `cbeta`
(the last is 0.0), then the negatives of the first 23. -/
noncomputable def laplaceTable (rnd : ℝ → ℝ) : Map :=
  build rnd ((laplaceCbeta rnd ++ [0]) ++ (laplaceCbeta rnd).map fun c => -c)

/-- `generate_scaled_wigner_dmat`, src/yukawa_table.cc:323-339 and src/helmholtz_table.cc:660-676:
`{sqrt(3) / 3, -sqrt(3) / 3, 0}`. -/
noncomputable def yukawaTable (rnd : ℝ → ℝ) : Map :=
  build rnd [rnd (rnd (√3) / 3), rnd (-rnd (√3) / 3), 0]

/-- The key `t2s_z / rho` of `Laplace::M_to_L`, include/builtins/laplace.h:198-204,238-239; the
offset is source index minus target index. -/
noncomputable def mToLKey (rnd : ℝ → ℝ) (x y z : Int) : ℝ :=
  rnd ((z : ℝ) / rnd (√((x * x + y * y + z * z : Int) : ℝ)))

/-- `1.0 / sqrt(3.0)`, used by `lap_m_to_m`, `lap_l_to_l` and their Yukawa and Helmholtz
counterparts (src/laplace.cc:150-155,216-221, src/yukawa.cc:151-156,191-196,
include/builtins/helmholtz.h:272-277,335-340). -/
noncomputable def diagonalKey (rnd : ℝ → ℝ) : ℝ := overSqrt rnd 1 3

/-- `-1.0 / sqrt(3.0)`, same places. -/
noncomputable def antiDiagonalKey (rnd : ℝ → ℝ) : ℝ := overSqrt rnd (-1) 3

end Dashmm.Rot
