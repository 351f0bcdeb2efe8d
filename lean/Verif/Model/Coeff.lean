import Mathlib.Data.Int.Init

/-!
The index maps of the coefficient arrays and the lengths those arrays are allocated with.
C++ `int` is modelled by `Int` (no overflow), C++ integer division by `Int.tdiv`
(truncation toward zero).
-/

namespace Dashmm.Coeff

/-- `midx`, include/builtins/special_function.h:31-33. -/
def midx (n m : Int) : Int := (n * (n + 1)).tdiv 2 + m

/-- `lidx`, include/builtins/special_function.h:36-38. -/
def lidx (n m : Int) : Int := n * (n + 1) + m

/-- `didx`, include/builtins/special_function.h:40-42. -/
def didx (n mp m : Int) : Int := (n * (n + 1) * (4 * n - 1)).tdiv 6 + mp * (2 * n + 1) + n + m

/-- `hidx`, include/builtins/special_function.h:44-46. -/
def hidx (n mp m : Int) : Int :=
  (n * (2 * n - 1) * (2 * n + 1)).tdiv 3 + (mp + n) * (2 * n + 1) + n + m

/-- `sidx`, include/builtins/special_function.h:48-50. -/
def sidx (n m np p : Int) : Int := midx n m * (p + 1) + np

/-- Length of the arrays indexed by `midx`: `(p + 1) * (p + 2) / 2`
(include/builtins/laplace.h:96-99, include/builtins/helmholtz.h:61, src/yukawa_table.cc:308, src/helmholtz_table.cc:641). -/
def msize (p : Int) : Int := ((p + 1) * (p + 2)).tdiv 2

/-- Length of the arrays indexed by `lidx`: `(p + 1) * (p + 1)`
(include/builtins/helmholtz.h:65). -/
def lsize (p : Int) : Int := (p + 1) * (p + 1)

/-- `nd` of `LaplaceTable::generate_wigner_dmatrix` (src/laplace_table.cc:270) and
`YukawaTable::generate_scaled_wigner_dmat` (src/yukawa_table.cc:328). -/
def dsize (p : Int) : Int := ((p + 1) * (4 * p * p + 11 * p + 6)).tdiv 6

/-- `nd` of `HelmholtzTable::generate_scaled_wigner_dmat` (src/helmholtz_table.cc:666). -/
def hsize (p : Int) : Int := ((p + 1) * (2 * p + 1) * (2 * p + 3)).tdiv 3

/-- Length of one level of `m2m_` and `l2l_` (src/yukawa_table.cc:475,523,
src/helmholtz_table.cc:828,873). -/
def ssize (p : Int) : Int := ((p + 1) * (p + 1) * (p + 2)).tdiv 2

end Dashmm.Coeff
