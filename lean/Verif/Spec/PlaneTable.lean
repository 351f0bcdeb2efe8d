import Verif.Model.PlaneTable
import Verif.Spec.Plane

/-!
Specification: a table is consistent.
-/

namespace Dashmm.Lap

/-- The members agree: the arrays have an entry for every `λ`, the numbers of angles are even, `sm` and `smf` count the
angles and the frequencies of the `λ`s before (for half of the angles), `nexp` counts all of them. -/
structure PlaneTable.Ok (T : PlaneTable) : Prop where
  lam : T.lam.length = T.s
  wt : T.wt.length = T.s
  m : T.m.length = T.s
  f : T.f.length = T.s
  sm : T.sm.length = T.s + 1
  smf : T.smf.length = T.s + 1
  even : ∀ k < T.s, 0 < T.m.getD k 0 ∧ T.m.getD k 0 % 2 = 0
  sm0 : T.sm.getD 0 0 = 0
  smf0 : T.smf.getD 0 0 = 0
  smS : ∀ k < T.s, T.sm.getD (k + 1) 0 = T.sm.getD k 0 + T.m.getD k 0 / 2
  smfS : ∀ k < T.s, T.smf.getD (k + 1) 0 = T.smf.getD k 0 + T.m.getD k 0 / 2 * T.f.getD k 0
  nexp : T.nexp = T.sm.getD T.s 0

end Dashmm.Lap
