import Verif.Model.Laplace
import Verif.Model.MergeShift

/-!
# Model of the plane-wave (exponential) expansions of the Laplace kernel

`lap_m_to_i`, `lap_i_to_i`, `lap_i_to_l`, `lap_e_to_e`, `lap_e_to_l` of `src/laplace.cc` and the tables they use
(`src/laplace_table.cc`).

Simplifications, besides those of `Model.Laplace`: an exponential expansion, in the code an array of `nexp` numbers, is
a function of `k` and `j`, `1 ≤ j ≤ m_[k] / 2`; in the code its place is `sm_[k] + j - 1`. Likewise `xs_`, `ys_`, `zs_`,
`lambdaknm_` and `ealphaj_` are functions. That the places are distinct and within the arrays is C76.
-/

namespace Dashmm.Lap

open Complex (I)

/-- The quadrature rule of a `LaplaceTable`: `s_`, `lambda_`, `weight_`, `m_`, `f_`, src/laplace_table.cc:39-187. -/
structure Rule where
  s : ℕ
  lam : ℕ → ℝ
  wt : ℕ → ℝ
  m : ℕ → ℕ
  f : ℕ → ℕ

/-- An exponential expansion (one view): the number for `λ_k` and `α_j`. -/
abbrev Wave := ℕ → ℕ → ℂ

/-- The views of an intermediate expansion by their number. -/
abbrev Views := ℕ → Wave

namespace Rule

variable (R : Rule)

/-- `alphaj`, src/laplace_table.cc:406-408, 422-424, 469-471. -/
noncomputable def alpha (k j : ℕ) : ℝ := j * (2 * Real.pi / R.m k)

/-- `generate_xs`, src/laplace_table.cc:402-416: the entry for the shift `x`. -/
noncomputable def xs (k j : ℕ) (x : ℤ) : ℂ :=
  let arg := R.lam k * x * Real.cos (R.alpha k j)
  (Real.cos arg : ℂ) + (Real.sin arg : ℂ) * I

/-- `generate_ys`, src/laplace_table.cc:418-432. -/
noncomputable def ys (k j : ℕ) (y : ℤ) : ℂ :=
  let arg := R.lam k * y * Real.sin (R.alpha k j)
  (Real.cos arg : ℂ) + (Real.sin arg : ℂ) * I

/-- `generate_zs`, src/laplace_table.cc:434-442. -/
noncomputable def zs (k : ℕ) (z : ℤ) : ℝ := Real.exp (-R.lam k * z)

/-- `generate_lambdaknm`, src/laplace_table.cc:444-463 (`temp` is filled as `sqf_`). -/
noncomputable def lamknm (k n m : ℕ) : ℝ := R.lam k ^ n / sqf (n - m) / sqf (n + m)

/-- `generate_ealphaj`, src/laplace_table.cc:465-478. -/
noncomputable def ealpha (k j m : ℕ) : ℂ :=
  let arg := (m : ℝ) * R.alpha k j
  (Real.cos arg : ℂ) + (Real.sin arg : ℂ) * I

end Rule

/-- `for (n = a; n <= p; n += 2)`: the sum over the values of `n`. -/
noncomputable def stepSum (a p : ℕ) (g : ℕ → ℂ) : ℂ := ∑ n ∈ (Finset.Icc a p).filter fun n => n % 2 = a % 2, g n

section Ops

variable (R : Rule) (p : ℕ)

/-- One term of the sums over `n`, src/laplace.cc:330-361. -/
noncomputable def zTerm (SH : Coef) (k m n : ℕ) : ℂ := SH n m * (R.lamknm k n m : ℂ)

/-- `z1[m]`, src/laplace.cc:325-362. -/
noncomputable def z1 (SH : Coef) (k m : ℕ) : ℂ :=
  if m = 0 then stepSum 0 p (zTerm R SH k 0)
  else if m % 2 = 1 then stepSum (m + 1) p (zTerm R SH k m)
  else stepSum m p (zTerm R SH k m)

/-- `z2[m]`, src/laplace.cc:325-362. -/
noncomputable def z2 (SH : Coef) (k m : ℕ) : ℂ :=
  if m = 0 then stepSum 1 p (zTerm R SH k 0)
  else if m % 2 = 1 then stepSum m p (zTerm R SH k m)
  else stepSum (m + 1) p (zTerm R SH k m)

/-- `EP[dir]`, src/laplace.cc:318-380. -/
noncomputable def waveUp (SH : Coef) : Wave := fun k j =>
  ((R.wt k / R.m k : ℝ) : ℂ) * (z1 R p SH k 0 + z2 R p SH k 0 +
    ∑ m ∈ Finset.Icc 1 (R.f k), ((2 * (R.ealpha k j m * (z1 R p SH k m + z2 R p SH k m)).re : ℝ) : ℂ) * I ^ m)

/-- `EM[dir]`, src/laplace.cc:318-380. -/
noncomputable def waveDn (SH : Coef) : Wave := fun k j =>
  ((R.wt k / R.m k : ℝ) : ℂ) * (z1 R p SH k 0 - z2 R p SH k 0 +
    ∑ m ∈ Finset.Icc 1 (R.f k), ((2 * (R.ealpha k j m * (z1 R p SH k m - z2 R p SH k m)).re : ℝ) : ℂ) * I ^ m)

/-- `lap_m_to_i`, src/laplace.cc:277-383; the views are those of the directions +x, -x, +y, -y, +z, -z. -/
noncomputable def mToI (M : Coef) : Views := fun v =>
  let W2 := rotateY (rotateZ M (-Real.pi / 2)) (dmatMinus 0)
  let W1 := rotateY M (dmatPlus 0)
  match v with
  | 0 => waveUp R p W1
  | 1 => waveDn R p W1
  | 2 => waveUp R p W2
  | 3 => waveDn R p W2
  | 4 => waveUp R p M
  | 5 => waveDn R p M
  | _ => fun _ _ => 0

/-- `lap_e_to_e(M, W, x, y, z)`, src/laplace.cc:639-661: what is added to `M`. -/
noncomputable def eToE (W : Wave) (x y z : ℤ) : Wave := fun k j => W k j * (R.zs k z : ℂ) * R.ys k j y * R.xs k j x

/-- `lap_i_to_i(s_index, t_index, ...)`, src/laplace.cc:385-447, for the offset `(dx, dy, dz)` of the source from the
first child of the target: the views made. -/
noncomputable def iToI (dx dy dz : ℤ) (S : Views) : Views := fun v =>
  (((mergeTags dx dy dz).getD []).map fun tag =>
    if v = tag then
      let t := tagShift tag dx dy dz
      eToE R (S (tagView tag)) t.1 t.2.1 t.2.2
    else 0).sum

/-- `z[m]` of `lap_e_to_l`, src/laplace.cc:679-707. -/
noncomputable def zBack (E : Wave) (k m : ℕ) : ℂ :=
  if m = 0 then ∑ j ∈ Finset.Icc 1 (R.m k / 2), (E k j + starRingEnd ℂ (E k j))
  else if m % 2 = 1 then
    ∑ j ∈ Finset.Icc 1 (R.m k / 2), (E k j - starRingEnd ℂ (E k j)) * starRingEnd ℂ (R.ealpha k j m)
  else ∑ j ∈ Finset.Icc 1 (R.m k / 2), (E k j + starRingEnd ℂ (E k j)) * starRingEnd ℂ (R.ealpha k j m)

/-- `W1` of `lap_e_to_l` before the rotation, src/laplace.cc:674-742: the sum over `k`, the change of sign of odd
degrees, the scaling. -/
noncomputable def backCoef (E : Wave) (sgn : Bool) : Coef := fun n m =>
  let w := ∑ k ∈ Finset.range R.s, if m ≤ min n (R.f k) then ((-R.lam k) ^ n : ℝ) * zBack R E k m else 0
  let w := if !sgn && n % 2 = 1 then -w else w
  w * (I ^ m / (sqf (n - m) : ℂ) / (sqf (n + m) : ℂ))

/-- `lap_e_to_l(E, dir, sgn, L)`, src/laplace.cc:663-770: what is added to `L`; `p` is only the range of `n`. -/
noncomputable def eToL (E : Wave) (dir : Char) (sgn : Bool) : Coef :=
  let W1 := backCoef R E sgn
  if dir = 'z' then W1
  else if dir = 'y' then rotateZ (rotateY W1 (dmatPlus 0)) (Real.pi / 2)
  else rotateY W1 (dmatMinus 0)

/-- `S_mz`, `S_pz`, `S_my`, `S_py`, `S_mx`, `S_px` of `lap_i_to_l`, src/laplace.cc:482-628. -/
noncomputable def slotWave (toChild : ℕ) (scale : ℝ) (E : Views) (slot : ℕ) : Wave :=
  (((childTakes toChild).filter fun t => t.slot = slot).map fun t => eToE R (E t.tag) t.x t.y t.z).sum * fun _ _ => (scale : ℂ)

/-- `lap_i_to_l(views, id, t_index, scale, L)`, src/laplace.cc:449-637: what is added to `L`. -/
noncomputable def iToL (toChild : ℕ) (scale : ℝ) (E : Views) : Coef :=
  let S := slotWave R toChild scale E
  eToL R (S 0) 'z' false + eToL R (S 1) 'z' true + eToL R (S 2) 'y' false + eToL R (S 3) 'y' true +
    eToL R (S 4) 'x' false + eToL R (S 5) 'x' true

end Ops

end Dashmm.Lap
