import Verif.Proofs.Coeff
import Verif.Proofs.RotKeys
import Verif.Proofs.Offsets
import Verif.Props.Methods

/-!
C52: the index maps of the coefficient arrays.
C53: the maps of rotation matrices.
-/

namespace Dashmm

open Coeff

/-! ### C52 -/

/-- C52 for `midx`: the coefficients `0 ≤ m ≤ n ≤ p` fill an array of `(p + 1)(p + 2)/2` entries. -/
theorem C52_midx_packs (p : Nat) :
    Packs (fun x : Int × Int => (0 ≤ x.1 ∧ x.1 ≤ (p : Int)) ∧ (0 ≤ x.2 ∧ x.2 ≤ x.1))
      (fun x => midx x.1 x.2) (msize p) := packs_midx p

/-- C52 for `lidx`: the coefficients `|m| ≤ n ≤ p` fill an array of `(p + 1)^2` entries. -/
theorem C52_lidx_packs (p : Nat) :
    Packs (fun x : Int × Int => (0 ≤ x.1 ∧ x.1 ≤ (p : Int)) ∧ (-x.1 ≤ x.2 ∧ x.2 ≤ x.1))
      (fun x => lidx x.1 x.2) (lsize p) := packs_lidx p

/-- C52 for `didx`: the entries `0 ≤ m' ≤ n`, `|m| ≤ n`, `n ≤ p` of the rotation matrices of Laplace
and Yukawa fill arrays of the length allocated for them. -/
theorem C52_didx_packs (p : Nat) :
    Packs (fun x : Int × Int × Int => (0 ≤ x.1 ∧ x.1 ≤ (p : Int)) ∧
        ((0 ≤ x.2.1 ∧ x.2.1 ≤ x.1) ∧ (-x.1 ≤ x.2.2 ∧ x.2.2 ≤ x.1)))
      (fun x => didx x.1 x.2.1 x.2.2) (dsize p) := packs_didx p

/-- C52 for `hidx`: the entries `|m'| ≤ n`, `|m| ≤ n`, `n ≤ p` of the rotation matrices of Helmholtz
fill arrays of the length allocated for them. -/
theorem C52_hidx_packs (p : Nat) :
    Packs (fun x : Int × Int × Int => (0 ≤ x.1 ∧ x.1 ≤ (p : Int)) ∧
        ((-x.1 ≤ x.2.1 ∧ x.2.1 ≤ x.1) ∧ (-x.1 ≤ x.2.2 ∧ x.2.2 ≤ x.1)))
      (fun x => hidx x.1 x.2.1 x.2.2) (hsize p) := packs_hidx p

/-- C52 for `sidx`: the shift coefficients `0 ≤ m ≤ n ≤ p`, `0 ≤ n' ≤ p` of one level fill the length
allocated for a level. -/
theorem C52_sidx_packs (p : Nat) :
    Packs (fun x : (Int × Int) × Int =>
        ((0 ≤ x.1.1 ∧ x.1.1 ≤ (p : Int)) ∧ (0 ≤ x.1.2 ∧ x.1.2 ≤ x.1.1)) ∧
          (0 ≤ x.2 ∧ x.2 ≤ (p : Int)))
      (fun x => sidx x.1.1 x.1.2 x.2 p) (ssize p) := packs_sidx p

/-- The sizes for the order used for three digits. -/
example : msize 9 = 55 ∧ lsize 9 = 100 ∧ dsize 9 = 715 ∧ hsize 9 = 1330 ∧ ssize 9 = 550 := by decide

example : midx 9 9 = 54 ∧ lidx 9 9 = 99 ∧ didx 9 9 9 = 714 ∧ hidx 9 9 9 = 1329 ∧
    sidx 9 9 9 9 = 549 := by decide

/-! ### C53 -/

open Rot

/-- C53: the comparison of the maps of rotation matrices is a strict weak order, however the
products and quotients in it are rounded. -/
theorem C53_strict_weak_order (rnd : ℝ → ℝ) : StrictWeak (builtinCmp rnd) := strictWeak

/-- C53, use of the order by `M->L`: in every DAG the FMM method builds, every `M->L` edge of the
Laplace kernel that needs a rotation finds in the table the matrix for the cosine it asked for (up
to rounding), whatever the trees, the schedule and the rounding. -/
theorem C53_m_to_l_matrix_found {rnd : ℝ → ℝ} (h : Rounding rnd) {unif : Nat} {same : Bool}
    {s t : Fin 8 → Oct} {acts : List Act} (hr : Runs (createProg FMM unif same s t) acts)
    {e : Edge} (he : e ∈ edgesOf acts) (ho : e.op = .MtoL) {x y z : Int}
    (hx : x = (e.src.ix.x : Int) - e.dst.ix.x) (hy : y = (e.src.ix.y : Int) - e.dst.ix.y)
    (hz : z = (e.src.ix.z : Int) - e.dst.ix.z) (hp : ¬ (x = 0 ∧ y = 0)) :
    ∃ c, lookup rnd (laplaceTable rnd) (mToLKey rnd x y z) = some c ∧
      |c - (z : ℝ) / √((x * x + y * y + z * z : Int) : ℝ)| ≤ 1 / 10 ^ 14 := by
  obtain ⟨_, ⟨n1, n2, n3⟩, hw⟩ := FMM_MtoL_offset hr he ho
  have hw' := (wellSep_iff _ _).1 hw
  rw [← hx] at n1; rw [← hy] at n2; rw [← hz] at n3
  obtain ⟨n, hs⟩ := mToL_served n1 n2 n3 (by omega) hp
  have hn : 0 < x * x + y * y + z * z := by
    have a := mul_self_nonneg x
    have b := mul_self_nonneg y
    have c := mul_self_nonneg z
    rcases not_and_or.1 hp with hx0 | hy0
    · have := mul_self_pos.2 hx0; omega
    · have := mul_self_pos.2 hy0; omega
  exact laplace_found h hs (mToLKey_near h hn)

/-- C53: `M->M`, `L->L` and the exponential expansions of Laplace find the matrices they ask for. -/
theorem C53_laplace_shift_matrices_found {rnd : ℝ → ℝ} (h : Rounding rnd) :
    (∃ c, lookup rnd (laplaceTable rnd) (diagonalKey rnd) = some c ∧ |c - 1 / √3| ≤ 1 / 10 ^ 14) ∧
    (∃ c, lookup rnd (laplaceTable rnd) (antiDiagonalKey rnd) = some c ∧
      |c - -1 / √3| ≤ 1 / 10 ^ 14) ∧
    (∃ c, lookup rnd (laplaceTable rnd) 0 = some c ∧ |c - 0| ≤ 1 / 10 ^ 14) :=
  ⟨laplace_found h served_diag (diag_near h), laplace_found h served_anti (anti_near h),
    laplace_found h .zero (near_refl 0)⟩

/-- C53: the same for the tables of Yukawa and Helmholtz. -/
theorem C53_yukawa_helmholtz_matrices_found {rnd : ℝ → ℝ} (h : Rounding rnd) :
    (∃ c, lookup rnd (yukawaTable rnd) (diagonalKey rnd) = some c ∧ |c - 1 / √3| ≤ 1 / 10 ^ 14) ∧
    (∃ c, lookup rnd (yukawaTable rnd) (antiDiagonalKey rnd) = some c ∧
      |c - -1 / √3| ≤ 1 / 10 ^ 14) ∧
    (∃ c, lookup rnd (yukawaTable rnd) 0 = some c ∧ |c - 0| ≤ 1 / 10 ^ 14) := yukawa_found h

/-- An `M->L` edge that needs a rotation. -/
example : ∃ e ∈ edgesOf (createDag FMM 2 false exB exA), e.op = .MtoL ∧
    ¬ (((e.src.ix.x : Int) - e.dst.ix.x = 0) ∧ ((e.src.ix.y : Int) - e.dst.ix.y = 0)) := by
  decide +kernel

/-- Exact arithmetic is one of the roundings. -/
example : Rounding (fun x => x) := by intro x; simp; positivity

/-- So is one that is always off by the full unit. -/
example : Rounding (fun x => x * (1 + 1 / 2 ^ 52)) := by
  intro x
  rw [show x * (1 + 1 / 2 ^ 52) - x = x / 2 ^ 52 by ring, abs_div,
    abs_of_pos (show (0 : ℝ) < 2 ^ 52 by positivity)]

end Dashmm
