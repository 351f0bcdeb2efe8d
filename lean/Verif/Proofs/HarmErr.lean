import Verif.Proofs.HarmShift
import Mathlib.Analysis.SpecificLimits.Normed
import Mathlib.Topology.Algebra.InfiniteSum.NatInt

/-!
Truncation errors.
-/

namespace Dashmm.Harm

open Lap

noncomputable section

theorem norm_padd_le (u v : Point ℝ) : (padd u v).norm ≤ u.norm + v.norm := by
  have hu := norm_nonneg' u
  have hv := norm_nonneg' v
  apply (sq_le_sq₀ (norm_nonneg' _) (by positivity)).1
  have a := norm_sq_eq u
  have b := norm_sq_eq v
  have c := norm_sq_eq (padd u v)
  have hcs : u.x * v.x + u.y * v.y + u.z * v.z ≤ u.norm * v.norm := by
    apply (le_abs_self _).trans
    apply abs_le_of_sq_le_sq _ (by positivity)
    rw [mul_pow, a, b]
    nlinarith [sq_nonneg (u.x * v.y - u.y * v.x), sq_nonneg (u.x * v.z - u.z * v.x), sq_nonneg (u.y * v.z - u.z * v.y)]
  rw [c]
  simp only [padd]
  nlinarith

theorem norm_sub_comm' (u v : Point ℝ) : (u.sub v).norm = (v.sub u).norm := by
  apply norm_congr_sq; simp only [Point.sub]; ring

theorem norm_sub_le' (u v : Point ℝ) : (u.sub v).norm ≤ u.norm + v.norm := by
  have h := norm_padd_le u (psmul (-1) v)
  have e1 : (psmul (-1) v).norm = v.norm := by apply norm_congr_sq; simp only [psmul]; ring
  have e2 : padd u (psmul (-1) v) = u.sub v := by
    simp only [padd, psmul, Point.sub, Point.mk.injEq]; refine ⟨?_, ?_, ?_⟩ <;> ring
  rwa [e1, e2] at h

/-- Truncation of the series of pairings. -/
theorem form_error (u t : Point ℝ) (h : u.norm < t.norm) (p : ℕ) :
    ‖(∑ n ∈ Finset.range (p + 1), form (reg u) t n / (t.norm : ℂ) ^ (2 * n + 1)) - ((1 / (t.sub u).norm : ℝ) : ℂ)‖ ≤
      (u.norm / t.norm) ^ (p + 1) / (t.norm - u.norm) := by
  have h0 := norm_nonneg' u
  have ht : 0 < t.norm := lt_of_le_of_lt h0 h
  have hr : u.norm / t.norm < 1 := (div_lt_one ht).2 h
  have hf : ∀ n, ‖form (reg u) t n / (t.norm : ℂ) ^ (2 * n + 1)‖ ≤ 1 / t.norm * (u.norm / t.norm) ^ n := by
    intro n
    rw [norm_div, norm_pow, Complex.norm_real, Real.norm_of_nonneg ht.le, div_le_iff₀ (by positivity)]
    refine (form_norm_le u t n).trans (le_of_eq ?_)
    rw [div_pow, pow_add, pow_mul, sq, mul_pow]; field_simp
  have := norm_sub_le_of_geometric_bound_of_hasSum hr hf (form_hasSum u t h) (p + 1)
  refine this.trans (le_of_eq ?_)
  have hs : t.norm - u.norm ≠ 0 := by linarith
  have h1 : 1 - u.norm / t.norm = (t.norm - u.norm) / t.norm := by field_simp
  rw [h1]; field_simp

/-- The double series. -/
theorem bi_error (u v : Point ℝ) (d : ℝ) (h : u.norm + v.norm < d) (p : ℕ) :
    ‖(∑ j ∈ Finset.range (p + 1), ∑ n ∈ Finset.range (p + 1), (-1 : ℂ) ^ n * bi u v n j / (d : ℂ) ^ (n + j + 1))
        - ((1 / ((axis d).sub (v.sub u)).norm : ℝ) : ℂ)‖ ≤
      ((u.norm / (d - v.norm)) ^ (p + 1) + (v.norm / (d - u.norm)) ^ (p + 1)) / (d - u.norm - v.norm) := by
  set a := u.norm with ha
  set b := v.norm with hb
  have ha0 : 0 ≤ a := norm_nonneg' u
  have hb0 : 0 ≤ b := norm_nonneg' v
  have hd : 0 < d := by linarith
  have hdb : 0 < d - b := by linarith
  have hda : 0 < d - a := by linarith
  set F : ℕ × ℕ → ℂ := fun q => (-1 : ℂ) ^ q.1 * bi u v q.1 q.2 / (d : ℂ) ^ (q.1 + q.2 + 1) with hF
  set g : ℕ × ℕ → ℝ := fun q => ((q.1 + q.2).choose q.1 : ℝ) * (a ^ q.1 * b ^ q.2) / d ^ (q.1 + q.2 + 1) with hg
  have hFg : ∀ q, ‖F q‖ ≤ g q := by
    intro q
    rw [hF, hg]
    simp only
    rw [norm_div, norm_mul, norm_pow, norm_neg, norm_one, one_pow, one_mul, norm_pow, Complex.norm_real,
      Real.norm_of_nonneg hd.le]
    exact div_le_div_of_nonneg_right (bi_norm_le u v q.1 q.2) (by positivity)
  have hg0 : ∀ q, 0 ≤ g q := fun q => (norm_nonneg _).trans (hFg q)
  have hbd : ‖b / d‖ < 1 := by
    rw [Real.norm_of_nonneg (by positivity), div_lt_one hd]; linarith
  have had : ‖a / d‖ < 1 := by
    rw [Real.norm_of_nonneg (by positivity), div_lt_one hd]; linarith
  have hrow : ∀ n, HasSum (fun j => g (n, j)) (1 / (d - b) * (a / (d - b)) ^ n) := by
    intro n
    have := (hasSum_choose_mul_geometric_of_norm_lt_one n hbd).mul_left (a ^ n / d ^ (n + 1))
    have e : a ^ n / d ^ (n + 1) * (1 / (1 - b / d) ^ (n + 1)) = 1 / (d - b) * (a / (d - b)) ^ n := by
      rw [show 1 - b / d = (d - b) / d by field_simp, div_pow, div_pow, pow_succ, pow_succ]; field_simp
    rw [e] at this
    refine this.congr_fun ?_
    intro j
    simp only [hg]
    rw [show n + j = j + n by ring, div_pow, pow_add, pow_add, pow_one, pow_succ]; field_simp
  have hcol : ∀ j, HasSum (fun n => g (n, j)) (1 / (d - a) * (b / (d - a)) ^ j) := by
    intro j
    have := (hasSum_choose_mul_geometric_of_norm_lt_one j had).mul_left (b ^ j / d ^ (j + 1))
    have e : b ^ j / d ^ (j + 1) * (1 / (1 - a / d) ^ (j + 1)) = 1 / (d - a) * (b / (d - a)) ^ j := by
      rw [show 1 - a / d = (d - a) / d by field_simp, div_pow, div_pow, pow_succ, pow_succ]; field_simp
    rw [e] at this
    refine this.congr_fun ?_
    intro n
    simp only [hg]
    rw [Nat.choose_symm_add, div_pow, pow_add, pow_add, pow_one, pow_succ]; field_simp
  have hrA : a / (d - b) < 1 := by rw [div_lt_one hdb]; linarith
  have hrB : b / (d - a) < 1 := by rw [div_lt_one hda]; linarith
  have hsg : Summable g := by
    rw [summable_prod_of_nonneg hg0]
    refine ⟨fun n => (hrow n).summable, ?_⟩
    simp only [(hrow _).tsum_eq]
    exact (summable_geometric_of_lt_one (by positivity) hrA).mul_left _
  have hsF : Summable F := Summable.of_norm_bounded hsg hFg
  have hS := hsF.hasSum
  set S := ∑' q, F q with hSdef
  have hval : S = ((1 / ((axis d).sub (v.sub u)).norm : ℝ) : ℂ) := by
    have h1 := ((Finset.HasAntidiagonal.sigmaAntidiagonalEquivProd (A := ℕ)).hasSum_iff (f := F) (a := S)).2 hS
    have h2 := h1.sigma (fun l => hasSum_fintype _)
    have h3 := mid_hasSum (v.sub u) d (lt_of_le_of_lt (norm_sub_le' v u) (by linarith))
    refine h2.unique (h3.congr_fun ?_)
    intro l
    rw [← bi_sum u v l, Finset.sum_div]
    refine (Finset.sum_coe_sort (Finset.antidiagonal l) F).trans ?_
    refine Finset.sum_congr rfl fun q hq => ?_
    rw [Finset.mem_antidiagonal] at hq
    simp only [hF, hq]
  have hrowF : ∀ n, Summable fun j => F (n, j) := fun n =>
    Summable.of_norm_bounded (hrow n).summable fun j => hFg (n, j)
  have hcolF : ∀ j, Summable fun n => F (n, j) := fun j =>
    Summable.of_norm_bounded (hcol j).summable fun n => hFg (n, j)
  have hG := hS.prod_fiberwise fun n => (hrowF n).hasSum
  have e1 := norm_sub_le_of_geometric_bound_of_hasSum hrA (C := 1 / (d - b)) (fun n => by
    rw [← (hrow n).tsum_eq]
    exact tsum_of_norm_bounded (hrow n).summable.hasSum fun j => hFg (n, j)) hG (p + 1)
  have hH : HasSum (fun j => ∑ n ∈ Finset.range (p + 1), F (n, j)) (∑ n ∈ Finset.range (p + 1), ∑' j, F (n, j)) :=
    hasSum_sum fun n _ => (hrowF n).hasSum
  have e2 := norm_sub_le_of_geometric_bound_of_hasSum hrB (C := 1 / (d - a)) (fun j => by
    refine (norm_sum_le _ _).trans ?_
    rw [← (hcol j).tsum_eq]
    refine le_trans (Finset.sum_le_sum fun n _ => hFg (n, j)) ?_
    exact (hcol j).summable.sum_le_tsum _ fun n _ => hg0 _) hH (p + 1)
  rw [← hval]
  have key : ‖(∑ j ∈ Finset.range (p + 1), ∑ n ∈ Finset.range (p + 1), F (n, j)) - S‖ ≤
      1 / (d - b) * (a / (d - b)) ^ (p + 1) / (1 - a / (d - b)) + 1 / (d - a) * (b / (d - a)) ^ (p + 1) / (1 - b / (d - a)) := by
    have := norm_add_le ((∑ j ∈ Finset.range (p + 1), ∑ n ∈ Finset.range (p + 1), F (n, j)) - ∑ n ∈ Finset.range (p + 1), ∑' j, F (n, j))
      ((∑ n ∈ Finset.range (p + 1), ∑' j, F (n, j)) - S)
    rw [sub_add_sub_cancel] at this
    linarith
  refine key.trans (le_of_eq ?_)
  rw [show 1 - a / (d - b) = (d - a - b) / (d - b) by field_simp; ring,
    show 1 - b / (d - a) = (d - a - b) / (d - a) by field_simp]
  have : d - a - b ≠ 0 := by linarith
  field_simp

end
end Dashmm.Harm
