import Verif.Spec.Collect
import Mathlib.Tactic.Linarith
import Mathlib.Tactic.FieldSimp
/-!
Lemmas about the comparison.
-/
namespace Dashmm.Collect

open Combine

variable {P : Type}

theorem compareLoop_sums (k : Kernel) (ts : List (FileTarget P ℂ)) :
    (compareLoop k ts).1 = (ts.map (normit k)).sum ∧ (compareLoop k ts).2.1 = (ts.map (denom k)).sum := by
  have : ∀ (l : List (FileTarget P ℂ)) (s : ℝ × ℝ × ℝ),
      (l.foldl (fun s t =>
        let localrel := maxrelerr k t
        (s.1 + normit k t, s.2.1 + denom k t, if localrel > s.2.2 then localrel else s.2.2)) s).1 =
        s.1 + (l.map (normit k)).sum ∧
      (l.foldl (fun s t =>
        let localrel := maxrelerr k t
        (s.1 + normit k t, s.2.1 + denom k t, if localrel > s.2.2 then localrel else s.2.2)) s).2.1 =
        s.2.1 + (l.map (denom k)).sum := by
    intro l
    induction l with
    | nil => intro s; simp
    | cons t l ih =>
      intro s
      simp only [List.foldl_cons, List.map_cons, List.sum_cons]
      obtain ⟨h1, h2⟩ := ih (s.1 + normit k t, s.2.1 + denom k t,
        if maxrelerr k t > s.2.2 then maxrelerr k t else s.2.2)
      exact ⟨h1.trans (by ring), h2.trans (by ring)⟩
  have h := this ts (0, 0, 0)
  simp only [zero_add] at h
  exact h

theorem compareLoop_max (k : Kernel) (ts : List (FileTarget P ℂ)) :
    0 ≤ (compareLoop k ts).2.2 ∧ (∀ t ∈ ts, maxrelerr k t ≤ (compareLoop k ts).2.2) ∧
    ((compareLoop k ts).2.2 = 0 ∨ ∃ t ∈ ts, (compareLoop k ts).2.2 = maxrelerr k t) := by
  have : ∀ (l : List (FileTarget P ℂ)) (s : ℝ × ℝ × ℝ),
      let r := (l.foldl (fun s t =>
        let localrel := maxrelerr k t
        (s.1 + normit k t, s.2.1 + denom k t, if localrel > s.2.2 then localrel else s.2.2)) s).2.2
      s.2.2 ≤ r ∧ (∀ t ∈ l, maxrelerr k t ≤ r) ∧ (r = s.2.2 ∨ ∃ t ∈ l, r = maxrelerr k t) := by
    intro l
    induction l with
    | nil => intro s; simp
    | cons t l ih =>
      intro s r
      obtain ⟨h1, h2, h3⟩ := ih (s.1 + normit k t, s.2.1 + denom k t,
        if maxrelerr k t > s.2.2 then maxrelerr k t else s.2.2)
      have hm : s.2.2 ≤ (if maxrelerr k t > s.2.2 then maxrelerr k t else s.2.2) ∧
          maxrelerr k t ≤ (if maxrelerr k t > s.2.2 then maxrelerr k t else s.2.2) := by
        split_ifs with h
        · exact ⟨h.le, le_refl _⟩
        · exact ⟨le_refl _, not_lt.1 h⟩
      refine ⟨hm.1.trans h1, ?_, ?_⟩
      · intro u hu
        rcases List.mem_cons.1 hu with rfl | hu
        · exact hm.2.trans h1
        · exact h2 u hu
      · rcases h3 with h3 | ⟨u, hu, h3⟩
        · by_cases h : maxrelerr k t > s.2.2
          · right
            refine ⟨t, List.mem_cons_self, h3.trans ?_⟩
            simp [h]
          · left
            refine h3.trans ?_
            simp [h]
        · exact .inr ⟨u, List.mem_cons_of_mem _ hu, h3⟩
  exact this ts (0, 0, 0)

theorem normit_eq {k : Kernel} (hk : k ≠ .other) (t : FileTarget P ℂ) : normit k t = ‖t.phi - t.exact k‖ ^ 2 := by
  cases k <;> simp_all [normit, FileTarget.exact, Complex.normSq_eq_norm_sq]

theorem denom_eq {k : Kernel} (hk : k ≠ .other) (t : FileTarget P ℂ) : denom k t = ‖t.exact k‖ ^ 2 := by
  cases k <;> simp_all [denom, FileTarget.exact, Complex.normSq_eq_norm_sq]

theorem maxrelerr_eq {k : Kernel} (hk : k ≠ .other) (t : FileTarget P ℂ)
    (hr : k ≠ .helmholtz → t.phi.im = 0 ∧ (t.exact k).im = 0) :
    maxrelerr k t = ‖t.phi - t.exact k‖ / ‖t.exact k‖ := by
  have real : ∀ z w : ℂ, z.im = 0 → w.im = 0 → |(z.re - w.re) / w.re| = ‖z - w‖ / ‖w‖ := by
    intro z w hz hw
    have e1 : ‖z - w‖ = |z.re - w.re| := by
      have : z - w = ((z.re - w.re : ℝ) : ℂ) := by apply Complex.ext <;> simp [hz, hw]
      rw [this, Complex.norm_real, Real.norm_eq_abs]
    have e2 : ‖w‖ = |w.re| := by
      have : w = ((w.re : ℝ) : ℂ) := by apply Complex.ext <;> simp [hw]
      rw [this, Complex.norm_real, Real.norm_eq_abs, Complex.ofReal_re]
    rw [e1, e2, abs_div]
  cases k with
  | laplace => obtain ⟨h1, h2⟩ := hr (by simp); exact real _ _ h1 h2
  | yukawa => obtain ⟨h1, h2⟩ := hr (by simp); exact real _ _ h1 h2
  | helmholtz =>
    simp only [maxrelerr, FileTarget.exact, Complex.normSq_eq_norm_sq]
    rw [← div_pow, Real.sqrt_sq (by positivity)]
  | other => exact absurd rfl hk

end Dashmm.Collect
