import Verif.Proofs.Collect
/-!
Property C119: the test program that compares evaluations with exact potentials.

Full statement: the program accepts exactly the supported combinations, all ranks make the same
collective calls, the evaluation is made once with the parameters of the file, and the numbers reported
are the relative errors. The first two are false of the code: unknown kernel names are accepted, and
ranks other than 0 leave early.
-/
namespace Dashmm

open Combine Collect

variable {P F : Type}

/-- C119 (part): for the three known kernels, exactly the supported combinations with a data file are
accepted. Missing: other kernel names, see `C119_unknown_kernel`. -/
theorem C119_accepted_partial (a : Args) (hk : a.kernel ≠ .other) :
    accepted a = true ↔ a.dataGiven = true ∧ Supported a.kernel a.method a.accuracy := by
  obtain ⟨d, m, k, acc, l⟩ := a
  unfold accepted Supported
  by_cases h3 : acc = 3 <;> by_cases h6 : acc = 6 <;> cases d <;> cases m <;> cases k <;> simp_all

/-- C119: a kernel name that is not known is accepted with every method and accuracy; nothing is
evaluated, and the untouched potentials are compared with the Helmholtz potentials of the file. -/
theorem C119_unknown_kernel (a : Args) (hk : a.kernel = .other) (one : F) (file : Header F) (ts : List (FileTarget P ℂ)) :
    (accepted a = true ↔ a.dataGiven = true ∧ a.method ≠ .other) ∧
    (∀ rank, ∀ c ∈ calls one a file rank, ∀ k m acc l ps, c ≠ .evaluate k m acc l ps) ∧
    compareResults a.kernel ts = compareResults .helmholtz ts := by
  obtain ⟨d, m, k, acc, l⟩ := a
  subst hk
  refine ⟨?_, ?_, rfl⟩
  · unfold accepted
    cases d <;> cases m <;> simp
  · intro rank c hc k m' acc' l' ps h
    subst h
    simp [calls, evaluations] at hc

/-- C119 (part): on rank 0, with accepted arguments for a known kernel and a file with its data, the
program allocates and fills both arrays with the counts of the file, evaluates exactly once with the
method, accuracy, limit and kernel parameter asked for, collects and destroys. On one rank this is all.
Missing: more ranks, where it fails, see `C119_ranks_disagree`. -/
theorem C119_run_partial (one : F) (a : Args) (file : Header F) (hk : a.kernel ≠ .other) (ha : accepted a = true)
    (hf : file.has a.kernel = true) :
    calls one a file 0 =
      [.allocate true file.nSources.toInt, .put true file.nSources.toInt,
        .allocate false file.nTargets.toInt, .put false file.nTargets.toInt,
        .evaluate a.kernel a.method a.accuracy a.limit
          (match a.kernel with
            | .yukawa => [file.yukawaParam]
            | .helmholtz => [file.helmholtzParam]
            | _ => []),
        .collect, .destroy true, .destroy false] := by
  obtain ⟨hd, hs⟩ := (C119_accepted_partial a hk).1 ha
  obtain ⟨d, m, k, acc, l⟩ := a
  unfold calls evaluations readInput
  cases k <;> cases m <;> simp_all [Supported, Header.has]

/-- C119: without the data of the kernel in the file no rank does anything. -/
theorem C119_no_data (one : F) (a : Args) (file : Header F) (hk : a.kernel ≠ .other)
    (hf : file.has a.kernel = false) (rank : ℕ) : calls one a file rank = [] := by
  obtain ⟨d, m, k, acc, l⟩ := a
  unfold calls readInput
  by_cases hr : rank = 0 <;> cases k <;> simp_all [Header.has]

/-- C119: with a known kernel every rank but 0 leaves before its first collective call, whatever the
file, while rank 0 starts with a collective allocation when the file has the data: on two or more ranks
the program does not get past it. -/
theorem C119_ranks_disagree (one : F) (a : Args) (file : Header F) (hk : a.kernel ≠ .other) :
    (∀ rank, rank ≠ 0 → calls one a file rank = []) ∧
    (file.has a.kernel = true → (calls one a file 0).head? = some (.allocate true file.nSources.toInt)) := by
  obtain ⟨d, m, k, acc, l⟩ := a
  refine ⟨fun rank hr => ?_, fun hf => ?_⟩
  · unfold calls readInput
    cases k <;> simp_all
  · unfold calls readInput
    cases k <;> simp_all [Header.has]

/-- C119: the first number reported is the relative error in the least-squares norm of the computed
potentials against the exact potentials of the kernel. -/
theorem C119_error {k : Kernel} (hk : k ≠ .other) (ts : List (FileTarget P ℂ)) :
    (compareResults k ts).1 = l2Error (pairs k ts) := by
  have h := compareLoop_sums k ts
  simp only [compareResults, l2Error, pairs, h.1, h.2, List.map_map]
  have e1 : ts.map (normit k) = ts.map ((fun t : ℂ × ℂ => ‖t.1 - t.2‖ ^ 2) ∘ fun t => (t.phi, t.exact k)) :=
    List.map_congr_left fun t _ => normit_eq hk t
  have e2 : ts.map (denom k) = ts.map ((fun t : ℂ × ℂ => ‖t.2‖ ^ 2) ∘ fun t => (t.phi, t.exact k)) :=
    List.map_congr_left fun t _ => denom_eq hk t
  rw [e1, e2]

/-- C119: the error reported is zero only if every potential is exact, provided some exact potential is
not zero. -/
theorem C119_error_zero {k : Kernel} (hk : k ≠ .other) (ts : List (FileTarget P ℂ))
    (h0 : ∃ t ∈ ts, t.exact k ≠ 0) :
    (compareResults k ts).1 = 0 ↔ ∀ t ∈ ts, t.phi = t.exact k := by
  have h := compareLoop_sums k ts
  have hn : ∀ x ∈ ts.map (normit k), (0 : ℝ) ≤ x := by
    intro x hx
    obtain ⟨t, -, rfl⟩ := List.mem_map.1 hx
    rw [normit_eq hk]; positivity
  have hd : ∀ x ∈ ts.map (denom k), (0 : ℝ) ≤ x := by
    intro x hx
    obtain ⟨t, -, rfl⟩ := List.mem_map.1 hx
    rw [denom_eq hk]; positivity
  have hpos : 0 < (ts.map (denom k)).sum := by
    obtain ⟨t, ht, hne⟩ := h0
    refine lt_of_lt_of_le ?_ (List.single_le_sum hd _ (List.mem_map_of_mem ht))
    rw [denom_eq hk]
    have := norm_pos_iff.2 hne
    positivity
  simp only [compareResults, h.1, h.2]
  rw [Real.sqrt_eq_zero (div_nonneg (List.sum_nonneg hn) hpos.le), div_eq_zero_iff, or_iff_left hpos.ne']
  constructor
  · intro hs t ht
    have h1 := List.single_le_sum hn _ (List.mem_map_of_mem ht)
    rw [hs, normit_eq hk] at h1
    have h2 : ‖t.phi - t.exact k‖ = 0 := by
      have : (0 : ℝ) ≤ ‖t.phi - t.exact k‖ ^ 2 := by positivity
      exact pow_eq_zero_iff (two_ne_zero) |>.1 (le_antisymm h1 this)
    exact sub_eq_zero.1 (norm_eq_zero.1 h2)
  · intro he
    refine List.sum_eq_zero fun x hx => ?_
    obtain ⟨t, ht, rfl⟩ := List.mem_map.1 hx
    rw [normit_eq hk, he t ht]
    simp

/-- C119: the second number is the greatest relative error of a single target, for Helmholtz always and
for Laplace and Yukawa when the potentials are real: no target has a greater one, some target has it
(or it is zero). -/
theorem C119_max {k : Kernel} (hk : k ≠ .other) (ts : List (FileTarget P ℂ))
    (hr : k ≠ .helmholtz → ∀ t ∈ ts, t.phi.im = 0 ∧ (t.exact k).im = 0) :
    (∀ t ∈ ts, ‖t.phi - t.exact k‖ / ‖t.exact k‖ ≤ (compareResults k ts).2) ∧
    ((compareResults k ts).2 = 0 ∨ ∃ t ∈ ts, (compareResults k ts).2 = ‖t.phi - t.exact k‖ / ‖t.exact k‖) := by
  obtain ⟨-, h1, h2⟩ := compareLoop_max k ts
  refine ⟨fun t ht => ?_, ?_⟩
  · rw [← maxrelerr_eq hk t fun h => hr h t ht]
    exact h1 t ht
  · rcases h2 with h2 | ⟨t, ht, h2⟩
    · exact .inl h2
    · refine .inr ⟨t, ht, ?_⟩
      rw [← maxrelerr_eq hk t fun h => hr h t ht]
      exact h2

/-- C119: the first number is at most the second when no exact potential is zero (and, for Laplace and
Yukawa, the potentials are real). -/
theorem C119_error_le_max {k : Kernel} (hk : k ≠ .other) (ts : List (FileTarget P ℂ))
    (hr : k ≠ .helmholtz → ∀ t ∈ ts, t.phi.im = 0 ∧ (t.exact k).im = 0) (h0 : ∀ t ∈ ts, t.exact k ≠ 0) :
    (compareResults k ts).1 ≤ (compareResults k ts).2 := by
  have hm := (C119_max hk ts hr).1
  have hM : 0 ≤ (compareResults k ts).2 := (compareLoop_max k ts).1
  rw [C119_error hk, l2Error]
  refine Real.sqrt_le_iff.2 ⟨hM, ?_⟩
  generalize (compareResults k ts).2 = M at hm hM
  have key : ((pairs k ts).map fun t => ‖t.1 - t.2‖ ^ 2).sum ≤ M ^ 2 * ((pairs k ts).map fun t => ‖t.2‖ ^ 2).sum := by
    rw [← List.sum_map_mul_left]
    refine List.sum_le_sum fun p hp => ?_
    obtain ⟨t, ht, rfl⟩ := List.mem_map.1 hp
    have := hm t ht
    rw [div_le_iff₀ (norm_pos_iff.2 (h0 t ht))] at this
    simp only
    rw [← mul_pow]
    exact pow_le_pow_left₀ (norm_nonneg _) this 2
  have hd : 0 ≤ ((pairs k ts).map fun t => ‖t.2‖ ^ 2).sum := List.sum_nonneg fun x hx => by
    obtain ⟨t, -, rfl⟩ := List.mem_map.1 hx
    positivity
  rcases hd.eq_or_lt with hd | hd
  · rw [← hd]; simp; positivity
  · exact (div_le_iff₀ hd).2 key

/-- C119: the greatest relative error of Laplace and Yukawa potentials does not see imaginary parts: it
is zero for a computed potential that is wrong. -/
theorem C119_max_blind : ∃ t : FileTarget Unit ℂ, t.phi ≠ t.exact .laplace ∧ (compareResults .laplace [t]).2 = 0 ∧
    0 < (compareResults .laplace [t]).1 := by
  refine ⟨⟨(), 1 + Complex.I, 1, 0, 0, 0⟩, ?_, ?_, ?_⟩
  · simp [FileTarget.exact]
  · simp [compareResults, compareLoop, maxrelerr]
  · simp [compareResults, compareLoop, normit, denom]

/-! Non-vacuity. -/

example : accepted ⟨true, .fmm97, .yukawa, 3, 40⟩ = true ∧
    (⟨10, 20, 40, false, true, false, 0, 0⟩ : Header ℕ).has .yukawa = true ∧
    calls 1 ⟨true, .fmm97, .yukawa, 3, 40⟩ (⟨10, 20, 40, false, true, false, 5, 0⟩ : Header ℕ) 0 =
      [.allocate true 10, .put true 10, .allocate false 20, .put false 20, .evaluate .yukawa .fmm97 3 40 [5],
        .collect, .destroy true, .destroy false] ∧
    calls 1 ⟨true, .fmm97, .yukawa, 3, 40⟩ (⟨10, 20, 40, false, true, false, 5, 0⟩ : Header ℕ) 1 = [] := by
  decide

example : let ts : List (FileTarget Unit ℂ) := [⟨(), 2, 1, 0, 0, 0⟩, ⟨(), 3, 3, 0, 0, 1⟩]
    (∀ t ∈ ts, t.phi.im = 0 ∧ (t.exact .laplace).im = 0) ∧ (∀ t ∈ ts, t.exact .laplace ≠ 0) := by
  simp [FileTarget.exact]

end Dashmm
