import Verif.Proofs.StepRun
/-!
Property C125: the time-stepping demo, from its command line to its calls.

Full statement: the last option of a kind counts and those not given have their defaults; every rank makes the array
of particles (all of them on rank 0), evaluates and moves the particles alternately as often as steps are asked for,
with the same time step on every rank, collects exactly if a file is named, and destroys the array; the time step is
that of the masses drawn; with wrong arguments no rank makes a call.
-/
namespace Dashmm

open StepRun

/-- C125: the program stops exactly if the help is asked for, an option is not known, or there would be no
particle; otherwise the particles are all on rank 0, and the rest is given by the last option of its kind. -/
theorem C125_options (atoi : String → ℤ) (opts : List (Char × String)) (rank : ℕ) :
    (readArguments atoi opts rank = none ↔
      (∃ o ∈ opts, o.1 = 'h' ∨ o.1 = '?') ∨ ((lastOf 's' opts).map atoi).getD 10000 < 1) ∧
    ∀ a, readArguments atoi opts rank = some a →
      a.count = (if rank = 0 then ((lastOf 's' opts).map atoi).getD 10000 else 0) ∧
      a.limit = ((lastOf 'l' opts).map atoi).getD 40 ∧ a.steps = ((lastOf 'p' opts).map atoi).getD 20 ∧
      a.output = (lastOf 'o' opts).getD "" := by
  cases hp : opts.foldlM (option atoi) defaults with
  | none =>
    rw [readArguments_eq opts rank none hp]
    exact ⟨iff_of_true rfl (Or.inl (foldlM_none.1 hp)), fun a h => by cases h⟩
  | some b =>
    rw [readArguments_eq opts rank (some b) hp, Option.bind_some]
    have hno : ¬ ∃ o ∈ opts, o.1 = 'h' ∨ o.1 = '?' := fun h => by
      rw [foldlM_none.2 h] at hp
      cases hp
    have hb := foldlM_some hp
    have hc : b.count = ((lastOf 's' opts).map atoi).getD 10000 := by rw [hb]; rfl
    rw [← hc]
    by_cases h1 : b.count < 1
    · rw [if_pos h1]
      exact ⟨iff_of_true rfl (Or.inr h1), fun a h => by cases h⟩
    · rw [if_neg h1]
      by_cases hr : rank = 0
      · rw [if_pos hr]
        refine ⟨iff_of_false (by simp) (by simp only [hno, h1, or_self, not_false_eq_true]), fun a h => ?_⟩
        cases h
        exact ⟨by rw [if_pos hr], by rw [hb]; rfl, by rw [hb]; rfl, by rw [hb]; rfl⟩
      · rw [if_neg hr]
        refine ⟨iff_of_false (by simp) (by simp only [hno, h1, or_self, not_false_eq_true]), fun a h => ?_⟩
        cases h
        exact ⟨by rw [if_neg hr], by rw [hb]; rfl, by rw [hb]; rfl, by rw [hb]; rfl⟩

/-- C125: on every rank a run makes the array, evaluates and moves the particles alternately as many times as steps
are asked for, with the threshold asked for and the same time step on every rank, collects exactly if a file is
named, and destroys the array; without arguments that are accepted no rank makes a call. -/
theorem C125_calls (atoi : String → ℤ) (opts : List (Char × String)) (masses : List ℝ) (rank : ℕ) (a : Args)
    (h : readArguments atoi opts 0 = some a) :
    ∃ n dt', calls atoi opts masses rank =
      [.allocate n, .put n, .broadcast dt'] ++
        (List.replicate a.steps.toNat [Call.evaluate a.limit, Call.forEach (Real.sqrt (1 / masses.sum) / 200)]).flatten ++
        (if a.output = "" then [] else [.collect]) ++ [.destroy] ∧
      n = (if rank = 0 then a.count else 0) ∧ (rank = 0 → dt' = Real.sqrt (1 / masses.sum) / 200) := by
  obtain ⟨hpos, hr⟩ := read_of_zero rank h
  unfold calls
  rw [hr, h]
  have h0 : ownDt a masses = Real.sqrt (1 / masses.sum) / 200 := by
    unfold ownDt
    rw [if_pos (by omega), setSources_eq]
  refine ⟨if rank = 0 then a.count else 0,
    ownDt (if rank = 0 then a else { a with count := 0 }) (if rank = 0 then masses else []), ?_, rfl, ?_⟩
  · by_cases hk : rank = 0 <;> by_cases ho : a.output = "" <;> simp [perform, hk, ho, steps_eq, h0]
  · intro hk
    simp only [hk, if_true, h0]

/-- C125: otherwise no rank makes a call. -/
theorem C125_usage (atoi : String → ℤ) (opts : List (Char × String)) (masses : List ℝ) (rank : ℕ) :
    calls atoi opts masses rank = [] ↔ readArguments atoi opts 0 = none := by
  cases h : readArguments atoi opts 0 with
  | none =>
    refine iff_of_true ?_ rfl
    unfold calls
    rw [h]
    cases readArguments atoi opts rank <;> rfl
  | some a =>
    obtain ⟨-, hr⟩ := read_of_zero rank h
    refine iff_of_false ?_ (by simp)
    unfold calls
    rw [hr, h]
    simp [perform]

/-- C125: with masses between 1 and 2 the time step is, up to the root of two, that of a two-hundredth of the
dynamical time of as many unit masses. -/
theorem C125_dt (masses : List ℝ) (hm : ∀ m ∈ masses, 1 ≤ m ∧ m ≤ 2) (hn : masses ≠ []) :
    1 / Real.sqrt (2 * masses.length) / 200 ≤ Real.sqrt (1 / masses.sum) / 200 ∧
    Real.sqrt (1 / masses.sum) / 200 ≤ 1 / Real.sqrt masses.length / 200 := by
  have hlo : (masses.length : ℝ) ≤ masses.sum := by
    have := List.card_nsmul_le_sum masses 1 fun m hm' => (hm m hm').1
    simpa using this
  have hhi : masses.sum ≤ 2 * masses.length := by
    have := List.sum_le_card_nsmul masses 2 fun m hm' => (hm m hm').2
    rw [nsmul_eq_mul] at this
    linarith
  have hl : (0 : ℝ) < masses.length := by
    exact_mod_cast List.length_pos_iff.2 hn
  have hs : 0 < masses.sum := by linarith
  rw [Real.sqrt_div (by norm_num), Real.sqrt_one]
  have h1 := Real.sqrt_le_sqrt hlo
  have h2 := Real.sqrt_le_sqrt hhi
  have h3 := Real.sqrt_pos.2 hl
  have h4 := Real.sqrt_pos.2 hs
  exact ⟨by gcongr, by gcongr⟩

/-- C125: where there are as many masses as particles are asked for, each between 1 and 2, the time step of a run is
defined and positive. -/
theorem C125_dt_pos (masses : List ℝ) (hm : ∀ m ∈ masses, 1 ≤ m ∧ m ≤ 2) (hn : masses ≠ []) :
    0 < Real.sqrt (1 / masses.sum) / 200 := by
  refine lt_of_lt_of_le ?_ (C125_dt masses hm hn).1
  have hl : (0 : ℝ) < masses.length := by
    exact_mod_cast List.length_pos_iff.2 hn
  positivity

/-! Non-vacuity. -/

example : readArguments (fun _ => 2) [('s', "2"), ('p', "1"), ('p', "2"), ('o', "file")] 0 =
    some { count := 2, limit := 40, steps := 2, output := "file" } := rfl

example : calls (fun _ => 2) [('s', "2"), ('p', "2"), ('o', "file")] [1, 2] 1 =
    [.allocate 0, .put 0, .broadcast (ownDt { count := 0, limit := 40, steps := 2, output := "file" } []),
      .evaluate 40, .forEach (ownDt { count := 2, limit := 40, steps := 2, output := "file" } [1, 2]),
      .evaluate 40, .forEach (ownDt { count := 2, limit := 40, steps := 2, output := "file" } [1, 2]),
      .collect, .destroy] := by
  simp [calls, show readArguments (fun _ => 2) [('s', "2"), ('p', "2"), ('o', "file")] 1 =
      some { count := 0, limit := 40, steps := 2, output := "file" } from rfl,
    show readArguments (fun _ => 2) [('s', "2"), ('p', "2"), ('o', "file")] 0 =
      some { count := 2, limit := 40, steps := 2, output := "file" } from rfl, perform, steps]
  rfl

example : readArguments (fun _ => 0) [('s', "none")] 3 = none := rfl

example : ∀ m ∈ [(1 : ℝ), 2], 1 ≤ m ∧ m ≤ 2 := by simp

end Dashmm
