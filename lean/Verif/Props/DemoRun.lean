import Verif.Proofs.DemoRun
/-!
Property C124: the basic demo, from its command line to its calls.

Full statement: the last option of a kind counts and those not given have their defaults; the program accepts
exactly the supported combinations; every rank then makes the same calls, which make each array once, fill it,
evaluate once with the kernel, method, digits and threshold asked for, verify if asked with the same kernel by
direct summation, and destroy each array once; otherwise no call is made.  That unknown names are rejected is
false of the code for kernels.
-/
namespace Dashmm

open Demo DemoRun

/-- C124: the loop over the options stops without a result exactly if the help is asked for or an option is not
known; otherwise every argument is that of the last option of its kind, or the default. -/
theorem C124_options (atoi : String → ℤ) (opts : List (Char × String)) :
    (parse atoi opts = none ↔ ∃ o ∈ opts, o.1 = 'h' ∨ o.1 = '?') ∧
    ∀ a, parse atoi opts = some a →
      a.method = (lastOf 'm' opts).getD "fmm97" ∧ a.kernel = (lastOf 'k' opts).getD "laplace" ∧
      a.sourceCount = ((lastOf 's' opts).map atoi).getD 10000 ∧ a.sourceType = (lastOf 'w' opts).getD "cube" ∧
      a.targetCount = ((lastOf 't' opts).map atoi).getD 10000 ∧ a.targetType = (lastOf 'g' opts).getD "cube" ∧
      a.limit = ((lastOf 'l' opts).map atoi).getD 40 ∧ a.accuracy = ((lastOf 'a' opts).map atoi).getD 3 ∧
      (a.verify = true ↔ (lastOf 'v' opts).getD "yes" = "yes") := by
  refine ⟨foldlM_none, fun a h => ?_⟩
  have := foldlM_some h
  subst this
  refine ⟨rfl, rfl, rfl, rfl, rfl, rfl, rfl, rfl, ?_⟩
  show ((lastOf 'v' opts).map fun s => decide (s = "yes")).getD true = true ↔ _
  cases lastOf 'v' opts <;> simp

/-- C124 (part): for a known kernel the arguments are accepted exactly if there are sources and targets, in known
distributions, and the combination is supported. Missing: other kernels, see `C124_unknown_kernel`. -/
theorem C124_accepted_partial (a : Args) (hk : IsKernel a.kernel) :
    accepted a = true ↔ 1 ≤ a.sourceCount ∧ 1 ≤ a.targetCount ∧ IsDistribution a.sourceType ∧
      IsDistribution a.targetType ∧ Supported a.kernel a.method a.accuracy := by
  obtain ⟨sc, st, tc, tt, l, m, k, v, acc⟩ := a
  have hsup : Supported k m acc ↔ (k = "laplace" ∧ m = "bh") ∨ (k = "laplace" ∧ m = "fmm") ∨
      (m = "fmm97" ∧ (acc = 3 ∨ acc = 6)) := by
    constructor
    · rintro (_ | _ | ⟨_, _, _, h⟩)
      · exact Or.inl ⟨rfl, rfl⟩
      · exact Or.inr (Or.inl ⟨rfl, rfl⟩)
      · exact Or.inr (Or.inr ⟨rfl, h⟩)
    · rintro (⟨rfl, rfl⟩ | ⟨rfl, rfl⟩ | ⟨rfl, h⟩)
      · exact .bh _
      · exact .fmm _
      · exact .fmm97 _ hk _ h
  simp only [hsup]
  unfold accepted IsDistribution
  simp only
  rcases hk with h | h | h <;> (replace h : k = _ := h) <;> subst h <;>
    by_cases hs : sc < 1 <;> by_cases ht : tc < 1 <;>
    by_cases h1 : m = "bh" <;> by_cases h2 : m = "fmm" <;> by_cases h3 : m = "fmm97" <;>
    by_cases h4 : acc = 3 <;> by_cases h5 : acc = 6 <;> simp_all <;> grind

/-- C124: a kernel of another name is accepted with every method and every number of digits; nothing is evaluated
then, neither by the method nor directly. -/
theorem C124_unknown_kernel (a : Args) (hk : ¬ IsKernel a.kernel) :
    (accepted a = true ↔ 1 ≤ a.sourceCount ∧ 1 ≤ a.targetCount ∧ IsDistribution a.sourceType ∧
      IsDistribution a.targetType ∧ (a.method = "bh" ∨ a.method = "fmm" ∨ a.method = "fmm97")) ∧
    ∀ rank e m s t l acc ps, Call.evaluate e m s t l acc ps ∉ perform a rank := by
  have hk1 : a.kernel ≠ "laplace" := fun h => hk (Or.inl h)
  have hk2 : a.kernel ≠ "yukawa" := fun h => hk (Or.inr (Or.inl h))
  have hk3 : a.kernel ≠ "helmholtz" := fun h => hk (Or.inr (Or.inr h))
  refine ⟨?_, fun rank e m s t l acc ps h => ?_⟩
  · unfold accepted IsDistribution
    simp only [hk1, hk2, hk3, false_and, if_false]
    split_ifs <;> grind
  · unfold perform evaluation verification directEvaluation at h
    simp only [hk1, hk2, hk3, if_false] at h
    split_ifs at h <;> simp at h

/-- C124: with accepted arguments for a known kernel there is exactly one evaluation of the targets, with the
evaluator of this kernel and method, the threshold and the digits asked for; and one of the targets to verify, by
direct summation for the same kernel with the same parameters, exactly if verification is asked for. There is no
other evaluation. Missing: other kernels, see `C124_unknown_kernel`. -/
theorem C124_evaluations_partial (a : Args) (hk : IsKernel a.kernel) (ha : accepted a = true) (rank : ℕ) :
    ∃ e m ps e' , Evaluates a.kernel a.method e m ps ∧ Directly a.kernel e' ps ∧
      ((perform a rank).filter fun c => match c with
        | .evaluate .. => true
        | _ => false) =
      .evaluate e m .sources .targets a.limit a.accuracy ps ::
        (if a.verify then [.evaluate e' .direct .sources .test a.limit a.accuracy ps] else []) := by
  obtain ⟨-, -, -, -, hs⟩ := (C124_accepted_partial a hk).1 ha
  obtain ⟨sc, st, tc, tt, l, m, k, v, acc⟩ := a
  replace hs : Supported k m acc := hs
  rcases hs with _ | _ | ⟨_, hk', _, h⟩
  · exact ⟨_, _, _, _, .bh, .laplace, by cases v <;> norm_num [perform, evaluation, verification, directEvaluation]⟩
  · exact ⟨_, _, _, _, .fmm, .laplace, by cases v <;> simp [perform, evaluation, verification, directEvaluation]⟩
  · rcases hk' with rfl | rfl | rfl
    · exact ⟨_, _, _, _, .fmm97, .laplace, by cases v <;> simp [perform, evaluation, verification, directEvaluation]⟩
    · exact ⟨_, _, _, _, .yukawa, .yukawa, by cases v <;> simp [perform, evaluation, verification, directEvaluation]⟩
    · exact ⟨_, _, _, _, .helmholtz, .helmholtz,
        by cases v <;> simp [perform, evaluation, verification, directEvaluation]⟩

/-- C124: the evaluation of the targets comes before their results are collected, and the direct evaluation
before its results are. -/
theorem C124_order (a : Args) (rank : ℕ) (pre post : List Call) (x : Arr)
    (h : perform a rank = pre ++ .collect x :: post) (e : Expansion) (m : Method) (s : Arr) (l acc : ℤ) (ps : List ℚ) :
    Call.evaluate e m s x l acc ps ∉ post := by
  have hp : (perform a rank).Pairwise fun c d => c = .collect x → d ≠ .evaluate e m s x l acc ps := by
    unfold perform verification
    rcases evaluation_cases a with h1 | ⟨_, _, _, h1⟩ <;> rcases directEvaluation_cases a with h2 | ⟨_, _, _, h2⟩ <;>
      rw [h1, h2] <;> cases a.verify <;> simp <;> grind
  rw [h, List.pairwise_append] at hp
  intro hm
  exact (List.pairwise_cons.1 hp.2.1).1 _ hm rfl rfl

/-- C124: whatever the arguments, the arrays of sources and targets are each made once, then filled with as many
records, and destroyed once, with every use between; so is the array of the targets to verify, exactly if
verification is asked for. -/
theorem C124_arrays (a : Args) (rank : ℕ) :
    LivesIn .sources (perform a rank) ∧ LivesIn .targets (perform a rank) ∧
    (a.verify = true → LivesIn .test (perform a rank)) ∧
    (a.verify = false → ∀ c ∈ perform a rank, c.uses .test = false) := by
  unfold perform verification
  rcases evaluation_cases a with h1 | ⟨_, _, _, h1⟩ <;> rcases directEvaluation_cases a with h2 | ⟨_, _, _, h2⟩ <;>
    rw [h1, h2] <;> cases a.verify <;>
    refine ⟨livesIn_of a.sourceCount rfl (by simp [Call.uses, Call.bounds]),
      livesIn_of a.targetCount rfl (by simp [Call.uses, Call.bounds]), fun hv => ?_, fun hv => ?_⟩ <;>
    first
      | cases hv; done
      | simp [Call.uses]; done
      | exact livesIn_of (testCount rank a.targetCount.toNat) rfl (by simp [Call.uses, Call.bounds])

/-- C124: on all ranks the same calls are made in the same order, up to the numbers of records. -/
theorem C124_ranks (atoi : String → ℤ) (opts : List (Char × String)) (ranks rank rank' : ℕ) :
    (calls atoi opts ranks rank).map Call.shape = (calls atoi opts ranks rank').map Call.shape := by
  unfold calls readArguments
  cases parse atoi opts with
  | none => rfl
  | some a =>
    show List.map _ (match (if accepted a then _ else none : Option Args) with
      | some a => perform a rank
      | none => []) = List.map _ (match (if accepted a then _ else none : Option Args) with
      | some a => perform a rank'
      | none => [])
    by_cases ha : accepted a
    · simp only [if_pos ha]
      unfold perform verification evaluation directEvaluation
      simp only [List.map_append, List.map_cons, List.map_nil, Call.shape]
      congr 1
      congr 1
      split_ifs <;> simp [Call.shape]
    · simp only [if_neg ha]

/-- C124: with accepted arguments the ranks together make as many sources and targets as asked for. -/
theorem C124_records (atoi : String → ℤ) (opts : List (Char × String)) {ranks : ℕ} (hr : 0 < ranks) (a : Args)
    (hp : parse atoi opts = some a) (ha : accepted a = true) :
    ∃ as : ℕ → Args, (∀ rank, calls atoi opts ranks rank = perform (as rank) rank) ∧
      ((List.range ranks).map fun rank => (as rank).sourceCount).sum = a.sourceCount ∧
      ((List.range ranks).map fun rank => (as rank).targetCount).sum = a.targetCount ∧
      ∀ rank, (as rank).kernel = a.kernel ∧ (as rank).method = a.method ∧ (as rank).limit = a.limit ∧
        (as rank).accuracy = a.accuracy ∧ (as rank).verify = a.verify := by
  obtain ⟨hs, ht⟩ := accepted_pos ha
  refine ⟨fun rank => { a with
    sourceCount := share a.sourceCount.toNat ranks rank, targetCount := share a.targetCount.toNat ranks rank },
    fun rank => ?_, ?_, ?_, fun rank => ⟨rfl, rfl, rfl, rfl, rfl⟩⟩
  · unfold calls readArguments
    rw [hp, Option.bind_some, if_pos ha]
  · have h := sum_share (n := a.sourceCount.toNat) hr
    calc ((List.range ranks).map fun rank => ((share a.sourceCount.toNat ranks rank : ℕ) : ℤ)).sum
        = (((List.range ranks).map (share a.sourceCount.toNat ranks)).sum : ℕ) := by
          rw [Nat.cast_list_sum, List.map_map]
          rfl
      _ = a.sourceCount := by
          rw [h]
          omega
  · have h := sum_share (n := a.targetCount.toNat) hr
    calc ((List.range ranks).map fun rank => ((share a.targetCount.toNat ranks rank : ℕ) : ℤ)).sum
        = (((List.range ranks).map (share a.targetCount.toNat ranks)).sum : ℕ) := by
          rw [Nat.cast_list_sum, List.map_map]
          rfl
      _ = a.targetCount := by
          rw [h]
          omega

/-- C124: where the arguments are not accepted, or the help is asked for, no rank makes a call. -/
theorem C124_usage (atoi : String → ℤ) (opts : List (Char × String)) (ranks rank : ℕ) :
    calls atoi opts ranks rank = [] ↔ ∀ a, parse atoi opts = some a → accepted a = false := by
  unfold calls readArguments
  cases parse atoi opts with
  | none => simp
  | some a =>
    by_cases ha : accepted a
    · simp [ha, perform]
    · simp [ha]

/-! Non-vacuity. -/

/-- Barnes-Hut without verification on two ranks: the second of three sources and targets. -/
example : calls (fun _ => 3) [('m', "fmm"), ('s', "3"), ('t', "3"), ('m', "bh"), ('v', "no")] 2 1 =
    [.allocate .sources 1, .put .sources 1, .allocate .targets 1, .put .targets 1,
      .evaluate .laplaceCOM (.bh (3 / 5)) .sources .targets 40 3 [], .destroy .sources, .destroy .targets] := by
  have h : (6 / 10 : ℚ) = 3 / 5 := by norm_num
  rw [← h]
  rfl

/-- Yukawa with verification on one rank. -/
example : calls (fun _ => 6) [('k', "yukawa"), ('a', "6"), ('s', "6"), ('t', "6")] 1 0 =
    [.allocate .sources 6, .put .sources 6, .allocate .targets 6, .put .targets 6,
      .evaluate .yukawa .fmm97 .sources .targets 40 6 [1 / 10], .collect .targets, .allocate .test 6, .put .test 6,
      .evaluate .yukawa .direct .sources .test 40 6 [1 / 10], .collect .test, .destroy .test,
      .destroy .sources, .destroy .targets] := rfl

example : accepted { defaults with kernel := "helmholtz", accuracy := 6 } = true := rfl

example : Supported "helmholtz" "fmm97" 6 := .fmm97 _ (.inr (.inr rfl)) _ (.inr rfl)

/-- Yukawa with Barnes-Hut is not accepted; a kernel of no name is. -/
example : accepted { defaults with kernel := "yukawa", method := "bh" } = false ∧
    accepted { defaults with kernel := "coulomb", method := "bh", accuracy := 17 } = true := ⟨rfl, rfl⟩

example : ¬ IsKernel "coulomb" := by simp [IsKernel]

example : parse (fun _ => 0) [('m', "bh"), ('h', "")] = none := rfl

end Dashmm
