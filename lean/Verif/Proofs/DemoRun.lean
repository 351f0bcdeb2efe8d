import Verif.Spec.DemoRun
import Verif.Proofs.Demo
/-!
# Lemmas on the arguments of the basic demo
-/
namespace Dashmm.DemoRun

variable {atoi : String → ℤ}

theorem option_eq_none {a : Args} {o : Char × String} : option atoi a o = none ↔ StopsAt o := by
  obtain ⟨c, s⟩ := o
  constructor
  · intro h
    unfold option at h
    dsimp only at h
    by_cases h0 : c = 'm'
    · rw [if_pos h0] at h
      cases h
    rw [if_neg h0] at h
    by_cases h1 : c = 's'
    · rw [if_pos h1] at h
      cases h
    rw [if_neg h1] at h
    by_cases h2 : c = 'w'
    · rw [if_pos h2] at h
      cases h
    rw [if_neg h2] at h
    by_cases h3 : c = 't'
    · rw [if_pos h3] at h
      cases h
    rw [if_neg h3] at h
    by_cases h4 : c = 'g'
    · rw [if_pos h4] at h
      cases h
    rw [if_neg h4] at h
    by_cases h5 : c = 'l'
    · rw [if_pos h5] at h
      cases h
    rw [if_neg h5] at h
    by_cases h6 : c = 'v'
    · rw [if_pos h6] at h
      cases h
    rw [if_neg h6] at h
    by_cases h7 : c = 'a'
    · rw [if_pos h7] at h
      cases h
    rw [if_neg h7] at h
    by_cases h8 : c = 'k'
    · rw [if_pos h8] at h
      cases h
    rw [if_neg h8] at h
    by_cases h9 : c = 'h'
    · exact Or.inl h9
    rw [if_neg h9] at h
    by_cases h10 : c = '?'
    · exact Or.inr h10
    rw [if_neg h10] at h
    cases h
  · rintro (h | h)
    · replace h : c = 'h' := h
      subst h
      rfl
    · replace h : c = '?' := h
      subst h
      rfl

theorem foldlM_none {opts : List (Char × String)} {a : Args} :
    opts.foldlM (option atoi) a = none ↔ ∃ o ∈ opts, StopsAt o := by
  induction opts generalizing a with
  | nil => simp
  | cons o os ih =>
    rw [List.foldlM_cons]
    cases h : option atoi a o with
    | none =>
      have := option_eq_none.1 h
      simp [this]
    | some b =>
      have hn : ¬ StopsAt o := fun hs => by rw [option_eq_none.2 hs] at h; cases h
      show List.foldlM (option atoi) b os = none ↔ _
      rw [ih]
      simp [hn]

theorem lastOf_nil (c : Char) : lastOf c [] = none := rfl

theorem lastOf_cons (c : Char) (o : Char × String) (os : List (Char × String)) :
    lastOf c (o :: os) = (lastOf c os).or (if o.1 = c then some o.2 else none) := by
  unfold lastOf
  by_cases h : o.1 = c
  · simp only [List.filter_cons, h, decide_true, if_true, List.getLast?_cons]
    cases (List.filter (fun o => decide (o.1 = c)) os).getLast? <;> simp
  · simp [List.filter_cons, h]

/-- The arguments after the options, from those before. -/
def after (atoi : String → ℤ) (opts : List (Char × String)) (a : Args) : Args :=
  { sourceCount := ((lastOf 's' opts).map atoi).getD a.sourceCount
    sourceType := (lastOf 'w' opts).getD a.sourceType
    targetCount := ((lastOf 't' opts).map atoi).getD a.targetCount
    targetType := (lastOf 'g' opts).getD a.targetType
    limit := ((lastOf 'l' opts).map atoi).getD a.limit
    method := (lastOf 'm' opts).getD a.method
    kernel := (lastOf 'k' opts).getD a.kernel
    verify := ((lastOf 'v' opts).map fun s => decide (s = "yes")).getD a.verify
    accuracy := ((lastOf 'a' opts).map atoi).getD a.accuracy }

theorem getD_or {α : Type} (x y : Option α) (d : α) : (x.or y).getD d = x.getD (y.getD d) := by
  cases x <;> simp

theorem map_or' {α β : Type} (f : α → β) (x y : Option α) : (x.or y).map f = (x.map f).or (y.map f) := by
  cases x <;> simp

theorem after_cons (o : Char × String) (os : List (Char × String)) (a b : Args) (h : option atoi a o = some b) :
    after atoi (o :: os) a = after atoi os b := by
  have hb : b = after atoi [o] a := by
    obtain ⟨c, s⟩ := o
    unfold option at h
    dsimp only at h
    by_cases h0 : c = 'm'
    · rw [if_pos h0] at h
      cases h
      subst h0
      rfl
    rw [if_neg h0] at h
    by_cases h1 : c = 's'
    · rw [if_pos h1] at h
      cases h
      subst h1
      rfl
    rw [if_neg h1] at h
    by_cases h2 : c = 'w'
    · rw [if_pos h2] at h
      cases h
      subst h2
      rfl
    rw [if_neg h2] at h
    by_cases h3 : c = 't'
    · rw [if_pos h3] at h
      cases h
      subst h3
      rfl
    rw [if_neg h3] at h
    by_cases h4 : c = 'g'
    · rw [if_pos h4] at h
      cases h
      subst h4
      rfl
    rw [if_neg h4] at h
    by_cases h5 : c = 'l'
    · rw [if_pos h5] at h
      cases h
      subst h5
      rfl
    rw [if_neg h5] at h
    by_cases h6 : c = 'v'
    · rw [if_pos h6] at h
      cases h
      subst h6
      rfl
    rw [if_neg h6] at h
    by_cases h7 : c = 'a'
    · rw [if_pos h7] at h
      cases h
      subst h7
      rfl
    rw [if_neg h7] at h
    by_cases h8 : c = 'k'
    · rw [if_pos h8] at h
      cases h
      subst h8
      rfl
    rw [if_neg h8] at h
    by_cases h9 : c = 'h'
    · rw [if_pos h9] at h
      cases h
    rw [if_neg h9] at h
    by_cases h10 : c = '?'
    · rw [if_pos h10] at h
      cases h
    rw [if_neg h10] at h
    cases h
    simp only [after, lastOf_cons, lastOf_nil, Option.none_or, if_neg h0, if_neg h1, if_neg h2, if_neg h3, if_neg h4,
      if_neg h5, if_neg h6, if_neg h7, if_neg h8, Option.map_none, Option.getD_none]
  subst hb
  simp only [after, lastOf_cons, lastOf_nil, getD_or, map_or', Option.none_or]

theorem foldlM_some {opts : List (Char × String)} {a b : Args}
    (h : opts.foldlM (option atoi) a = some b) : b = after atoi opts a := by
  induction opts generalizing a with
  | nil =>
    simp only [List.foldlM_nil] at h
    cases h
    simp [after, lastOf_nil]
  | cons o os ih =>
    rw [List.foldlM_cons] at h
    cases ho : option atoi a o with
    | none => rw [ho] at h; cases h
    | some c =>
      rw [ho] at h
      rw [after_cons o os a c ho]
      exact ih h

theorem evaluation_cases (a : Args) :
    evaluation a = [] ∨ ∃ e m ps, evaluation a = [.evaluate e m .sources .targets a.limit a.accuracy ps] := by
  unfold evaluation
  split_ifs
  all_goals first
    | exact Or.inl rfl
    | exact Or.inr ⟨_, _, _, rfl⟩

theorem directEvaluation_cases (a : Args) :
    directEvaluation a = [] ∨
      ∃ e m ps, directEvaluation a = [.evaluate e m .sources .test a.limit a.accuracy ps] := by
  unfold directEvaluation
  split_ifs
  all_goals first
    | exact Or.inl rfl
    | exact Or.inr ⟨_, _, _, rfl⟩

theorem accepted_pos {a : Args} (ha : accepted a = true) : 1 ≤ a.sourceCount ∧ 1 ≤ a.targetCount := by
  unfold accepted at ha
  by_cases h1 : a.sourceCount < 1
  · rw [if_pos h1] at ha
    cases ha
  rw [if_neg h1] at ha
  by_cases h2 : a.targetCount < 1
  · rw [if_pos h2] at ha
    cases ha
  omega

theorem livesIn_of {x : Arr} {cs : List Call} (n : ℤ)
    (h : cs.filter (·.uses x) =
      [.allocate x n, .put x n] ++ ((cs.filter (·.uses x)).drop 2).dropLast ++ [.destroy x])
    (h' : ∀ c ∈ ((cs.filter (·.uses x)).drop 2).dropLast, c.bounds = false) : LivesIn x cs :=
  ⟨n, _, h, h'⟩

end Dashmm.DemoRun
