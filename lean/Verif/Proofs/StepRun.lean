import Verif.Spec.StepRun
import Mathlib.Tactic.Linarith
import Mathlib.Tactic.Positivity
/-!
# Lemmas on the time-stepping demo
-/
namespace Dashmm.StepRun

variable {atoi : String → ℤ}

/-- The help is asked for, or the option is not known. -/
def StopsAt (o : Char × String) : Prop := o.1 = 'h' ∨ o.1 = '?'

theorem option_eq_none {a : Args} {o : Char × String} : option atoi a o = none ↔ StopsAt o := by
  obtain ⟨c, s⟩ := o
  constructor
  · intro h
    unfold option at h
    dsimp only at h
    by_cases h0 : c = 's'
    · rw [if_pos h0] at h
      cases h
    rw [if_neg h0] at h
    by_cases h1 : c = 'l'
    · rw [if_pos h1] at h
      cases h
    rw [if_neg h1] at h
    by_cases h2 : c = 'p'
    · rw [if_pos h2] at h
      cases h
    rw [if_neg h2] at h
    by_cases h3 : c = 'o'
    · rw [if_pos h3] at h
      cases h
    rw [if_neg h3] at h
    by_cases h9 : c = 'h'
    · exact Or.inl h9
    rw [if_neg h9] at h
    by_cases h10 : c = '?'
    · exact Or.inr h10
    rw [if_neg h10] at h
    cases h
  · rintro (h | h)
    · replace h : c = 'h' := h
      subst h
      rfl
    · replace h : c = '?' := h
      subst h
      rfl

theorem foldlM_none {opts : List (Char × String)} {a : Args} :
    opts.foldlM (option atoi) a = none ↔ ∃ o ∈ opts, StopsAt o := by
  induction opts generalizing a with
  | nil => simp
  | cons o os ih =>
    rw [List.foldlM_cons]
    cases h : option atoi a o with
    | none =>
      have := option_eq_none.1 h
      simp [this]
    | some b =>
      have hn : ¬ StopsAt o := fun hs => by rw [option_eq_none.2 hs] at h; cases h
      show List.foldlM (option atoi) b os = none ↔ _
      rw [ih]
      simp [hn]

theorem lastOf_nil (c : Char) : lastOf c [] = none := rfl

theorem lastOf_cons (c : Char) (o : Char × String) (os : List (Char × String)) :
    lastOf c (o :: os) = (lastOf c os).or (if o.1 = c then some o.2 else none) := by
  unfold lastOf
  by_cases h : o.1 = c
  · simp only [List.filter_cons, h, decide_true, if_true, List.getLast?_cons]
    cases (List.filter (fun o => decide (o.1 = c)) os).getLast? <;> simp
  · simp [List.filter_cons, h]

/-- The arguments after the options, from those before. -/
def after (atoi : String → ℤ) (opts : List (Char × String)) (a : Args) : Args :=
  { count := ((lastOf 's' opts).map atoi).getD a.count
    limit := ((lastOf 'l' opts).map atoi).getD a.limit
    steps := ((lastOf 'p' opts).map atoi).getD a.steps
    output := (lastOf 'o' opts).getD a.output }

theorem getD_or {α : Type} (x y : Option α) (d : α) : (x.or y).getD d = x.getD (y.getD d) := by
  cases x <;> simp

theorem map_or' {α β : Type} (f : α → β) (x y : Option α) : (x.or y).map f = (x.map f).or (y.map f) := by
  cases x <;> simp

theorem after_cons (o : Char × String) (os : List (Char × String)) (a b : Args) (h : option atoi a o = some b) :
    after atoi (o :: os) a = after atoi os b := by
  have hb : b = after atoi [o] a := by
    obtain ⟨c, s⟩ := o
    unfold option at h
    dsimp only at h
    by_cases h0 : c = 's'
    · rw [if_pos h0] at h
      cases h
      subst h0
      rfl
    rw [if_neg h0] at h
    by_cases h1 : c = 'l'
    · rw [if_pos h1] at h
      cases h
      subst h1
      rfl
    rw [if_neg h1] at h
    by_cases h2 : c = 'p'
    · rw [if_pos h2] at h
      cases h
      subst h2
      rfl
    rw [if_neg h2] at h
    by_cases h3 : c = 'o'
    · rw [if_pos h3] at h
      cases h
      subst h3
      rfl
    rw [if_neg h3] at h
    by_cases h4 : c = 'h'
    · rw [if_pos h4] at h
      cases h
    rw [if_neg h4] at h
    by_cases h5 : c = '?'
    · rw [if_pos h5] at h
      cases h
    rw [if_neg h5] at h
    cases h
    simp only [after, lastOf_cons, lastOf_nil, Option.none_or, if_neg h0, if_neg h1, if_neg h2, if_neg h3,
      Option.map_none, Option.getD_none]
  subst hb
  simp only [after, lastOf_cons, lastOf_nil, getD_or, map_or', Option.none_or]

theorem foldlM_some {opts : List (Char × String)} {a b : Args}
    (h : opts.foldlM (option atoi) a = some b) : b = after atoi opts a := by
  induction opts generalizing a with
  | nil =>
    simp only [List.foldlM_nil] at h
    cases h
    simp [after, lastOf_nil]
  | cons o os ih =>
    rw [List.foldlM_cons] at h
    cases ho : option atoi a o with
    | none => rw [ho] at h; cases h
    | some c =>
      rw [ho] at h
      rw [after_cons o os a c ho]
      exact ih h

theorem readArguments_eq (opts : List (Char × String)) (rank : ℕ) (p : Option Args)
    (hp : opts.foldlM (option atoi) defaults = p) :
    readArguments atoi opts rank = p.bind fun a =>
      if a.count < 1 then none else if rank = 0 then some a else some { a with count := 0 } := by
  subst hp
  rfl

theorem read_of_zero {opts : List (Char × String)} {a : Args} (rank : ℕ) (h : readArguments atoi opts 0 = some a) :
    1 ≤ a.count ∧ readArguments atoi opts rank = some (if rank = 0 then a else { a with count := 0 }) := by
  cases hp : opts.foldlM (option atoi) defaults with
  | none =>
    rw [readArguments_eq opts 0 none hp] at h
    cases h
  | some b =>
    rw [readArguments_eq opts 0 (some b) hp, Option.bind_some] at h
    by_cases h1 : b.count < 1
    · rw [if_pos h1] at h
      cases h
    · rw [if_neg h1, if_pos rfl] at h
      cases h
      refine ⟨by omega, ?_⟩
      rw [readArguments_eq opts rank (some a) hp, Option.bind_some, if_neg h1]
      by_cases hr : rank = 0
      · rw [if_pos hr, if_pos hr]
      · rw [if_neg hr, if_neg hr]

theorem setSources_eq (masses : List ℝ) : setSources masses = masses.sum := by
  unfold setSources
  have : ∀ (m : ℝ) (l : List ℝ), l.foldl (fun m q => m + q) m = m + l.sum := by
    intro m l
    induction l generalizing m with
    | nil => simp
    | cons q l ih => rw [List.foldl_cons, ih, List.sum_cons, add_assoc]
  rw [this, zero_add]

theorem steps_eq (l s : ℤ) (dt : ℝ) :
    steps l s dt = (List.replicate s.toNat [Call.evaluate l, Call.forEach dt]).flatten := by
  unfold steps
  rw [List.flatMap_def, List.map_const', List.length_range]

end Dashmm.StepRun
