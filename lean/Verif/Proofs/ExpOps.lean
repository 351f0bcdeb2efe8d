import Verif.Proofs.ExpMem
/-
The operations of the expansions, one by one.
-/
namespace Dashmm.ExpMem

variable {U : Ptr → Prop} {A : Multiset ℕ}

/-- What an operation does to the memory: it makes an expansion with the views `idx`, and loses `n` blocks. -/
def Makes (U : Ptr → Prop) (idx : List ℕ) (n : ℕ) (m : Prog (Option Obj)) : Prop :=
  ∀ A, Tri U A m fun r B => ∃ o Y, r = some o ∧ OwnViews o.views idx ∧ Y.card = n ∧ B = o.blocks + Y + A

theorem makes_pure {o : Obj} {idx : List ℕ} {n : ℕ} {Y B : Multiset ℕ} (h1 : OwnViews o.views idx) (h2 : Y.card = n) (h3 : B = o.blocks + Y + A) :
    Tri U B (pure (some o) : Prog (Option Obj)) fun r B => ∃ o Y, r = some o ∧ OwnViews o.views idx ∧ Y.card = n ∧ B = o.blocks + Y + A :=
  Tri.pure ⟨o, Y, rfl, h1, h2, h3⟩

theorem own0 {o : Obj} {k : Expansion} {r : Role} (h : OwnViews o.views (List.range (viewCount k r))) (hk : 0 < viewCount k r) (A : Multiset ℕ) :
    ∃ v b, o.views[0]? = some v ∧ v.2 = .own b ∧ b ∈ o.blocks + A := own_at_obj h (by simpa using hk)

theorem makes_fromSources {k : Expansion} {r : Role} (hk : viewCount k r = 1) (z : Sizes) : Makes U [0] 0 (sphFromSources k r z) := by
  intro A
  refine Tri.bind (tri_construct k r) ?_
  rintro o B ⟨ho, rfl⟩
  refine Tri.bind ((loses_useView (U := U) (own0 ho (by omega) A)).rep z.points).tri ?_
  rintro _ B ⟨Y, hY, rfl⟩
  rw [hk] at ho
  exact makes_pure (Y := Y) ho (by simpa using hY) (by abel)

theorem makes_translate {k : Expansion} {r : Role} (hk : viewCount k r = 1) {src : Views} (hs : ∃ v, src[0]? = some v ∧ U v.2) :
    Makes U [0] 0 (sphTranslate k r src) := by
  intro A
  refine Tri.bind (tri_construct k r) ?_
  rintro o B ⟨ho, rfl⟩
  refine Tri.bind (tri_useView hs) ?_
  rintro _ B rfl
  refine Tri.bind (tri_useView_own (own0 ho (by omega) A)) ?_
  rintro _ B rfl
  rw [hk] at ho
  exact makes_pure (Y := 0) ho rfl (by abel)

theorem makes_lapMToL {src : Views} (hs : ∃ v, src[0]? = some v ∧ U v.2) : Makes U [0] 0 (lapMToL src) := by
  intro A
  refine Tri.bind (tri_construct _ _) ?_
  rintro o B ⟨ho, rfl⟩
  refine Tri.bind tri_new ?_
  rintro p B rfl
  refine Tri.bind tri_new ?_
  rintro w B rfl
  refine Tri.bind (tri_useView_own (by simpa [add_left_comm] using own0 ho (by decide) ({w} + ({p} + A)))) ?_
  rintro _ B rfl
  refine Tri.bind (tri_useView hs) ?_
  rintro _ B rfl
  refine Tri.bind (tri_del rfl) ?_
  rintro _ B rfl
  refine Tri.bind (tri_del rfl) ?_
  rintro _ B rfl
  exact makes_pure (Y := 0) ho rfl (by abel)

theorem makes_sphMToI {k : Expansion} (hk : viewCount k .sourceIntermediate = 6) {src : Views} (hs : ∃ v, src[0]? = some v ∧ U v.2) :
    Makes U (List.range 6) 0 (sphMToI k src) := by
  intro A
  refine Tri.bind (tri_construct _ _) ?_
  rintro o B ⟨ho, rfl⟩
  refine Tri.bind (tri_useView hs) ?_
  rintro _ B rfl
  rw [hk] at ho
  refine Tri.bind (tri_useViews_own fun j _ h => own_at_obj ho (by simpa using h)) ?_
  rintro _ B rfl
  exact makes_pure (Y := 0) ho rfl (by abel)

/-- The arrays that are used as views. -/
theorem tri_shiftLoop : ∀ (tags Ts : List ℕ) (_ : tags.length ≤ Ts.length) (_ : ∀ T ∈ Ts, T ∈ A),
    Tri U A (shiftLoop tags Ts) fun vs B => B = A ∧ vs = (tags.zip Ts).map fun p => (p.1, Ptr.own p.2)
  | [], Ts, _, _ => by cases Ts <;> exact Tri.pure ⟨rfl, rfl⟩
  | t :: tags, [], h, _ => by simp at h
  | t :: tags, T :: Ts, h, hT => by
    unfold shiftLoop
    refine Tri.bind (tri_use_own (hT T (by simp))) ?_
    intro _ B e
    rw [e]
    refine Tri.bind (tri_shiftLoop tags Ts (by simpa using h) fun x hx => hT x (by simp [hx])) ?_
    rintro vs B ⟨e, rfl⟩
    exact Tri.pure ⟨e, rfl⟩

theorem tri_shiftLoop2 : ∀ (tags : List ℕ) (Ts : List (ℕ × ℕ)) (_ : tags.length ≤ Ts.length) (_ : ∀ T ∈ Ts, T.1 ∈ A ∧ T.2 ∈ A),
    Tri U A (shiftLoop2 tags Ts) fun vs B => B = A ∧
      vs = (tags.zip Ts).flatMap fun p => [(2 * p.1, Ptr.own p.2.1), (2 * p.1 + 1, Ptr.own p.2.2)]
  | [], Ts, _, _ => by cases Ts <;> exact Tri.pure ⟨rfl, rfl⟩
  | t :: tags, [], h, _ => by simp at h
  | t :: tags, T :: Ts, h, hT => by
    unfold shiftLoop2
    refine Tri.bind (tri_use_own (hT T (by simp)).1) ?_
    intro _ B e
    rw [e]
    refine Tri.bind (tri_use_own (hT T (by simp)).2) ?_
    intro _ B e
    rw [e]
    refine Tri.bind (tri_shiftLoop2 tags Ts (by simpa using h) fun x hx => hT x (by simp [hx])) ?_
    rintro vs B ⟨e, rfl⟩
    exact Tri.pure ⟨e, rfl⟩

theorem tri_when {c : Prop} [Decidable c] {m : Prog PUnit} {Q : PUnit → Multiset ℕ → Prop} (h : c → Tri U A m Q) (h' : ¬ c → Q ⟨⟩ A) :
    Tri U A (if c then m else pure ⟨⟩) Q := by
  split
  · exact h ‹_›
  · exact Tri.pure (h' ‹_›)

theorem makes_sphIToI {src : Views} (hs : ∀ i < 6, ∃ v, src[i]? = some v ∧ U v.2) {tags : List ℕ} (ht : tags.length ≤ 3) :
    Makes U tags (if tags = [] then 1 else 0) (sphIToI src tags) := by
  intro A
  refine Tri.bind (tri_useViews fun j _ h => hs j (by omega)) ?_
  rintro _ B0 rfl
  refine Tri.bind tri_new ?_
  rintro T1 B rfl
  refine Tri.bind tri_new ?_
  rintro T2 B rfl
  refine Tri.bind tri_new ?_
  rintro T3 B rfl
  refine Tri.bind (tri_shiftLoop tags [T1, T2, T3] ht (by simp)) ?_
  rintro vs B ⟨rfl, rfl⟩
  obtain _ | ⟨t1, _ | ⟨t2, _ | ⟨t3, _ | ⟨t4, l⟩⟩⟩⟩ := tags
  · refine Tri.bind (tri_delIf (A' := {T3} + ({T1} + B0)) (by simp) (by abel)) ?_
    rintro _ B rfl
    refine Tri.bind (tri_delIf (A' := {T1} + B0) (by simp) (by abel)) ?_
    rintro _ B rfl
    refine Tri.bind tri_new ?_
    rintro s B rfl
    exact makes_pure (Y := {T1}) ⟨rfl, by simp⟩ rfl (by simp only [Obj.blocks, viewBlocks, List.zip, List.zipWith, List.map]; abel)
  · refine Tri.bind (tri_delIf (A' := {T3} + ({T1} + B0)) (by simp) (by abel)) ?_
    rintro _ B rfl
    refine Tri.bind (tri_delIf (A' := {T1} + B0) (by simp) (by abel)) ?_
    rintro _ B rfl
    refine Tri.bind tri_new ?_
    rintro s B rfl
    exact makes_pure (Y := 0) ⟨rfl, by simp⟩ rfl (by simp only [Obj.blocks, viewBlocks, List.zip, List.zipWith, List.map]; abel)
  · refine Tri.bind (tri_keepIf (by simp)) ?_
    rintro _ B rfl
    refine Tri.bind (tri_delIf (A' := {T2} + ({T1} + B0)) (by simp) (by abel)) ?_
    rintro _ B rfl
    refine Tri.bind tri_new ?_
    rintro s B rfl
    exact makes_pure (Y := 0) ⟨rfl, by simp⟩ rfl (by simp only [Obj.blocks, viewBlocks, List.zip, List.zipWith, List.map]; abel)
  · refine Tri.bind (tri_keepIf (by simp)) ?_
    rintro _ B rfl
    refine Tri.bind (tri_keepIf (by simp)) ?_
    rintro _ B rfl
    refine Tri.bind tri_new ?_
    rintro s B rfl
    exact makes_pure (Y := 0) ⟨rfl, by simp⟩ rfl (by simp only [Obj.blocks, viewBlocks, List.zip, List.zipWith, List.map]; abel)
  · simp only [List.length_cons] at ht; omega

theorem loses_lapEToL (z : Sizes) {L : Views} (h : ∃ v b, L[0]? = some v ∧ v.2 = .own b ∧ b ∈ A) : Loses U A 0 (lapEToL z L) := by
  intro X
  refine Tri.bind tri_new ?_
  rintro W1 B rfl
  refine Tri.bind tri_new ?_
  rintro W2 B rfl
  refine Tri.bind ((loses_scratch1 (U := U) (A := {W2} + ({W1} + (A + X)))).rep z.s).tri ?_
  rintro _ B ⟨Y, hY, rfl⟩
  have hY0 : Y = 0 := Multiset.card_eq_zero.1 (by simpa using hY)
  subst hY0
  refine Tri.bind (tri_useView_own (by
    obtain ⟨v, b, h1, h2, h3⟩ := h
    exact ⟨v, b, h1, h2, by simp [h3]⟩)) ?_
  rintro _ B rfl
  refine Tri.bind (tri_del (A' := {W2} + (A + X)) (by abel)) ?_
  rintro _ B rfl
  exact (tri_del rfl).mono fun _ B h => ⟨0, rfl, by rw [h, add_zero]⟩

theorem makes_lapIToL (z : Sizes) {src : Views} (hs : ∀ i < 28, ∃ v, src[i]? = some v ∧ U v.2) : Makes U [0] 0 (lapIToL z src) := by
  intro A
  refine Tri.bind (tri_construct _ _) ?_
  rintro o B ⟨ho, rfl⟩
  refine Tri.bind (tri_useViews fun j _ h => hs j (by omega)) ?_
  rintro _ B rfl
  refine Tri.bind tri_new ?_
  rintro S B rfl
  refine Tri.bind (tri_use_own (by simp)) ?_
  rintro _ B rfl
  have := (loses_lapEToL (U := U) z (own0 ho (by decide) ({S} + A))).rep 6 0
  rw [show o.blocks + ({S} + A) + 0 = {S} + (o.blocks + A) by abel] at this
  refine Tri.bind this ?_
  rintro _ B ⟨Y, hY, rfl⟩
  refine Tri.bind (tri_del (A' := o.blocks + A + Y) (by abel)) ?_
  rintro _ B rfl
  exact makes_pure (Y := Y) ho (by simpa using hY) (by abel)

theorem loses_yukEToL (z : Sizes) {L : Views} (h : ∃ v b, L[0]? = some v ∧ v.2 = .own b ∧ b ∈ A) : Loses U A z.s (yukEToL z L) := by
  intro X
  refine Tri.bind tri_new ?_
  rintro lg B rfl
  refine Tri.bind tri_new ?_
  rintro W1 B rfl
  refine Tri.bind tri_new ?_
  rintro W2 B rfl
  have hl : Loses U ({W2} + ({W1} + ({lg} + (A + X)))) 1 (do let zz ← new; use (.own zz)) := by
    intro X'
    refine Tri.bind tri_new ?_
    rintro b B rfl
    refine (tri_use_own (by simp)).mono ?_
    rintro _ B rfl
    exact ⟨{b}, rfl, by abel⟩
  refine Tri.bind (hl.rep z.s).tri ?_
  rintro _ B ⟨Y, hY, rfl⟩
  refine Tri.bind (tri_useView_own (by
    obtain ⟨v, b, h1, h2, h3⟩ := h
    exact ⟨v, b, h1, h2, by simp [h3]⟩)) ?_
  rintro _ B rfl
  refine Tri.bind (tri_del (A' := {W2} + {lg} + (A + X) + Y) (by abel)) ?_
  rintro _ B rfl
  refine Tri.bind (tri_del (A' := {lg} + (A + X) + Y) (by abel)) ?_
  rintro _ B rfl
  exact (tri_del (A' := (A + X) + Y) (by abel)).mono fun _ B h => ⟨Y, by simpa using hY, h⟩

theorem makes_yukIToL (z : Sizes) {src : Views} (hs : ∀ i < 28, ∃ v, src[i]? = some v ∧ U v.2) : Makes U [0] (6 * z.s) (yukIToL z src) := by
  intro A
  refine Tri.bind (tri_construct _ _) ?_
  rintro o B ⟨ho, rfl⟩
  refine Tri.bind (tri_useViews fun j _ h => hs j (by omega)) ?_
  rintro _ B rfl
  refine Tri.bind tri_new ?_
  rintro S B rfl
  refine Tri.bind (tri_use_own (by simp)) ?_
  rintro _ B rfl
  have := (loses_yukEToL (U := U) z (own0 ho (by decide) ({S} + A))).rep 6 0
  rw [show o.blocks + ({S} + A) + 0 = {S} + (o.blocks + A) by abel] at this
  refine Tri.bind this ?_
  rintro _ B ⟨Y, hY, rfl⟩
  refine Tri.bind (tri_del (A' := o.blocks + A + Y) (by abel)) ?_
  rintro _ B rfl
  exact makes_pure (Y := Y) ho hY (by abel)

theorem makes_helmSToM (z : Sizes) : Makes U [0] 0 (helmSToM z) := by
  intro A
  refine Tri.bind (tri_construct _ _) ?_
  rintro o B ⟨ho, rfl⟩
  refine Tri.bind tri_new ?_
  rintro a B rfl
  refine Tri.bind tri_new ?_
  rintro b B rfl
  refine Tri.bind tri_new ?_
  rintro c B rfl
  have := (loses_useView (U := U) (own0 ho (by decide) ({c} + ({b} + ({a} + A))))).rep z.points 0
  rw [show o.blocks + ({c} + ({b} + ({a} + A))) + 0 = {c} + ({b} + ({a} + (o.blocks + A))) by abel] at this
  refine Tri.bind this ?_
  rintro _ B ⟨Y, hY, rfl⟩
  refine Tri.bind (tri_del (A' := {c} + {b} + (o.blocks + A) + Y) (by abel)) ?_
  rintro _ B rfl
  refine Tri.bind (tri_del (A' := {c} + (o.blocks + A) + Y) (by abel)) ?_
  rintro _ B rfl
  refine Tri.bind (tri_del (A' := (o.blocks + A) + Y) (by abel)) ?_
  rintro _ B rfl
  exact makes_pure (Y := Y) ho (by simpa using hY) (by abel)

theorem makes_helmSToL (z : Sizes) : Makes U [0] (2 * z.points) (helmSToL z) := by
  intro A
  refine Tri.bind (tri_construct _ _) ?_
  rintro o B ⟨ho, rfl⟩
  refine Tri.bind tri_new ?_
  rintro a B rfl
  refine Tri.bind tri_new ?_
  rintro b B rfl
  refine Tri.bind tri_new ?_
  rintro c B rfl
  have := ((loses_besselHn).seq (loses_useView (U := U) (own0 ho (by decide) ({c} + ({b} + ({a} + A)))))).rep z.points 0
  rw [show o.blocks + ({c} + ({b} + ({a} + A))) + 0 = {c} + ({b} + ({a} + (o.blocks + A))) by abel] at this
  refine Tri.bind this ?_
  rintro _ B ⟨Y, hY, rfl⟩
  refine Tri.bind (tri_del (A' := {c} + {b} + (o.blocks + A) + Y) (by abel)) ?_
  rintro _ B rfl
  refine Tri.bind (tri_del (A' := {c} + (o.blocks + A) + Y) (by abel)) ?_
  rintro _ B rfl
  refine Tri.bind (tri_del (A' := (o.blocks + A) + Y) (by abel)) ?_
  rintro _ B rfl
  exact makes_pure (Y := Y) ho (by rw [hY, add_zero, mul_comm]) (by abel)

theorem makes_helmTranslate {r : Role} (hk : viewCount .helmholtz r = 1) {src : Views} (hs : ∃ v, src[0]? = some v ∧ U v.2) :
    Makes U [0] 0 (helmTranslate r src) := by
  intro A
  refine Tri.bind (tri_construct _ _) ?_
  rintro o B ⟨ho, rfl⟩
  refine Tri.bind (tri_useView hs) ?_
  rintro _ B rfl
  refine Tri.bind (tri_useView_own (own0 ho (by omega) A)) ?_
  rintro _ B rfl
  refine Tri.bind tri_new ?_
  rintro a B rfl
  refine Tri.bind (loses_rotateZ (A := {a} + (o.blocks + A))).tri ?_
  rintro _ B ⟨Y, hY, rfl⟩
  refine Tri.bind (loses_rotateZ (A := {a} + (o.blocks + A)) Y) ?_
  rintro _ B ⟨Y', hY', rfl⟩
  refine Tri.bind (tri_del (A' := (o.blocks + A) + Y + Y') (by abel)) ?_
  rintro _ B rfl
  rw [hk] at ho
  exact makes_pure (Y := Y + Y') ho (by simp [hY, hY']) (by abel)

theorem loses_helmMToT (z : Sizes) {src : Views} (hs : ∃ v, src[0]? = some v ∧ U v.2) : Loses U A (2 * z.points) (helmMToT z src) := by
  intro X
  refine Tri.bind tri_new ?_
  rintro a B rfl
  refine Tri.bind tri_new ?_
  rintro b B rfl
  refine Tri.bind tri_new ?_
  rintro c B rfl
  have := ((loses_besselHn).seq (loses_readView (A := {c} + ({b} + ({a} + (A + X)))) hs)).rep z.points 0
  rw [add_zero] at this
  refine Tri.bind this ?_
  rintro _ B ⟨Y, hY, rfl⟩
  refine Tri.bind (tri_del (A' := {c} + {b} + (A + X) + Y) (by abel)) ?_
  rintro _ B rfl
  refine Tri.bind (tri_del (A' := {b} + (A + X) + Y) (by abel)) ?_
  rintro _ B rfl
  exact (tri_del (A' := (A + X) + Y) (by abel)).mono fun _ B h => ⟨Y, by rw [hY, add_zero, mul_comm], h⟩

theorem loses_helmLToT (z : Sizes) {src : Views} (hs : ∃ v, src[0]? = some v ∧ U v.2) : Loses U A 0 (helmLToT z src) := by
  intro X
  refine Tri.bind tri_new ?_
  rintro a B rfl
  refine Tri.bind tri_new ?_
  rintro b B rfl
  refine Tri.bind tri_new ?_
  rintro c B rfl
  have := (loses_readView (A := {c} + ({b} + ({a} + (A + X)))) hs).rep z.points 0
  rw [add_zero] at this
  refine Tri.bind this ?_
  rintro _ B ⟨Y, hY, rfl⟩
  refine Tri.bind (tri_del (A' := {b} + {a} + (A + X) + Y) (by abel)) ?_
  rintro _ B rfl
  refine Tri.bind (tri_del (A' := {a} + (A + X) + Y) (by abel)) ?_
  rintro _ B rfl
  exact (tri_del (A' := (A + X) + Y) (by abel)).mono fun _ B h => ⟨Y, by simpa using hY, h⟩

theorem makes_helmMToI (z : Sizes) {src : Views} (hs : ∃ v, src[0]? = some v ∧ U v.2) : Makes U (List.range 9) 0 (helmMToI z src) := by
  intro A
  refine Tri.bind (tri_construct _ _) ?_
  rintro o B ⟨ho, rfl⟩
  refine Tri.bind (tri_useView hs) ?_
  rintro _ B rfl
  refine Tri.bind (tri_useViews_own fun j _ h => own_at_obj ho (by simpa [viewCount] using h)) ?_
  rintro _ B rfl
  refine Tri.bind tri_new ?_
  rintro a B rfl
  refine Tri.bind tri_new ?_
  rintro b B rfl
  have h0 := loses_rotateZ (U := U) (A := {b} + ({a} + (o.blocks + A))) 0
  rw [add_zero] at h0
  refine Tri.bind h0 ?_
  rintro _ B ⟨Y, hY, rfl⟩
  refine Tri.bind tri_new ?_
  rintro c B rfl
  refine Tri.bind tri_new ?_
  rintro d B rfl
  have := (((loses_scratch2 (U := U) (A := {d} + ({c} + ({b} + ({a} + (o.blocks + A)) + Y)))).rep z.sP).seq (loses_scratch2.rep z.sE)).rep 3 0
  rw [add_zero] at this
  refine Tri.bind this ?_
  rintro _ B ⟨Z, hZ, rfl⟩
  refine Tri.bind (tri_del (A' := {d} + ({c} + ({b} + (o.blocks + A) + Y)) + Z) (by abel)) ?_
  rintro _ B rfl
  refine Tri.bind (tri_del (A' := {d} + ({c} + ((o.blocks + A) + Y)) + Z) (by abel)) ?_
  rintro _ B rfl
  refine Tri.bind (tri_del (A' := ({c} + ((o.blocks + A) + Y)) + Z) (by abel)) ?_
  rintro _ B rfl
  refine Tri.bind (tri_del (A' := ((o.blocks + A) + Y) + Z) (by abel)) ?_
  rintro _ B rfl
  exact makes_pure (Y := Y + Z) ho (by simp [hY, hZ]) (by abel)

theorem makes_helmIToI {src : Views} (hs : ∀ i < 9, ∃ v, src[i]? = some v ∧ U v.2) {tags : List ℕ} (ht : tags.length ≤ 3) :
    Makes U (tags.flatMap fun t => [2 * t, 2 * t + 1]) (if tags = [] then 2 else 0) (helmIToI src tags) := by
  intro A
  refine Tri.bind (tri_useViews fun j _ h => hs j (by omega)) ?_
  rintro _ B0 rfl
  refine Tri.bind tri_new ?_
  rintro T1 B rfl
  refine Tri.bind tri_new ?_
  rintro T2 B rfl
  refine Tri.bind tri_new ?_
  rintro T3 B rfl
  refine Tri.bind tri_new ?_
  rintro T4 B rfl
  refine Tri.bind tri_new ?_
  rintro T5 B rfl
  refine Tri.bind tri_new ?_
  rintro T6 B rfl
  refine Tri.bind (tri_shiftLoop2 tags [(T1, T2), (T3, T4), (T5, T6)] ht (by simp)) ?_
  rintro vs B ⟨rfl, rfl⟩
  obtain _ | ⟨t1, _ | ⟨t2, _ | ⟨t3, _ | ⟨t4, l⟩⟩⟩⟩ := tags
  · refine Tri.bind (tri_delIf (A' := {T6} + ({T5} + ({T4} + ({T2} + ({T1} + B0))))) (by simp) (by abel)) ?_
    rintro _ B rfl
    refine Tri.bind (tri_delIf (A' := {T6} + ({T5} + ({T2} + ({T1} + B0)))) (by simp) (by abel)) ?_
    rintro _ B rfl
    refine Tri.bind (tri_delIf (A' := {T6} + ({T2} + ({T1} + B0))) (by simp) (by abel)) ?_
    rintro _ B rfl
    refine Tri.bind (tri_delIf (A' := ({T2} + ({T1} + B0))) (by simp) (by abel)) ?_
    rintro _ B rfl
    refine Tri.bind tri_new ?_
    rintro s B rfl
    exact makes_pure (Y := {T2} + {T1}) ⟨rfl, by simp [List.zip, List.zipWith]⟩ (by simp)
      (by simp only [Obj.blocks, viewBlocks, List.zip, List.zipWith, List.flatMap_cons, List.flatMap_nil, List.cons_append, List.nil_append]; abel)
  · refine Tri.bind (tri_delIf (A' := {T6} + ({T5} + ({T4} + ({T2} + ({T1} + B0))))) (by simp) (by abel)) ?_
    rintro _ B rfl
    refine Tri.bind (tri_delIf (A' := {T6} + ({T5} + ({T2} + ({T1} + B0)))) (by simp) (by abel)) ?_
    rintro _ B rfl
    refine Tri.bind (tri_delIf (A' := {T6} + ({T2} + ({T1} + B0))) (by simp) (by abel)) ?_
    rintro _ B rfl
    refine Tri.bind (tri_delIf (A' := ({T2} + ({T1} + B0))) (by simp) (by abel)) ?_
    rintro _ B rfl
    refine Tri.bind tri_new ?_
    rintro s B rfl
    exact makes_pure (Y := 0) ⟨rfl, by simp [List.zip, List.zipWith]⟩ (by simp)
      (by simp only [Obj.blocks, viewBlocks, List.zip, List.zipWith, List.flatMap_cons, List.flatMap_nil, List.cons_append, List.nil_append]; abel)
  · refine Tri.bind (tri_keepIf (by simp)) ?_
    rintro _ B rfl
    refine Tri.bind (tri_keepIf (by simp)) ?_
    rintro _ B rfl
    refine Tri.bind (tri_delIf (A' := {T6} + ({T4} + ({T3} + ({T2} + ({T1} + B0))))) (by simp) (by abel)) ?_
    rintro _ B rfl
    refine Tri.bind (tri_delIf (A' := {T4} + ({T3} + ({T2} + ({T1} + B0)))) (by simp) (by abel)) ?_
    rintro _ B rfl
    refine Tri.bind tri_new ?_
    rintro s B rfl
    exact makes_pure (Y := 0) ⟨rfl, by simp [List.zip, List.zipWith]⟩ (by simp)
      (by simp only [Obj.blocks, viewBlocks, List.zip, List.zipWith, List.flatMap_cons, List.flatMap_nil, List.cons_append, List.nil_append]; abel)
  · refine Tri.bind (tri_keepIf (by simp)) ?_
    rintro _ B rfl
    refine Tri.bind (tri_keepIf (by simp)) ?_
    rintro _ B rfl
    refine Tri.bind (tri_keepIf (by simp)) ?_
    rintro _ B rfl
    refine Tri.bind (tri_keepIf (by simp)) ?_
    rintro _ B rfl
    refine Tri.bind tri_new ?_
    rintro s B rfl
    exact makes_pure (Y := 0) ⟨rfl, by simp [List.zip, List.zipWith]⟩ (by simp)
      (by simp only [Obj.blocks, viewBlocks, List.zip, List.zipWith, List.flatMap_cons, List.flatMap_nil, List.cons_append, List.nil_append]; abel)
  · simp only [List.length_cons] at ht; omega

theorem loses_helmEToL (z : Sizes) (y : Bool) {L : Views} (h : ∃ v b, L[0]? = some v ∧ v.2 = .own b ∧ b ∈ A) : Loses U A 0 (helmEToL z L y) := by
  intro X
  refine Tri.bind tri_new ?_
  rintro a B rfl
  refine Tri.bind tri_new ?_
  rintro b B rfl
  refine Tri.bind tri_new ?_
  rintro c B rfl
  refine Tri.bind tri_new ?_
  rintro d B rfl
  refine Tri.bind ((loses_scratch1 (U := U) (A := {d} + ({c} + ({b} + ({a} + (A + X)))))).rep z.sE).tri ?_
  rintro _ B ⟨Y, hY, rfl⟩
  refine Tri.bind ((loses_scratch1 (U := U) (A := {d} + ({c} + ({b} + ({a} + (A + X)))))).rep z.sP Y) ?_
  rintro _ B ⟨Y', hY', rfl⟩
  refine Tri.bind (tri_when (Q := fun _ B => ∃ W : Multiset ℕ, W.card = 0 ∧ B = {d} + ({c} + ({b} + ({a} + (A + X)))) + Y + Y' + W)
    (fun _ => by simpa only [add_assoc] using loses_rotateZ (U := U) (A := {d} + ({c} + ({b} + ({a} + (A + X))))) (Y + Y')) (fun _ => ⟨0, rfl, by abel⟩)) ?_
  rintro _ B ⟨W, hW, rfl⟩
  refine Tri.bind (tri_useView_own (by
    obtain ⟨v, b, h1, h2, h3⟩ := h
    exact ⟨v, b, h1, h2, by simp [h3]⟩)) ?_
  rintro _ B rfl
  refine Tri.bind (tri_del (A' := {d} + ({b} + ({a} + (A + X))) + Y + Y' + W) (by abel)) ?_
  rintro _ B rfl
  refine Tri.bind (tri_del (A' := ({b} + ({a} + (A + X))) + Y + Y' + W) (by abel)) ?_
  rintro _ B rfl
  refine Tri.bind (tri_del (A' := ({b} + (A + X)) + Y + Y' + W) (by abel)) ?_
  rintro _ B rfl
  exact (tri_del (A' := (A + X) + Y + Y' + W) (by abel)).mono fun _ B h => ⟨Y + Y' + W, by simp_all, by rw [h]; abel⟩

theorem makes_helmIToL (z : Sizes) {src : Views} (hs : ∀ i < 56, ∃ v, src[i]? = some v ∧ U v.2) : Makes U [0] 0 (helmIToL z src) := by
  intro A
  refine Tri.bind (tri_construct _ _) ?_
  rintro o B ⟨ho, rfl⟩
  refine Tri.bind (tri_useViews fun j _ h => hs j (by omega)) ?_
  rintro _ B rfl
  refine Tri.bind tri_new ?_
  rintro S B rfl
  refine Tri.bind (tri_use_own (by simp)) ?_
  rintro _ B rfl
  have hl : ∀ y, Loses U ({S} + (o.blocks + A)) 0 (helmEToL z o.views y) := fun y =>
    loses_helmEToL z y (by
      obtain ⟨v, b, h1, h2, h3⟩ := own0 ho (by decide) ({S} + A)
      exact ⟨v, b, h1, h2, by rw [show {S} + (o.blocks + A) = o.blocks + ({S} + A) by abel]; exact h3⟩)
  have h1 := (hl false).rep 2 0
  rw [add_zero] at h1
  refine Tri.bind h1 ?_
  rintro _ B ⟨Y, hY, rfl⟩
  refine Tri.bind ((hl true).rep 2 Y) ?_
  rintro _ B ⟨Y', hY', rfl⟩
  have h3 := (hl false).rep 2 (Y + Y')
  rw [← add_assoc] at h3
  refine Tri.bind h3 ?_
  rintro _ B ⟨W, hW, rfl⟩
  refine Tri.bind (tri_del (A' := o.blocks + A + Y + Y' + W) (by abel)) ?_
  rintro _ B rfl
  exact makes_pure (Y := Y + Y' + W) ho (by simp_all) (by abel)

theorem makes_comSToM {k : Expansion} (hk : viewCount k .sourcePrimary = 1) : Makes U [0] 0 (comSToM k) := by
  intro A
  refine Tri.bind (tri_construct _ _) ?_
  rintro o B ⟨ho, rfl⟩
  refine Tri.bind (tri_useView_own (own0 ho (by omega) A)) ?_
  rintro _ B rfl
  rw [hk] at ho
  exact makes_pure (Y := 0) ho rfl (by abel)

theorem makes_comMToM {k : Expansion} (hk : viewCount k .sourcePrimary = 1) {src : Views} (hs : ∃ v, src[0]? = some v ∧ U v.2) :
    Makes U [0] 0 (comMToM k src) := by
  intro A
  refine Tri.bind (tri_useView hs) ?_
  rintro _ B rfl
  exact makes_comSToM hk _

/-- Every operation that gives an expansion. -/
theorem opProg_makes {k : Expansion} {z : Sizes} {op : Op} {src : Views} {tags idx : List ℕ} (hr : resultViews k op tags = some idx)
    (ht : tags.length ≤ 3) (hs : ∀ i < viewsRead k op, ∃ v, src[i]? = some v ∧ U v.2) :
    Makes U idx (leaks k z op tags) (opProg k z op src tags) := by
  cases k <;> cases op <;> simp only [resultViews, Option.some.injEq, reduceCtorEq] at hr <;> subst hr <;> simp only [leaks, opProg]
  case laplace.StoM => exact makes_fromSources rfl z
  case laplace.StoL => exact makes_fromSources rfl z
  case laplace.MtoM => exact makes_translate rfl (hs 0 (by decide))
  case laplace.MtoL => exact makes_lapMToL (hs 0 (by decide))
  case laplace.LtoL => exact makes_translate rfl (hs 0 (by decide))
  case laplace.MtoI => exact makes_sphMToI rfl (hs 0 (by decide))
  case laplace.ItoI => exact makes_sphIToI hs ht
  case laplace.ItoL => exact makes_lapIToL z hs
  case yukawa.StoM => exact makes_fromSources rfl z
  case yukawa.StoL => exact makes_fromSources rfl z
  case yukawa.MtoM => exact makes_translate rfl (hs 0 (by decide))
  case yukawa.LtoL => exact makes_translate rfl (hs 0 (by decide))
  case yukawa.MtoI => exact makes_sphMToI rfl (hs 0 (by decide))
  case yukawa.ItoI => exact makes_sphIToI hs ht
  case yukawa.ItoL => exact makes_yukIToL z hs
  case helmholtz.StoM => exact makes_helmSToM z
  case helmholtz.StoL => exact makes_helmSToL z
  case helmholtz.MtoM => exact makes_helmTranslate rfl (hs 0 (by decide))
  case helmholtz.LtoL => exact makes_helmTranslate rfl (hs 0 (by decide))
  case helmholtz.MtoI => exact makes_helmMToI z (hs 0 (by decide))
  case helmholtz.ItoI => exact makes_helmIToI hs ht
  case helmholtz.ItoL => exact makes_helmIToL z hs
  case laplaceCOM.StoM => exact makes_comSToM rfl
  case laplaceCOM.MtoM => exact makes_comMToM rfl (hs 0 (by decide))
  case laplaceCOMAcc.StoM => exact makes_comSToM rfl
  case laplaceCOMAcc.MtoM => exact makes_comMToM rfl (hs 0 (by decide))

/-- The operations that the expansion does not have. -/
theorem opProg_null {k : Expansion} {z : Sizes} {op : Op} {src : Views} {tags : List ℕ} (hr : resultViews k op tags = none)
    (_ : op ≠ .MtoT ∧ op ≠ .LtoT ∧ op ≠ .StoT) : opProg k z op src tags = pure none := by
  cases k <;> cases op <;> first | rfl | simp [resultViews] at hr

theorem tgtProg_loses {k : Expansion} {z : Sizes} {op : Op} {src : Views} (hs : ∀ i < viewsRead k op, ∃ v, src[i]? = some v ∧ U v.2)
    (ho : op = .MtoT ∨ op = .LtoT ∨ op = .StoT) : Loses U A (leaks k z op []) (tgtProg k z op src) := by
  have read : ∀ (hs : ∃ v, src[0]? = some v ∧ U v.2), Loses U A 0 (rep z.points (useView src 0)) := fun hs => by
    simpa using (loses_readView (A := A) hs).rep z.points
  rcases ho with rfl | rfl | rfl <;> cases k <;> simp only [leaks, tgtProg] <;>
    first
    | exact loses_helmMToT z (hs 0 (by decide))
    | exact loses_helmLToT z (hs 0 (by decide))
    | exact read (hs 0 (by decide))
    | exact Loses.pure rfl

end Dashmm.ExpMem
