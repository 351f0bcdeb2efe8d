import Verif.Proofs.ComSum

/-!
C51: centre-of-mass moments aggregate exactly.
C60: what `LaplaceCOM::M_to_T` adds to a potential.
C61: what `LaplaceCOMAcc::M_to_T` adds to an acceleration.
C62: `S_to_T` of both expansions is the direct sum.
-/

namespace Dashmm

open Com

variable {K : Type} [Field K] [DecidableEq K]

/-! ### C51 -/

/-- C51 for `LaplaceCOM`, any charges: whenever merging up a tree, with the contributions at every
node arriving in any order, gives finite numbers at all, the result holds the total charge, the
centre of charge and the quadrupole tensor of all sources of the tree taken at once. -/
theorem C51_com_aggregates (t : MTree K) {d : Data K} (h : moments addCom t = some d) :
    IsMoments d t.sources := moments_com t h

/-- C51, independence of the tree: two trees over the same sources (in any order, cut up in any
way, merged in any order) give the same moments. -/
theorem C51_com_order_irrelevant {t t' : MTree K} {d d' : Data K}
    (h : moments addCom t = some d) (h' : moments addCom t' = some d')
    (hp : t.sources.Perm t'.sources) (h0 : total t.sources (fun _ => 1) ≠ 0) : d = d' := by
  have a := moments_com t h
  have b := moments_com t' h'
  have hm : d.mtot = d'.mtot := by rw [a.mtot, b.mtot, total_perm hp]
  have hne : d.mtot ≠ 0 := by rw [a.mtot]; exact h0
  have c0 : d.c0 = d'.c0 := by
    have := a.cx.trans ((total_perm hp _).trans b.cx.symm)
    rw [← hm] at this; exact mul_left_cancel₀ hne this
  have c1 : d.c1 = d'.c1 := by
    have := a.cy.trans ((total_perm hp _).trans b.cy.symm)
    rw [← hm] at this; exact mul_left_cancel₀ hne this
  have c2 : d.c2 = d'.c2 := by
    have := a.cz.trans ((total_perm hp _).trans b.cz.symm)
    rw [← hm] at this; exact mul_left_cancel₀ hne this
  ext
  · exact hm
  · exact c0
  · exact c1
  · exact c2
  · rw [a.qxx, b.qxx, total_perm hp, c0, c1, c2]
  · rw [a.qxy, b.qxy, total_perm hp, c0, c1]
  · rw [a.qxz, b.qxz, total_perm hp, c0, c2]
  · rw [a.qyy, b.qyy, total_perm hp, c0, c1, c2]
  · rw [a.qyz, b.qyz, total_perm hp, c1, c2]
  · rw [a.qzz, b.qzz, total_perm hp, c0, c1, c2]

mutual
/-- Every leaf holds a source and every internal node has a child. -/
def Occupied : MTree K → Prop
  | .leaf l => l ≠ []
  | .node kids => kids ≠ [] ∧ OccupiedList kids
/-- The same for a list of trees. -/
def OccupiedList : List (MTree K) → Prop
  | [] => True
  | t :: ts => Occupied t ∧ OccupiedList ts
end

section ordered
variable [LinearOrder K] [IsStrictOrderedRing K]

omit [DecidableEq K] in
mutual
theorem sources_ne_nil : (t : MTree K) → Occupied t → t.sources ≠ []
  | .leaf l, h => by simpa [Occupied, MTree.sources] using h
  | .node [], h => by simp [Occupied] at h
  | .node (t :: ts), h => by
    simp only [Occupied, OccupiedList] at h
    simp [MTree.sources, sourcesList, sources_ne_nil t h.2.1]
end

mutual
theorem com_finite : (t : MTree K) → Occupied t → (∀ s ∈ t.sources, 0 < s.charge) →
    ∃ d, moments addCom t = some d
  | .leaf l, ho, h => by
    simp only [Occupied, MTree.sources] at ho h
    have := total_pos h ho
    have hm : ¬ ((fresh : Data K).mtot + (sToM l).mtot = 0) := by
      rw [sToM_mtot]; simp only [fresh, zero_add]; exact this.ne'
    simp only [moments, addCom]
    rw [if_neg hm]
    exact ⟨_, rfl⟩
  | .node kids, ho, h => by
    simp only [Occupied, MTree.sources] at ho h
    simp only [moments]
    exact comList_finite kids ho.2 h isMoments_fresh (by simp)
theorem comList_finite : (ts : List (MTree K)) → OccupiedList ts →
    (∀ s ∈ sourcesList ts, 0 < s.charge) → {acc : Data K} → {A : List (Src K)} →
    IsMoments acc A → (∀ s ∈ A, 0 < s.charge) → ∃ d, momentsList addCom ts acc = some d
  | [], _, _, acc, A, _, _ => ⟨acc, by simp [momentsList]⟩
  | t :: ts, ho, h, acc, A, hA, hp => by
    simp only [OccupiedList] at ho
    simp only [sourcesList, List.mem_append] at h
    obtain ⟨e, he⟩ := com_finite t ho.1 (fun s hs => h s (Or.inl hs))
    have hm := moments_com t he
    have p1 := total_pos (fun s hs => h s (Or.inl hs)) (sources_ne_nil t ho.1)
    have p0 := total_nonneg (fun s hs => (hp s hs).le)
    rw [← hm.mtot] at p1
    rw [← hA.mtot] at p0
    obtain ⟨acc', hacc⟩ : ∃ acc', addCom acc (mToM e) = some acc' := by
      unfold addCom
      have hm' : ¬ (acc.mtot + (mToM e).mtot = 0) := by
        rw [mToM_eq]; intro h0; linarith
      rw [if_neg hm']
      exact ⟨_, rfl⟩
    obtain ⟨d, hd⟩ := comList_finite ts ho.2 (fun s hs => h s (Or.inr hs))
      (isMoments_addCom hA hm hacc) (by
        intro s hs
        rcases List.mem_append.1 hs with hs | hs
        · exact hp s hs
        · exact h s (Or.inl hs))
    exact ⟨d, by rw [momentsList]; simp [he, hacc, hd]⟩
end

/-- C51 for `LaplaceCOM` with charges of one sign, its documented use: over every tree whose nodes
hold sources the moments are finite and are those of all sources taken at once. -/
theorem C51_com_positive (t : MTree K) (ho : Occupied t) (h : ∀ s ∈ t.sources, 0 < s.charge) :
    ∃ d, moments addCom t = some d ∧ IsMoments d t.sources := by
  obtain ⟨d, hd⟩ := com_finite t ho h
  exact ⟨d, hd, moments_com t hd⟩

/-- C51 for `LaplaceCOMAcc` with non-negative charges (zero charges allowed, any tree). -/
theorem C51_acc_aggregates (t : MTree K) (h : ∀ s ∈ t.sources, 0 ≤ s.charge) :
    ∃ d, moments addAcc t = some d ∧ IsMoments d t.sources := moments_acc t h

end ordered

/-- The tree has a leaf holding exactly these sources. -/
inductive HasLeaf (l : List (Src K)) : MTree K → Prop
  | leaf : HasLeaf l (.leaf l)
  | node {kids : List (MTree K)} {t : MTree K} : t ∈ kids → HasLeaf l t → HasLeaf l (.node kids)

/-- C51 fails for `LaplaceCOM` when a leaf has total charge zero, e.g. when it holds just a
source of zero charge: the moments of every node above it are not finite numbers, whatever
the other sources are, although all the sums in question are finite. -/
theorem C51_com_zero_leaf_poisons (t : MTree K) (l : List (Src K)) (hl : HasLeaf l t)
    (h0 : total l (fun _ => 1) = 0) : moments addCom t = none := by
  induction hl with
  | leaf => simp [moments, addCom, sToM_mtot, h0, fresh]
  | @node kids t hk _ ih =>
    have : ∀ (ks : List (MTree K)) (acc : Data K), t ∈ ks → momentsList addCom ks acc = none := by
      intro ks
      induction ks with
      | nil => intro acc h; simp at h
      | cons k ks ihk =>
        intro acc h
        rw [momentsList]
        rcases List.mem_cons.1 h with rfl | h
        · simp [ih]
        · cases hm : moments addCom k with
          | none => simp
          | some e =>
            cases ha : addCom acc (mToM e) with
            | none => simp [ha]
            | some acc' => simp [ha, ihk acc' h]
    simp only [moments]
    exact this kids fresh hk

/-- Non-vacuity of C51: three sources in a tree of two leaves. -/
def exTree : MTree ℚ :=
  .node [.leaf [⟨1, 0, 0, 0⟩, ⟨3, 4, 0, 0⟩], .leaf [⟨2, 0, 3, 1⟩]]

example : (moments addCom exTree).map (fun d => [d.mtot, d.c0, d.c1, d.c2, d.qxx, d.qxy]) =
    some [6, 2, 1, 1 / 3, 104 / 3, -36] := by
  norm_num [exTree, moments, momentsList, addCom, mergeAt, mToM, fresh, sToM, calcMtot, calcXcom,
    calcQ]

example : Occupied exTree ∧ ∀ s ∈ exTree.sources, 0 < s.charge := by
  constructor
  · simp [exTree, Occupied, OccupiedList]
  · simp [exTree, MTree.sources, sourcesList]

/-- Non-vacuity of the failure: one of two leaves holds a single source of zero charge. -/
example : HasLeaf [⟨0, 0, 3, 1⟩]
    (.node [.leaf [⟨1, 0, 0, 0⟩, ⟨3, 4, 0, 0⟩], .leaf [⟨0, 0, 3, 1⟩]] : MTree ℚ) ∧
    total ([⟨0, 0, 3, 1⟩] : List (Src ℚ)) (fun _ => 1) = 0 :=
  ⟨.node (t := .leaf [⟨0, 0, 3, 1⟩]) (by simp) .leaf, by simp⟩

/-! ### C62 -/

/-- C62: `LaplaceCOM::S_to_T` adds to every target the potential of the given sources. -/
theorem C62_com_direct (srcs : List (Src ℝ)) (ts : List PhiTarget) :
    comSToT srcs ts =
      ts.map (fun t => { t with phi := t.phi + potential srcs t.x t.y t.z }) := by
  unfold comSToT
  apply List.map_congr_left
  intro t _
  rw [comSToTSum_eq]

/-- C62: `LaplaceCOMAcc::S_to_T` adds to every target the field of the given sources. -/
theorem C62_acc_direct (srcs : List (Src ℝ)) (ts : List AccTarget) :
    accSToT srcs ts = ts.map (fun t => { t with
      a0 := t.a0 + fieldX srcs t.x t.y t.z
      a1 := t.a1 + fieldY srcs t.x t.y t.z
      a2 := t.a2 + fieldZ srcs t.x t.y t.z }) := by
  unfold accSToT
  apply List.map_congr_left
  intro t _
  simp only [accSToTSum_eq]

theorem potential_append (l l' : List (Src ℝ)) (x y z : ℝ) :
    potential (l ++ l') x y z = potential l x y z + potential l' x y z := by
  simp [potential]

/-- C62: the sources may be presented in pieces, by several calls, in any order. -/
theorem C62_com_direct_pieces (ls : List (List (Src ℝ))) (all : List (Src ℝ))
    (hp : all.Perm ls.flatten) (ts : List PhiTarget) :
    ls.foldl (fun ts l => comSToT l ts) ts = comSToT all ts := by
  have hpot : ∀ t : PhiTarget, potential all t.x t.y t.z = potential ls.flatten t.x t.y t.z := by
    intro t; exact (hp.map _).sum_eq
  have : ∀ (ls : List (List (Src ℝ))) (ts : List PhiTarget),
      ls.foldl (fun ts l => comSToT l ts) ts =
        ts.map (fun t => { t with phi := t.phi + potential ls.flatten t.x t.y t.z }) := by
    intro ls
    induction ls with
    | nil => intro ts; simp [potential]
    | cons l ls ih =>
      intro ts
      rw [List.foldl_cons, ih, C62_com_direct, List.map_map]
      apply List.map_congr_left
      intro t _
      simp [potential_append, add_assoc]
  rw [this, C62_com_direct]
  apply List.map_congr_left
  intro t _
  rw [hpot]

/-! ### C61 -/

/-- C61: if the expansion holds the moments of sources within distance `a` of its centre, and a
target is at distance `r > a` from it, then what `LaplaceCOMAcc::M_to_T` adds to each component of
the acceleration differs from the true field by at most `76 a³/(r²(r-a)³)` per unit of charge,
i.e. the error is of third order in `a/r`. -/
theorem C61_acc_error (d : Data ℝ) (srcs : List (Src ℝ)) (hm : IsMoments d srcs) (t : AccTarget)
    {a r : ℝ} (hs : Separated d srcs a r t.x t.y t.z) :
    let E := absCharge srcs * (76 * (a ^ 3 / (r ^ 2 * (r - a) ^ 3)))
    ∃ t', accMToT d [t] = [t'] ∧ (t'.x = t.x ∧ t'.y = t.y ∧ t'.z = t.z) ∧
      |t'.a0 - (t.a0 + fieldX srcs t.x t.y t.z)| ≤ E ∧
      |t'.a1 - (t.a1 + fieldY srcs t.x t.y t.z)| ≤ E ∧
      |t'.a2 - (t.a2 + fieldZ srcs t.x t.y t.z)| ≤ E :=
  ⟨_, rfl, ⟨rfl, rfl, rfl⟩, acc_all hs hm t.a0 t.a1 t.a2⟩

/-- C61, every target of the range is treated on its own. -/
theorem C61_acc_targets (d : Data ℝ) (ts ts' : List AccTarget) :
    accMToT d (ts ++ ts') = accMToT d ts ++ accMToT d ts' := by
  simp [accMToT]

/-! ### C60 -/

/-- Two unit charges at `(±1, 0, 0)`. -/
def pair : List (Src ℝ) := [⟨1, -1, 0, 0⟩, ⟨1, 1, 0, 0⟩]
/-- Their moments: `S_to_M` of the two. -/
noncomputable def pairData : Data ℝ := sToM pair

theorem pairMoments : IsMoments pairData pair :=
  isMoments_sToM pair (Or.inl (by norm_num [pair]))

theorem pairData_eq : pairData = ⟨2, 0, 0, 0, 4, 0, 0, -2, 0, -2⟩ := by
  have h := pairMoments
  have hm : pairData.mtot = 2 := by rw [h.mtot]; norm_num [pair]
  have c0 : pairData.c0 = 0 := by
    have := h.cx; rw [hm] at this; norm_num [pair] at this; exact this
  have c1 : pairData.c1 = 0 := by
    have := h.cy; rw [hm] at this; norm_num [pair] at this; exact this
  have c2 : pairData.c2 = 0 := by
    have := h.cz; rw [hm] at this; norm_num [pair] at this; exact this
  ext
  · exact hm
  · exact c0
  · exact c1
  · exact c2
  · rw [h.qxx, c0, c1, c2]; norm_num [pair, Com.sq]
  · rw [h.qxy, c0, c1]; norm_num [pair]
  · rw [h.qxz, c0, c2]; norm_num [pair]
  · rw [h.qyy, c0, c1, c2]; norm_num [pair, Com.sq]
  · rw [h.qyz, c1, c2]; norm_num [pair]
  · rw [h.qzz, c0, c1, c2]; norm_num [pair, Com.sq]

theorem pairSep {R : ℝ} (hR : 1 < R) : Separated pairData pair 1 R R 0 0 := by
  rw [pairData_eq]
  exact ⟨by norm_num, by norm_num [pair], by linarith, by ring, hR⟩

theorem pairPotential {R : ℝ} (hR : 1 < R) :
    potential pair R 0 0 = 1 / (R + 1) + 1 / (R - 1) := by
  have h1 : dist2 ⟨1, -1, 0, 0⟩ R 0 0 = (R + 1) ^ 2 := by unfold dist2; ring
  have h2 : dist2 ⟨1, 1, 0, 0⟩ R 0 0 = (R - 1) ^ 2 := by unfold dist2; ring
  have n1 : (R + 1) ^ 2 ≠ 0 := by positivity
  have n2 : (R - 1) ^ 2 ≠ 0 := pow_ne_zero _ (by linarith)
  simp only [potential, pair, List.map_cons, List.map_nil, List.sum_cons, List.sum_nil]
  rw [h1, h2, if_neg n1, if_neg n2, Real.sqrt_sq (by linarith), Real.sqrt_sq (by linarith)]
  ring

/-- What `M_to_T` adds to a potential of zero for the pair at `(R, 0, 0)`. -/
theorem pairMToT {R : ℝ} (hR : 1 < R) :
    (comMToT1 pairData ⟨R, 0, 0, 0⟩).phi = 2 / R - 2 / R ^ 3 := by
  have h0 : R ≠ 0 := by linarith
  rw [comMToT1_phi (pairSep hR), pairData_eq]
  unfold quadForm
  norm_num
  field_simp
  norm_num

/-- C60 fails: the quadrupole term enters with the wrong sign.  The full property, "the error is
at most a constant times the charge times `a³/(r³(r-a))`", which is what an expansion "up to the
quadrupole terms" gives (`C60_right_sign`), does not hold for any constant, even for two
positive unit charges. -/
theorem C60_com_not_second_order : ¬ ∃ C : ℝ, ∀ (d : Data ℝ) (srcs : List (Src ℝ)),
    IsMoments d srcs → ∀ (t : PhiTarget) (a r : ℝ), Separated d srcs a r t.x t.y t.z →
      |(comMToT1 d t).phi - (t.phi + potential srcs t.x t.y t.z)|
        ≤ absCharge srcs * (C * (a ^ 3 / (r ^ 3 * (r - a)))) := by
  rintro ⟨C, hC⟩
  obtain ⟨R, hR1, hRC⟩ : ∃ R : ℝ, 1 < R ∧ C < 2 * (R - 1) :=
    ⟨|C| + 2, by linarith [abs_nonneg C], by linarith [le_abs_self C, abs_nonneg C]⟩
  have h := hC pairData pair pairMoments ⟨R, 0, 0, 0⟩ 1 R (pairSep hR1)
  simp only at h
  rw [pairMToT hR1, pairPotential hR1] at h
  have hq : absCharge pair = 2 := by norm_num [absCharge, pair]
  rw [hq] at h
  have h1 : (0:ℝ) < R - 1 := by linarith
  have h2 : (0:ℝ) < R + 1 := by linarith
  have h0 : (0:ℝ) < R := by linarith
  have e : 2 / R - 2 / R ^ 3 - (0 + (1 / (R + 1) + 1 / (R - 1))) =
      -((4 * R ^ 2 - 2) / (R ^ 3 * ((R + 1) * (R - 1)))) := by
    field_simp; ring
  have hpos : 0 ≤ (4 * R ^ 2 - 2) / (R ^ 3 * ((R + 1) * (R - 1))) := by
    apply div_nonneg _ (by positivity)
    nlinarith
  rw [e, abs_neg, abs_of_nonneg hpos] at h
  rw [div_le_iff₀ (by positivity)] at h
  have e2 : 2 * (C * (1 ^ 3 / (R ^ 3 * (R - 1)))) * (R ^ 3 * ((R + 1) * (R - 1))) =
      2 * C * (R + 1) := by field_simp
  rw [e2] at h
  nlinarith

/-- C60, concretely: for the two unit charges and every target on their axis beyond them, leaving
the quadrupole term out altogether would be closer to the true potential than what `M_to_T` adds. -/
theorem C60_com_worse_than_monopole {R : ℝ} (hR : 1 < R) :
    |2 / R - potential pair R 0 0| <
      |(comMToT1 pairData ⟨R, 0, 0, 0⟩).phi - potential pair R 0 0| := by
  rw [pairMToT hR, pairPotential hR]
  have h1 : (0:ℝ) < R - 1 := by linarith
  have h2 : (0:ℝ) < R + 1 := by linarith
  have h0 : (0:ℝ) < R := by linarith
  have e1 : 2 / R - (1 / (R + 1) + 1 / (R - 1)) = -(2 / (R * ((R + 1) * (R - 1)))) := by
    field_simp; ring
  have hp : 0 < 2 / R ^ 3 := by positivity
  have hq : 0 < 2 / (R * ((R + 1) * (R - 1))) := by positivity
  have e2 : 2 / R - 2 / R ^ 3 - (1 / (R + 1) + 1 / (R - 1)) =
      -(2 / (R * ((R + 1) * (R - 1))) + 2 / R ^ 3) := by linear_combination e1
  rw [e1, e2, abs_neg, abs_neg, abs_of_pos hq, abs_of_pos (by linarith)]
  linarith

/-- With the opposite sign of the quadrupole contribution `q` the property would hold, with
constant 6. -/
theorem C60_right_sign (d : Data ℝ) (srcs : List (Src ℝ)) (hm : IsMoments d srcs) (t : PhiTarget)
    {a r : ℝ} (hs : Separated d srcs a r t.x t.y t.z) :
    let q := (comMToT1 d t).phi - t.phi - d.mtot / r
    |(d.mtot / r - q) - potential srcs t.x t.y t.z|
      ≤ absCharge srcs * (6 * (a ^ 3 / (r ^ 3 * (r - a)))) := by
  intro q
  have h := quad_error hs hm
  have e' : (comMToT1 d t).phi = t.phi + (d.mtot / r - quadForm d t.x t.y t.z / (2 * r ^ 5)) :=
    comMToT1_phi hs t.phi
  have : d.mtot / r - q = d.mtot / r + quadForm d t.x t.y t.z / (2 * r ^ 5) := by
    simp only [q, e']; ring
  rw [this, abs_sub_comm]; exact h

/-- C60, proved part: the error is of second order in `a/r` (that of a monopole about the centre of
charge), not third. -/
theorem C60_com_error_partial (d : Data ℝ) (srcs : List (Src ℝ)) (hm : IsMoments d srcs)
    (t : PhiTarget) {a r : ℝ} (hs : Separated d srcs a r t.x t.y t.z) :
    ∃ t', comMToT d [t] = [t'] ∧ (t'.x = t.x ∧ t'.y = t.y ∧ t'.z = t.z) ∧
      |t'.phi - (t.phi + potential srcs t.x t.y t.z)|
        ≤ absCharge srcs * (2 * (a ^ 2 / r ^ 3) + 6 * (a ^ 3 / (r ^ 3 * (r - a)))) := by
  refine ⟨_, rfl, ⟨rfl, rfl, rfl⟩, ?_⟩
  have h := quad_error hs hm
  have h2 := quad_size hs hm
  have e' : (comMToT1 d t).phi = t.phi + (d.mtot / r - quadForm d t.x t.y t.z / (2 * r ^ 5)) :=
    comMToT1_phi hs t.phi
  rw [e']
  rw [abs_le] at h h2 ⊢
  constructor <;> nlinarith [h.1, h.2, h2.1, h2.2]

/-- C60, every target of the range is treated on its own. -/
theorem C60_com_targets (d : Data ℝ) (ts ts' : List PhiTarget) :
    comMToT d (ts ++ ts') = comMToT d ts ++ comMToT d ts' := by
  simp [comMToT]

/-- Non-vacuity of C60 and C61: the pair of charges and a target at distance 3. -/
example : IsMoments pairData pair ∧ Separated pairData pair 1 3 3 0 0 :=
  ⟨pairMoments, pairSep (by norm_num)⟩

end Dashmm
