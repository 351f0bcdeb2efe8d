import Verif.Proofs.WavesSum
import Mathlib.Analysis.SpecialFunctions.ExpDeriv
import Mathlib.Tactic.NormNum

/-!
# C90, C91: plane waves of Yukawa and Helmholtz
-/

namespace Dashmm

open Waves Lap

/-! ### Facts about the digits -/

theorem Waves.waveBase_some {d : ℤ} {T : PlaneTable} (h : waveBase d = some T) :
    T = table3 ∨ T = table6 ∨ T = emptyTable := by
  unfold waveBase at h
  split_ifs at h <;> simp_all

theorem Waves.waveBase_ok {d : ℤ} {T : PlaneTable} (h : waveBase d = some T) : ∀ k < T.s, 0 < T.rule.m k ∧ T.rule.m k % 2 = 0 := by
  rcases waveBase_some h with rfl | rfl | rfl
  · exact table3_ok.even
  · exact table6_ok.even
  · intro k hk; simp [emptyTable] at hk

theorem Waves.waveBase_nonneg {d : ℤ} {T : PlaneTable} (h : waveBase d = some T) (k : ℕ) : 0 ≤ T.rule.lam k := by
  have key : ∀ q ∈ T.lam, 0 ≤ q := by
    rcases waveBase_some h with rfl | rfl | rfl <;> decide +kernel
  show (0 : ℝ) ≤ ((T.lam.getD k 0 : ℚ) : ℝ)
  have : 0 ≤ T.lam.getD k 0 := by
    rw [List.getD_eq_getElem?_getD]
    cases e : T.lam[k]? with
    | none => exact le_refl _
    | some q => exact key q (List.mem_of_getElem? e)
  exact_mod_cast this

theorem Waves.unitsAt_succ (a size : ℝ) (lev : ℕ) : unitsAt a size (lev + 1) = unitsAt a size lev / 2 := by
  unfold unitsAt; rw [pow_succ]; field_simp

theorem Waves.unitsAt_nonneg {a size : ℝ} (h : 0 ≤ a * size) (lev : ℕ) : 0 ≤ unitsAt a size lev := by
  unfold unitsAt; positivity

/-! ### The number of angles -/

/-- **C90** The scan takes for every node the largest number of angles among its own and those of the following nodes up to
the first one that is not below the wave number across: the number of angles is enough for that wave number by the
standard of the table. -/
theorem C90_angles (T : PlaneTable) (t : ℝ) {j : ℕ} (hj : j < T.s) : IsGreatest (candidates T t j) (angles T t j) :=
  angles_spec T t j hj

/-! ### The layout of a level -/

/-- **C90** The arrays of a level with half of the angles stored: every number of angles is positive and even, the arrays
have the lengths the code allocates (the allocated length of `zs` of Yukawa is `4 * nexp`, not less than what is written),
and at every place the operators compute is the entry meant. -/
theorem Waves.half_layout {T : PlaneTable} {m : ℕ → ℕ} {kappa decay : ℕ → ℝ} (hm : ∀ k < T.s, 0 < m k ∧ m k % 2 = 0) :
    let L := halfLevel T m kappa decay
    L.nexp = L.sm L.s ∧ L.xs.length = 7 * L.nexp ∧ L.ys.length = 7 * L.nexp ∧ L.zs.length = 4 * L.s ∧ L.s ≤ L.nexp ∧
    L.ealphaj.length = L.smf L.s ∧
    ∀ k < L.s, ∀ j, 1 ≤ j → j ≤ L.m k / 2 →
      (∀ f, 1 ≤ f → f ≤ L.f k → L.ealphaj[L.smf k + (j - 1) * L.f k + f - 1]? = some (phase f (L.angle k j))) ∧
      (∀ d : ℤ, -3 ≤ d → d ≤ 3 →
        PlaneTable.at? L.xs (((L.sm k + (j - 1) : ℕ) : ℤ) * 7 + 3 + d) = some (phase (kappa k * Real.cos (L.angle k j)) d) ∧
        PlaneTable.at? L.ys (((L.sm k + (j - 1) : ℕ) : ℤ) * 7 + 3 + d) = some (phase (kappa k * Real.sin (L.angle k j)) d)) ∧
      ∀ z : ℤ, 0 ≤ z → z ≤ 3 → PlaneTable.at? L.zs (4 * (k : ℤ) + z) = some ((Real.exp (-decay k * z) : ℝ) : ℂ) := by
  intro L
  have hx : L.xs.length = 7 * L.nexp := fill_seven_length T.s m (fun k => m k / 2) (fun k alpha => kappa k * Real.cos alpha)
  have hy : L.ys.length = 7 * L.nexp := fill_seven_length T.s m (fun k => m k / 2) (fun k alpha => kappa k * Real.sin alpha)
  have hz : L.zs.length = 4 * L.s := blocks_length (fun k (i : ℕ) => ((Real.exp (-decay k * i) : ℝ) : ℂ)) 4 T.s
  have hs : L.s ≤ L.nexp := running_le (fun k => m k / 2) T.s fun k hk => by have := hm k hk; omega
  have he := half_ea T m kappa decay hm
  refine ⟨rfl, hx, hy, hz, hs, he.1, ?_⟩
  intro k hk j h1 h2
  refine ⟨fun f f1 f2 => he.2 k hk j h1 h2 f f1 f2, ?_, ?_⟩
  · intro d d1 d2
    exact half_xy T m kappa decay hk h1 h2 d1 d2
  · intro z z1 z2
    exact half_zs T m kappa decay hk z1 z2

theorem Waves.angles_pos {d : ℤ} {T : PlaneTable} (hT : waveBase d = some T) (t : ℝ) {j : ℕ} (hj : j < T.s) :
    0 < angles T t j ∧ angles T t j % 2 = 0 := by
  obtain ⟨k, _, hk, _, e⟩ := (angles_spec T t j hj).1
  rw [e]
  exact waveBase_ok hT k hk

/-- **C90** The tables of Yukawa, for all parameters and levels. -/
theorem C90_yukawa_layout {d : ℤ} {T : PlaneTable} (hT : waveBase d = some T) (lambda size : ℝ) (lev : ℕ) :
    let L := yukLevel T lambda size lev
    let ld := unitsAt lambda size lev
    (∀ k < L.s, 0 < L.m k ∧ L.m k % 2 = 0) ∧
    L.nexp = L.sm L.s ∧ L.xs.length = 7 * L.nexp ∧ L.ys.length = 7 * L.nexp ∧ L.zs.length = 4 * L.s ∧ L.s ≤ L.nexp ∧
    L.ealphaj.length = L.smf L.s ∧
    ∀ k < L.s, ∀ j, 1 ≤ j → j ≤ L.m k / 2 →
      (∀ f, 1 ≤ f → f ≤ L.f k → L.ealphaj[L.smf k + (j - 1) * L.f k + f - 1]? = some (phase f (L.angle k j))) ∧
      (∀ e : ℤ, -3 ≤ e → e ≤ 3 →
        PlaneTable.at? L.xs (((L.sm k + (j - 1) : ℕ) : ℤ) * 7 + 3 + e) = some (phase (yukKappa T ld k * Real.cos (L.angle k j)) e) ∧
        PlaneTable.at? L.ys (((L.sm k + (j - 1) : ℕ) : ℤ) * 7 + 3 + e) = some (phase (yukKappa T ld k * Real.sin (L.angle k j)) e)) ∧
      ∀ z : ℤ, 0 ≤ z → z ≤ 3 → PlaneTable.at? L.zs (4 * (k : ℤ) + z) = some ((Real.exp (-(T.rule.lam k + ld) * z) : ℝ) : ℂ) := by
  intro L ld
  have hm : ∀ k < T.s, 0 < angles T (yukKappa T ld k) k ∧ angles T (yukKappa T ld k) k % 2 = 0 := fun k hk => angles_pos hT _ hk
  exact ⟨hm, half_layout hm⟩

theorem Waves.extra_even {omega wd : ℝ} {C : ℕ × ℕ} (h : extra omega wd = some C) : C.1 % 2 = 0 := by
  unfold extra at h
  split_ifs at h <;> simp only [Option.some.injEq] at h <;> subst h <;> rfl

theorem Waves.helmAngles_pos {d : ℤ} {T : PlaneTable} (hT : waveBase d = some T) {omega wd : ℝ} {C : ℕ × ℕ} (h : extra omega wd = some C)
    {j : ℕ} (hj : j < T.s) : 0 < helmAngles T wd C.1 j ∧ helmAngles T wd C.1 j % 2 = 0 := by
  have h1 := angles_pos hT (helmKappa T wd j) hj
  have h2 := waveBase_ok hT j hj
  have h3 := extra_even h
  unfold helmAngles
  split_ifs <;> omega

/-- **C90** The tables of the evanescent waves of Helmholtz. -/
theorem C90_helmholtz_layout {d : ℤ} {T : PlaneTable} (hT : waveBase d = some T) {omega wd : ℝ} {C : ℕ × ℕ} (h : extra omega wd = some C) :
    let L := evanLevel T wd C.1
    (∀ k < L.s, 0 < L.m k ∧ L.m k % 2 = 0) ∧
    L.nexp = L.sm L.s ∧ L.xs.length = 7 * L.nexp ∧ L.ys.length = 7 * L.nexp ∧ L.zs.length = 4 * L.s ∧ L.s ≤ L.nexp ∧
    L.ealphaj.length = L.smf L.s ∧
    ∀ k < L.s, ∀ j, 1 ≤ j → j ≤ L.m k / 2 →
      (∀ f, 1 ≤ f → f ≤ L.f k → L.ealphaj[L.smf k + (j - 1) * L.f k + f - 1]? = some (phase f (L.angle k j))) ∧
      (∀ e : ℤ, -3 ≤ e → e ≤ 3 →
        PlaneTable.at? L.xs (((L.sm k + (j - 1) : ℕ) : ℤ) * 7 + 3 + e) = some (phase (helmKappa T wd k * Real.cos (L.angle k j)) e) ∧
        PlaneTable.at? L.ys (((L.sm k + (j - 1) : ℕ) : ℤ) * 7 + 3 + e) = some (phase (helmKappa T wd k * Real.sin (L.angle k j)) e)) ∧
      ∀ z : ℤ, 0 ≤ z → z ≤ 3 → PlaneTable.at? L.zs (4 * (k : ℤ) + z) = some ((Real.exp (-T.rule.lam k * z) : ℝ) : ℂ) := by
  intro L
  have hm : ∀ k < T.s, 0 < helmAngles T wd C.1 k ∧ helmAngles T wd C.1 k % 2 = 0 := fun k hk => helmAngles_pos hT h hk
  exact ⟨hm, half_layout hm⟩

/-- **C90** The tables of the propagating waves of Helmholtz. -/
theorem C90_propagating_layout (s f : ℕ) (x : ℕ → ℝ) (wd : ℝ) (C2 : ℕ) :
    let L := propLevel s f x wd C2
    L.nexp = L.sm L.s ∧ L.xs.length = 7 * L.nexp ∧ L.ys.length = 7 * L.nexp ∧ L.zs.length = 7 * L.s ∧
    L.ealphaj.length = L.smf L.s ∧
    ∀ k < L.s, ∀ j, 1 ≤ j → j ≤ L.m k →
      (∀ g, 1 ≤ g → g ≤ L.f k → L.ealphaj[L.smf k + (j - 1) * L.f k + g - 1]? = some (phase g (L.angle k j))) ∧
      ∀ e : ℤ, -3 ≤ e → e ≤ 3 →
        PlaneTable.at? L.xs (((L.sm k + (j - 1) : ℕ) : ℤ) * 7 + 3 + e) = some (phase (wd * Real.sin (x k) * Real.cos (L.angle k j)) e) ∧
        PlaneTable.at? L.ys (((L.sm k + (j - 1) : ℕ) : ℤ) * 7 + 3 + e) = some (phase (wd * Real.sin (x k) * Real.sin (L.angle k j)) e) ∧
        PlaneTable.at? L.zs (7 * (k : ℤ) + 3 + e) = some (phase (wd * Real.cos (x k)) e) := by
  intro L
  have hx : L.xs.length = 7 * L.nexp := fill_seven_length s (fun _ => 16 + C2) (fun _ => 16 + C2) (fun k alpha => wd * Real.sin (x k) * Real.cos alpha)
  have hy : L.ys.length = 7 * L.nexp := fill_seven_length s (fun _ => 16 + C2) (fun _ => 16 + C2) (fun k alpha => wd * Real.sin (x k) * Real.sin alpha)
  have hz : L.zs.length = 7 * L.s := blocks_length (fun k (i : ℕ) => phase (wd * Real.cos (x k)) (((i : ℤ) - 3 : ℤ) : ℝ)) 7 s
  have he := prop_ea s f x wd C2
  refine ⟨rfl, hx, hy, hz, he.1, ?_⟩
  intro k hk j h1 h2
  refine ⟨fun g g1 g2 => he.2 k hk j h1 h2 g g1 g2, ?_⟩
  intro e e1 e2
  have h := prop_xy s f x wd C2 hk h1 h2 e1 e2
  exact ⟨h.1, h.2, prop_zs s f x wd C2 hk e1 e2⟩

/-! ### The expansions shrink with the level -/

/-- **C90** The expansions of a box are not longer than those of its parent. -/
theorem C90_yukawa_shrinks {d : ℤ} {T : PlaneTable} (hT : waveBase d = some T) {lambda size : ℝ} (h0 : 0 ≤ lambda * size) (lev : ℕ) :
    (yukLevel T lambda size (lev + 1)).nexp ≤ (yukLevel T lambda size lev).nexp := by
  refine running_mono fun k hk => Nat.div_le_div_right ?_
  refine angles_mono T (Real.sqrt_le_sqrt ?_) k hk
  have h1 := unitsAt_nonneg h0 lev
  have h2 := waveBase_nonneg hT k
  rw [unitsAt_succ]
  nlinarith [mul_nonneg h2 h1]

theorem Waves.extra_mono {omega wd : ℝ} (h0 : 0 ≤ wd) {C C' : ℕ × ℕ} (h : extra omega wd = some C) (h' : extra omega (wd / 2) = some C') :
    C'.1 ≤ C.1 ∧ C'.2 ≤ C.2 := by
  unfold extra at h h'
  by_cases c' : wd / 2 ≤ 0.125
  · rw [if_pos c'] at h'
    simp only [Option.some.injEq] at h'
    subst h'
    exact ⟨Nat.zero_le _, Nat.zero_le _⟩
  · have c : ¬ wd ≤ 0.125 := by push Not at c' ⊢; linarith
    rw [if_neg c'] at h'
    rw [if_neg c] at h
    rw [h] at h'
    simp only [Option.some.injEq] at h'
    subst h'
    exact ⟨le_refl _, le_refl _⟩

theorem C90_helmholtz_shrinks {d : ℤ} {T : PlaneTable} (hT : waveBase d = some T) (s f : ℕ) (x : ℕ → ℝ) {omega size : ℝ} (h0 : 0 ≤ omega * size) (lev : ℕ)
    {C C' : ℕ × ℕ} (h : extra omega (unitsAt omega size lev) = some C) (h' : extra omega (unitsAt omega size (lev + 1)) = some C') :
    (evanLevel T (unitsAt omega size (lev + 1)) C'.1).nexp ≤ (evanLevel T (unitsAt omega size lev) C.1).nexp ∧
    (propLevel s f x (unitsAt omega size (lev + 1)) C'.2).nexp ≤ (propLevel s f x (unitsAt omega size lev) C.2).nexp := by
  have h1 := unitsAt_nonneg h0 lev
  rw [unitsAt_succ] at h' ⊢
  obtain ⟨hC1, hC2⟩ := extra_mono h1 h h'
  constructor
  · refine running_mono fun k hk => Nat.div_le_div_right ?_
    generalize hw : unitsAt omega size lev = wd at *
    have hk' : T.rule.m k ≤ angles T (helmKappa T wd k) k :=
      (angles_spec T _ k hk).2 ⟨k, le_refl _, hk, fun i a b => by omega, rfl⟩
    have hmono : angles T (helmKappa T (wd / 2) k) k ≤ angles T (helmKappa T wd k) k :=
      angles_mono T (Real.sqrt_le_sqrt (by nlinarith)) k hk
    unfold helmAngles
    split_ifs with a b b
    · omega
    · exact absurd (by linarith : wd > 1 / 10000) b
    · omega
    · omega
  · exact running_mono fun k hk => by omega

/-! ### Gathering the waves -/

theorem Waves.halfFactor_mul (T : PlaneTable) (m : ℕ → ℕ) (kappa decay : ℕ → ℝ) (x y z x' y' z' : ℤ) :
    halfFactor T m kappa decay x y z * halfFactor T m kappa decay x' y' z' = halfFactor T m kappa decay (x + x') (y + y') (z + z') := by
  funext k j
  show halfFactor T m kappa decay x y z k j * halfFactor T m kappa decay x' y' z' k j = _
  unfold halfFactor planeWave
  rw [← Complex.exp_add]
  congr 1
  push_cast
  ring

theorem Waves.propFactor_mul (s f : ℕ) (u : ℕ → ℝ) (wd : ℝ) (C2 : ℕ) (x y z x' y' z' : ℤ) :
    propFactor s f u wd C2 x y z * propFactor s f u wd C2 x' y' z' = propFactor s f u wd C2 (x + x') (y + y') (z + z') := by
  funext k j
  show propFactor s f u wd C2 x y z k j * propFactor s f u wd C2 x' y' z' k j = _
  unfold propFactor travelWave
  rw [← Complex.exp_add]
  congr 1
  push_cast
  ring

theorem Waves.tags_some (b : SrcBox) (hb : b.Near) : mergeTags b.dx b.dy b.dz = some ((mergeTags b.dx b.dy b.dz).getD []) := by
  obtain ⟨hx, hy, hz⟩ := hb
  have := (paths_table _ (Harm.mem_off hx) _ (Harm.mem_off hy) _ (Harm.mem_off hz) 0 (by simp)).1
  cases h : mergeTags b.dx b.dy b.dz with
  | none => rw [h] at this; simp at this
  | some l => rfl

theorem Waves.iToI_make {s : ℕ} {cnt : ℕ → ℕ} {shift : Shift} {φ : ℤ → ℤ → ℤ → Wave}
    (hsh : ∀ (M W : List ℂ) (A B : Wave) (x y z : ℤ), Holds s cnt M A → running cnt s ≤ M.length → Holds s cnt W B →
      shiftInTable x y z → ∃ M', shift M W x y z = some M' ∧ M'.length = M.length ∧ Holds s cnt M' (A + B * φ x y z))
    (b : SrcBox) (hb : b.Near) :
    ∃ vs, iToI shift (running cnt s) b.dx b.dy b.dz (fun v => arrayOf s cnt (b.S v)) = some vs ∧
      vs.map Prod.fst = (mergeTags b.dx b.dy b.dz).getD [] ∧
      ∀ q ∈ vs, q.2.length = running cnt s ∧ Holds s cnt q.2 (let t := tagShift q.1 b.dx b.dy b.dz
        b.S (tagView q.1) * φ t.1 t.2.1 t.2.2) := by
  obtain ⟨vs, e, h1, h2⟩ := mapM_views (s := s) (cnt := cnt) (fun tag => do
      let t := tagShift tag b.dx b.dy b.dz
      let a ← shift (List.replicate (running cnt s) 0) (arrayOf s cnt (b.S (tagView tag))) t.1 t.2.1 t.2.2
      some (tag, a)) (fun tag => let t := tagShift tag b.dx b.dy b.dz
        b.S (tagView tag) * φ t.1 t.2.1 t.2.2) ((mergeTags b.dx b.dy b.dz).getD []) (fun tag ht => by
    obtain ⟨hx, hy, hz⟩ := hb
    obtain ⟨M', e, l, h⟩ := hsh (List.replicate (running cnt s) 0) (arrayOf s cnt (b.S (tagView tag))) 0 (b.S (tagView tag)) _ _ _
      (Holds.zero s cnt _ (le_refl _)) (by simp) (arrayOf_at s cnt _).2
      (tags_shift _ (Harm.mem_off hx) _ (Harm.mem_off hy) _ (Harm.mem_off hz) tag ht)
    refine ⟨M', by simp only [e, Option.bind_eq_bind, Option.bind_some], by simpa using l, ?_⟩
    rwa [zero_add] at h)
  refine ⟨vs, ?_, h1, h2⟩
  rw [iToI, tags_some b hb]
  exact e

theorem Waves.propIToI_make (s f : ℕ) (x : ℕ → ℝ) (wd : ℝ) (C2 : ℕ) (b : SrcBox) (hb : b.Near) :
    ∃ vs, propIToI (propLevel s f x wd C2) b.dx b.dy b.dz (fun v => arrayOf s (fun _ => 16 + C2) (b.S v)) = some vs ∧
      vs.map Prod.fst = (mergeTags b.dx b.dy b.dz).getD [] ∧
      ∀ q ∈ vs, q.2.length = running (fun _ => 16 + C2) s ∧ Holds s (fun _ => 16 + C2) q.2 (let t := tagShift q.1 b.dx b.dy b.dz
        conjIf (tagView q.1 % 2 == 1) (b.S (tagView q.1 / 2)) * propFactor s f x wd C2 t.1 t.2.1 t.2.2) := by
  obtain ⟨vs, e, h1, h2⟩ := mapM_views (s := s) (cnt := fun _ => 16 + C2) (fun tag => do
      let t := tagShift tag b.dx b.dy b.dz
      let a ← propEToE (propLevel s f x wd C2) (tagView tag % 2 == 1) (List.replicate (running (fun _ => 16 + C2) s) 0)
        (arrayOf s (fun _ => 16 + C2) (b.S (tagView tag / 2))) t.1 t.2.1 t.2.2
      some (tag, a)) (fun tag => let t := tagShift tag b.dx b.dy b.dz
        conjIf (tagView tag % 2 == 1) (b.S (tagView tag / 2)) * propFactor s f x wd C2 t.1 t.2.1 t.2.2)
      ((mergeTags b.dx b.dy b.dz).getD []) (fun tag ht => by
    obtain ⟨hx, hy, hz⟩ := hb
    obtain ⟨⟨x1, x2⟩, ⟨y1, y2⟩, z1, z2⟩ := tags_shift _ (Harm.mem_off hx) _ (Harm.mem_off hy) _ (Harm.mem_off hz) tag ht
    obtain ⟨M', e, l, h⟩ := propEToE_holds s f x wd C2 (tagView tag % 2 == 1) (M := List.replicate (running (fun _ => 16 + C2) s) 0)
      (W := arrayOf s (fun _ => 16 + C2) (b.S (tagView tag / 2))) (A := 0)
      (a := (tagShift tag b.dx b.dy b.dz).1) (b := (tagShift tag b.dx b.dy b.dz).2.1) (c := (tagShift tag b.dx b.dy b.dz).2.2)
      (Holds.zero s _ _ (le_refl _)) (by simp) (arrayOf_at s _ _).2 ⟨by omega, by omega⟩ ⟨by omega, by omega⟩ ⟨by omega, by omega⟩
    refine ⟨M', by simp only [e, Option.bind_eq_bind, Option.bind_some], by simpa using l, ?_⟩
    rwa [zero_add] at h)
  refine ⟨vs, ?_, h1, h2⟩
  rw [propIToI, tags_some b hb]
  exact e

theorem Waves.sum_at (boxes : List SrcBox) (g : SrcBox → Wave) (k j : ℕ) :
    (boxes.map g).sum k j = (boxes.map fun b => g b k j).sum := by
  induction boxes with
  | nil => rfl
  | cons b l ih => rw [List.map_cons, List.sum_cons, List.map_cons, List.sum_cons, ← ih]; rfl

/-- **C90** Yukawa: the waves of any boxes, in any order. No array is left, though the views of the target have the length
of its own level and what is added that of the level below; and for every child and direction `I_to_L` has for every
node and angle exactly the sum of the waves of the boxes seen in that direction, each moved by the displacement of the
child from its box. -/
theorem C90_yukawa_gather {d : ℤ} {T : PlaneTable} (hT : waveBase d = some T) {lambda size : ℝ} (h0 : 0 ≤ lambda * size) (lev : ℕ)
    (boxes : List SrcBox) (hb : ∀ b ∈ boxes, b.Near) {c v : ℕ} (hc : c < 8) (hv : v < 6) :
    let N := (yukLevel T lambda size lev).nexp
    let L := yukLevel T lambda size (lev + 1)
    let ld := unitsAt lambda size (lev + 1)
    ∃ A, gather (fun b => iToI (yukEToE L) L.nexp b.dx b.dy b.dz fun w => arrayOf L.s L.half (b.S w)) (yukEToE L) N L.nexp c v boxes = some A ∧
      A.length = L.nexp ∧ ∀ k < L.s, ∀ j, 1 ≤ j → j ≤ L.m k / 2 → A[L.sm k + (j - 1)]? = some ((boxes.map fun b =>
        if b.direction c = some v then b.S v k j * planeWave (yukKappa T ld k) (T.rule.lam k + ld) (L.angle k j)
          (b.toChild c v).1 (b.toChild c v).2.1 (b.toChild c v).2.2 else 0).sum) := by
  intro N L ld
  have hsh := fun (M W : List ℂ) (A B : Wave) (x y z : ℤ) hM hl hW hs =>
    yukEToE_holds T (fun j => angles T (yukKappa T ld j) j) (yukKappa T ld) (fun k => T.rule.lam k + ld) (M := M) (W := W) (A := A) (B := B)
      (x := x) (y := y) (z := z) hM hl hW hs
  obtain ⟨A, e, l, h⟩ := gather_holds hsh (halfFactor_mul _ _ _ _) (fun b => iToI (yukEToE L) L.nexp b.dx b.dy b.dz fun w => arrayOf L.s L.half (b.S w))
    (fun b => b.S) (C90_yukawa_shrinks hT h0 lev) boxes hb (fun b hb' => iToI_make hsh b (hb b hb')) hc hv
  refine ⟨A, e, l, fun k hk j h1 h2 => ?_⟩
  obtain ⟨j, rfl⟩ : ∃ i, j = i + 1 := ⟨j - 1, by omega⟩
  rw [Nat.add_sub_cancel]
  refine (h k hk j h2).trans ?_
  rw [sum_at]
  congr 2
  refine List.map_congr_left fun b _ => ?_
  split_ifs <;> rfl

/-- **C90** Helmholtz, evanescent waves. -/
theorem C90_evanescent_gather {d : ℤ} {T : PlaneTable} (hT : waveBase d = some T) {omega size : ℝ} (h0 : 0 ≤ omega * size) (lev : ℕ)
    {C C' : ℕ × ℕ} (hC : extra omega (unitsAt omega size lev) = some C) (hC' : extra omega (unitsAt omega size (lev + 1)) = some C')
    (boxes : List SrcBox) (hb : ∀ b ∈ boxes, b.Near) {c v : ℕ} (hc : c < 8) (hv : v < 6) :
    let wd := unitsAt omega size (lev + 1)
    let N := (evanLevel T (unitsAt omega size lev) C.1).nexp
    let L := evanLevel T wd C'.1
    ∃ A, gather (fun b => iToI (evanEToE L) L.nexp b.dx b.dy b.dz fun w => arrayOf L.s L.half (b.S w)) (evanEToE L) N L.nexp c v boxes = some A ∧
      A.length = L.nexp ∧ ∀ k < L.s, ∀ j, 1 ≤ j → j ≤ L.m k / 2 → A[L.sm k + (j - 1)]? = some ((boxes.map fun b =>
        if b.direction c = some v then b.S v k j * planeWave (helmKappa T wd k) (T.rule.lam k) (L.angle k j)
          (b.toChild c v).1 (b.toChild c v).2.1 (b.toChild c v).2.2 else 0).sum) := by
  intro wd N L
  have hsh := fun (M W : List ℂ) (A B : Wave) (x y z : ℤ) hM hl hW hs =>
    evanEToE_holds T (helmAngles T wd C'.1) (helmKappa T wd) T.rule.lam (M := M) (W := W) (A := A) (B := B)
      (x := x) (y := y) (z := z) hM hl hW hs
  obtain ⟨A, e, l, h⟩ := gather_holds hsh (halfFactor_mul _ _ _ _) (fun b => iToI (evanEToE L) L.nexp b.dx b.dy b.dz fun w => arrayOf L.s L.half (b.S w))
    (fun b => b.S) (C90_helmholtz_shrinks hT 0 0 0 h0 lev hC hC').1 boxes hb (fun b hb' => iToI_make hsh b (hb b hb')) hc hv
  refine ⟨A, e, l, fun k hk j h1 h2 => ?_⟩
  obtain ⟨j, rfl⟩ : ∃ i, j = i + 1 := ⟨j - 1, by omega⟩
  rw [Nat.add_sub_cancel]
  refine (h k hk j h2).trans ?_
  rw [sum_at]
  congr 2
  refine List.map_congr_left fun b _ => ?_
  split_ifs <;> rfl

/-- **C90** Helmholtz, propagating waves: the negative direction of an axis uses the conjugates of the waves of the positive
one. -/
theorem C90_propagating_gather {d : ℤ} {T : PlaneTable} (hT : waveBase d = some T) (s f : ℕ) (u : ℕ → ℝ) {omega size : ℝ} (h0 : 0 ≤ omega * size) (lev : ℕ)
    {C C' : ℕ × ℕ} (hC : extra omega (unitsAt omega size lev) = some C) (hC' : extra omega (unitsAt omega size (lev + 1)) = some C')
    (boxes : List SrcBox) (hb : ∀ b ∈ boxes, b.Near) {c v : ℕ} (hc : c < 8) (hv : v < 6) :
    let wd := unitsAt omega size (lev + 1)
    let N := (propLevel s f u (unitsAt omega size lev) C.2).nexp
    let L := propLevel s f u wd C'.2
    ∃ A, gather (fun b => propIToI L b.dx b.dy b.dz fun w => arrayOf L.s L.m (b.S w)) (propEToE L false) N L.nexp c v boxes = some A ∧
      A.length = L.nexp ∧ ∀ k < L.s, ∀ j, 1 ≤ j → j ≤ L.m k → A[L.sm k + (j - 1)]? = some ((boxes.map fun b =>
        if b.direction c = some v then (if v % 2 = 1 then starRingEnd ℂ (b.S (v / 2) k j) else b.S (v / 2) k j) *
          travelWave (wd * Real.sin (u k)) (wd * Real.cos (u k)) (L.angle k j)
            (b.toChild c v).1 (b.toChild c v).2.1 (b.toChild c v).2.2 else 0).sum) := by
  intro wd N L
  have hsh := fun (M W : List ℂ) (A B : Wave) (x y z : ℤ) hM hl hW (hs : shiftInTable x y z) =>
    propEToE_holds s f u wd C'.2 false (M := M) (W := W) (A := A) (B := B)
      (a := x) (b := y) (c := z) hM hl hW ⟨by have := hs.1; omega, by have := hs.1; omega⟩
      ⟨by have := hs.2.1; omega, by have := hs.2.1; omega⟩ ⟨by have := hs.2.2; omega, by have := hs.2.2; omega⟩
  obtain ⟨A, e, l, h⟩ := gather_holds (φ := propFactor s f u wd C'.2) hsh (propFactor_mul _ _ _ _ _)
    (fun b => propIToI L b.dx b.dy b.dz fun w => arrayOf L.s L.m (b.S w))
    (fun b w => conjIf (w % 2 == 1) (b.S (w / 2))) (C90_helmholtz_shrinks hT s f u h0 lev hC hC').2 boxes hb
    (fun b hb' => propIToI_make s f u wd C'.2 b (hb b hb')) hc hv
  refine ⟨A, e, l, fun k hk j h1 h2 => ?_⟩
  obtain ⟨j, rfl⟩ : ∃ i, j = i + 1 := ⟨j - 1, by omega⟩
  rw [Nat.add_sub_cancel]
  refine (h k hk j h2).trans ?_
  rw [sum_at]
  congr 2
  refine List.map_congr_left fun b _ => ?_
  split_ifs with h1 h2
  · show conjIf (v % 2 == 1) (b.S (v / 2)) k (j + 1) * _ = _
    simp only [conjIf, h2, beq_self_eq_true, if_true]; rfl
  · show conjIf (v % 2 == 1) (b.S (v / 2)) k (j + 1) * _ = _
    have : (v % 2 == 1) = false := by simpa using h2
    simp only [conjIf, this, Bool.false_eq_true, if_false]; rfl
  · rfl

/-- **C90** A box is seen in some direction exactly if it is not a neighbour of the child, and then the child lies two or
three boxes ahead and at most three aside. -/
theorem C90_direction (b : SrcBox) (hb : b.Near) {c : ℕ} (hc : c < 8) :
    (b.direction c = none ↔ |(b.from c).1| ≤ 1 ∧ |(b.from c).2.1| ≤ 1 ∧ |(b.from c).2.2| ≤ 1) ∧
    ∀ v, b.direction c = some v → v < 6 ∧ |(b.toChild c v).1| ≤ 3 ∧ |(b.toChild c v).2.1| ≤ 3 ∧
      2 ≤ (b.toChild c v).2.2 ∧ (b.toChild c v).2.2 ≤ 3 := by
  obtain ⟨hx, hy, hz⟩ := hb
  obtain ⟨dx, dy, dz, S⟩ := b
  have key : ∀ dx ∈ ([-2, -1, 0, 1, 2, 3] : List ℤ), ∀ dy ∈ ([-2, -1, 0, 1, 2, 3] : List ℤ),
    ∀ dz ∈ ([-2, -1, 0, 1, 2, 3] : List ℤ), ∀ c ∈ List.range 8,
      let fr : ℤ × ℤ × ℤ := (dx - (c % 2 : ℕ), dy - (c / 2 % 2 : ℕ), dz - (c / 4 % 2 : ℕ))
      let dir := (axis (-2) 3 (dx, dy, dz)).orElse fun _ => axis (-2) 2 fr
      (dir = none ↔ |fr.1| ≤ 1 ∧ |fr.2.1| ≤ 1 ∧ |fr.2.2| ≤ 1) ∧
      ∀ v ∈ dir, v < 6 ∧ |(frame v fr).1| ≤ 3 ∧ |(frame v fr).2.1| ≤ 3 ∧ 2 ≤ (frame v fr).2.2 ∧ (frame v fr).2.2 ≤ 3 := by
    decide +kernel
  exact key _ (Harm.mem_off hx) _ (Harm.mem_off hy) _ (Harm.mem_off hz) c (List.mem_range.2 hc)

/-! ### The waves solve the equation of the kernel -/

theorem Waves.deriv_deriv_exp (a d : ℂ) (x : ℝ) :
    deriv (fun s : ℝ => deriv (fun b : ℝ => Complex.exp (a * b + d)) s) x = a ^ 2 * Complex.exp (a * x + d) := by
  have h : ∀ s : ℝ, HasDerivAt (fun b : ℝ => Complex.exp (a * b + d)) (a * Complex.exp (a * s + d)) s := by
    intro s
    have h1 : HasDerivAt (fun z : ℂ => Complex.exp (a * z + d)) (Complex.exp (a * s + d) * (a * 1)) (s : ℂ) :=
      (((hasDerivAt_id (s : ℂ)).const_mul a).add_const d).cexp
    have h2 := h1.comp_ofReal
    rw [mul_one, mul_comm] at h2
    exact h2
  have e : (fun s : ℝ => deriv (fun b : ℝ => Complex.exp (a * b + d)) s) = fun s : ℝ => a * Complex.exp (a * s + d) :=
    funext fun s => (h s).deriv
  rw [e, ((h x).const_mul a).deriv]
  ring

theorem Waves.laplacian_exp (a b c : ℂ) (x y z : ℝ) :
    laplacian (fun x y z => Complex.exp (a * x + b * y + c * z)) x y z = (a ^ 2 + b ^ 2 + c ^ 2) * Complex.exp (a * x + b * y + c * z) := by
  unfold laplacian
  have h1 := deriv_deriv_exp a (b * y + c * z) x
  have h2 := deriv_deriv_exp b (a * x + c * z) y
  have h3 := deriv_deriv_exp c (a * x + b * y) z
  have e1 : ∀ t : ℝ, a * t + (b * y + c * z) = a * t + b * y + c * z := fun t => by ring
  have e2 : ∀ t : ℝ, b * t + (a * x + c * z) = a * x + b * t + c * z := fun t => by ring
  have e3 : ∀ t : ℝ, c * t + (a * x + b * y) = a * x + b * y + c * t := fun t => by ring
  simp only [e1, e2, e3] at h1 h2 h3
  rw [h1, h2, h3]
  ring

theorem Waves.planeWave_equation (kappa decay alpha x y z : ℝ) :
    laplacian (planeWave kappa decay alpha) x y z = ((decay ^ 2 - kappa ^ 2 : ℝ) : ℂ) * planeWave kappa decay alpha x y z := by
  have e : planeWave kappa decay alpha = fun x y z : ℝ => Complex.exp ((Complex.I * kappa * Real.cos alpha) * x +
      (Complex.I * kappa * Real.sin alpha) * y + (-decay : ℂ) * z) := by
    funext x y z
    unfold planeWave
    congr 1
    push_cast
    ring
  rw [e, laplacian_exp]
  congr 1
  have hs : (Real.sin alpha : ℂ) ^ 2 + (Real.cos alpha : ℂ) ^ 2 = 1 := by exact_mod_cast Real.sin_sq_add_cos_sq alpha
  push_cast at hs ⊢
  linear_combination (-(kappa : ℂ) ^ 2) * hs + (kappa : ℂ) ^ 2 * (Complex.cos alpha ^ 2 + Complex.sin alpha ^ 2) * Complex.I_sq

theorem Waves.travelWave_equation (kappa along alpha x y z : ℝ) :
    laplacian (travelWave kappa along alpha) x y z = ((-(along ^ 2 + kappa ^ 2) : ℝ) : ℂ) * travelWave kappa along alpha x y z := by
  have e : travelWave kappa along alpha = fun x y z : ℝ => Complex.exp ((Complex.I * kappa * Real.cos alpha) * x +
      (Complex.I * kappa * Real.sin alpha) * y + (Complex.I * along) * z) := by
    funext x y z
    unfold travelWave
    congr 1
    push_cast
    ring
  rw [e, laplacian_exp]
  congr 1
  have hs : (Real.sin alpha : ℂ) ^ 2 + (Real.cos alpha : ℂ) ^ 2 = 1 := by exact_mod_cast Real.sin_sq_add_cos_sq alpha
  push_cast at hs ⊢
  linear_combination (-(kappa : ℂ) ^ 2) * hs + ((kappa : ℂ) ^ 2 * (Complex.cos alpha ^ 2 + Complex.sin alpha ^ 2) + (along : ℂ) ^ 2) * Complex.I_sq

/-- **C90** Every wave of Yukawa solves the screened equation for the wave number of the level. -/
theorem C90_yukawa_equation {d : ℤ} {T : PlaneTable} (hT : waveBase d = some T) {lambda size : ℝ} (h0 : 0 ≤ lambda * size) (lev k : ℕ) (alpha x y z : ℝ) :
    let ld := unitsAt lambda size lev
    laplacian (planeWave (yukKappa T ld k) (T.rule.lam k + ld) alpha) x y z =
      ((ld ^ 2 : ℝ) : ℂ) * planeWave (yukKappa T ld k) (T.rule.lam k + ld) alpha x y z := by
  intro ld
  rw [planeWave_equation]
  congr 2
  have h1 : 0 ≤ ld := unitsAt_nonneg h0 lev
  have h2 := waveBase_nonneg hT k
  have h3 : yukKappa T ld k ^ 2 = T.rule.lam k * T.rule.lam k + 2 * T.rule.lam k * ld := by
    refine Real.sq_sqrt ?_
    have := mul_nonneg h2 h1
    nlinarith [mul_nonneg h2 h2]
  rw [h3]
  ring

/-- **C90** Every wave of Helmholtz, of either kind, solves the wave equation for the wave number of the level. -/
theorem C90_helmholtz_equation (T : PlaneTable) (u : ℕ → ℝ) (wd : ℝ) (k : ℕ) (alpha x y z : ℝ) :
    laplacian (planeWave (helmKappa T wd k) (T.rule.lam k) alpha) x y z =
      ((-wd ^ 2 : ℝ) : ℂ) * planeWave (helmKappa T wd k) (T.rule.lam k) alpha x y z ∧
    laplacian (travelWave (wd * Real.sin (u k)) (wd * Real.cos (u k)) alpha) x y z =
      ((-wd ^ 2 : ℝ) : ℂ) * travelWave (wd * Real.sin (u k)) (wd * Real.cos (u k)) alpha x y z := by
  constructor
  · rw [planeWave_equation]
    congr 2
    have h3 : helmKappa T wd k ^ 2 = T.rule.lam k * T.rule.lam k + wd * wd := Real.sq_sqrt (by nlinarith [mul_self_nonneg (T.rule.lam k), mul_self_nonneg wd])
    rw [h3]
    ring
  · rw [travelWave_equation]
    congr 2
    linear_combination (-wd ^ 2) * Real.sin_sq_add_cos_sq (u k)

/-! ### Units -/

/-- **C91** The tables of Yukawa depend on the parameter and the size of the domain by their product alone: the unit of
length does not matter. -/
theorem C91_units_partial (T : PlaneTable) {lambda size lambda' size' : ℝ} (h : lambda * size = lambda' * size') :
    yukLevels T lambda size = yukLevels T lambda' size' := by
  refine List.map_congr_left fun lev _ => ?_
  simp only [yukLevel, unitsAt, h]

/-- **C91** When the constructor of the tables of Helmholtz ends the program: the frequency itself is compared, not the
frequency times the size of the domain. -/
theorem C91_helmholtz_exit (d : ℤ) (T : PlaneTable) (u : ℕ → ℝ) (omega size : ℝ) :
    helmLevels d T u omega size = none ↔ omega * size > 1 / 8 ∧ omega > 10 := by
  have hex : ∀ wd : ℝ, extra omega wd = none ↔ wd > 1 / 8 ∧ omega > 10 := by
    intro wd
    unfold extra
    split_ifs with h1 h2 h3 h4 h5 <;> simp only [reduceCtorEq, false_iff, true_iff] <;> norm_num at * <;>
      first | (intro; linarith) | (constructor <;> linarith)
  constructor
  · intro h
    by_contra hc
    have hall : ∀ lev ∈ List.range (maxlev + 1), ∃ b, (do
        let wd := unitsAt omega size lev
        let C ← extra omega wd
        some (evanLevel T wd C.1, propLevel (propNodes d) (propFreq d) u wd C.2)) = some b := by
      intro lev _
      cases e : extra omega (unitsAt omega size lev) with
      | some C => exact ⟨_, by simp only [e, Option.bind_eq_bind, Option.bind_some]; rfl⟩
      | none =>
        obtain ⟨h1, h2⟩ := (hex _).1 e
        refine absurd ⟨?_, h2⟩ hc
        unfold unitsAt at h1
        have hp : (1 : ℝ) ≤ 2 ^ lev := one_le_pow₀ (by norm_num)
        rw [gt_iff_lt, lt_div_iff₀ (by positivity)] at h1
        linarith
    obtain ⟨l, hl⟩ : ∃ l, helmLevels d T u omega size = some l := by
      unfold helmLevels
      generalize List.range (maxlev + 1) = r at hall
      induction r with
      | nil => exact ⟨[], rfl⟩
      | cons a r ih =>
        obtain ⟨b, hb⟩ := hall a (by simp)
        obtain ⟨l, hl⟩ := ih fun lev h => hall lev (by simp [h])
        exact ⟨b :: l, by rw [List.mapM_cons, hl, hb]; rfl⟩
    rw [h] at hl
    exact absurd hl (by simp)
  · intro h
    have e : extra omega (unitsAt omega size 0) = none := (hex _).2 ⟨by unfold unitsAt; simpa using h.1, h.2⟩
    unfold helmLevels
    rw [List.range_succ_eq_map, List.mapM_cons]
    simp only [e, Option.bind_eq_bind, Option.bind_none]

/-- **C91** The same problem in two units of length: the constructor makes tables in the one and ends the program in the
other. -/
theorem C91_helmholtz_units_matter (d : ℤ) (T : PlaneTable) (u : ℕ → ℝ) : ∃ omega size omega' size' : ℝ,
    omega * size = omega' * size' ∧ helmLevels d T u omega size = none ∧ helmLevels d T u omega' size' ≠ none :=
  ⟨11, 1, 11 / 2, 2, by norm_num, (C91_helmholtz_exit _ _ _ _ _).2 (by norm_num), fun h =>
    absurd ((C91_helmholtz_exit _ _ _ _ _).1 h).2 (by norm_num)⟩

/-- **C90** What the constructor of the tables of Helmholtz makes, if it does not end the program: one pair for each of the
levels. A node of the evanescent waves has the number of angles of the table if the boxes are short against the wave, and
otherwise the largest one the table asks for up to the wave number across, and `extra` more; the propagating waves have ten
nodes for three digits and sixteen for six, and `16` angles each and `extra` more. `extra` is none if an eighth of the wave
number fits in a box and otherwise is read off the frequency. -/
theorem C90_helmholtz_levels {d : ℤ} {T : PlaneTable} {u : ℕ → ℝ} {omega size : ℝ} {Ls : List (Level × Level)}
    (h : helmLevels d T u omega size = some Ls) :
    Ls.length = 22 ∧ ∀ (lev : ℕ) E P, Ls[lev]? = some (E, P) →
      let wd := omega * size / 2 ^ lev
      ∃ e p : ℕ,
        (wd ≤ 1 / 8 ∧ e = 0 ∧ p = 0 ∨ 1 / 8 < wd ∧ omega ≤ 1 / 4 ∧ e = 6 ∧ p = 4 ∨
          1 / 8 < wd ∧ 1 / 4 < omega ∧ omega ≤ 6 ∧ e = 20 ∧ p = 8 ∨ 1 / 8 < wd ∧ 6 < omega ∧ omega ≤ 8 ∧ e = 18 ∧ p = 10 ∨
          1 / 8 < wd ∧ 8 < omega ∧ omega ≤ 10 ∧ e = 22 ∧ p = 12) ∧
        E.s = T.s ∧ (∀ k < E.s, (wd ≤ 1 / 10000 → E.m k = T.rule.m k) ∧
          (1 / 10000 < wd → ∃ a, E.m k = a + e ∧ IsGreatest (candidates T (√(T.rule.lam k ^ 2 + wd ^ 2)) k) a)) ∧
        (d = 3 → P.s = 10 ∧ ∀ k < P.s, P.f k = 10) ∧ (d = 6 → P.s = 16 ∧ ∀ k < P.s, P.f k = 19) ∧
        ∀ k < P.s, P.m k = 16 + p := by
  have key : ∀ (r : List ℕ) (Ls : List (Level × Level)), r.mapM (fun lev => do
        let wd := unitsAt omega size lev
        let C ← extra omega wd
        some (evanLevel T wd C.1, propLevel (propNodes d) (propFreq d) u wd C.2)) = some Ls →
      Ls.length = r.length ∧ ∀ (i : ℕ) q, Ls[i]? = some q → ∃ (lev : ℕ) (C : ℕ × ℕ), r[i]? = some lev ∧ extra omega (unitsAt omega size lev) = some C ∧
        q = (evanLevel T (unitsAt omega size lev) C.1, propLevel (propNodes d) (propFreq d) u (unitsAt omega size lev) C.2) := by
    intro r
    induction r with
    | nil => intro Ls h; simp only [List.mapM_nil, Option.pure_def, Option.some.injEq] at h; subst h; simp
    | cons a r ih =>
      intro Ls h
      rw [List.mapM_cons] at h
      cases e : extra omega (unitsAt omega size a) with
      | none => simp only [e, Option.bind_eq_bind, Option.bind_none, reduceCtorEq] at h
      | some C =>
        simp only [e, Option.bind_eq_bind, Option.bind_some] at h
        generalize hm : List.mapM (m := Option) _ r = m at h
        cases m with
        | none => simp at h
        | some l =>
          simp only [Option.bind_some, Option.pure_def, Option.some.injEq] at h
          obtain ⟨h1, h2⟩ := ih l hm
          subst h
          refine ⟨by simp [h1], ?_⟩
          intro i q hq
          cases i with
          | zero =>
            simp only [List.getElem?_cons_zero, Option.some.injEq] at hq
            exact ⟨a, C, rfl, e, hq.symm⟩
          | succ i => exact h2 i q hq
  obtain ⟨h1, h2⟩ := key _ Ls h
  refine ⟨by rw [h1, List.length_range]; rfl, ?_⟩
  intro lev E P hq wd
  obtain ⟨lev', C, hr, hC, hE⟩ := h2 lev _ hq
  obtain rfl : lev = lev' := by
    rw [List.getElem?_eq_some_iff] at hr
    obtain ⟨hr1, hr2⟩ := hr
    rw [List.getElem_range] at hr2
    exact hr2
  obtain ⟨rfl, rfl⟩ : E = _ ∧ P = _ := Prod.mk.injEq _ _ _ _ ▸ hE
  have hw : unitsAt omega size lev = wd := rfl
  rw [hw] at hC ⊢
  refine ⟨C.1, C.2, ?_, rfl, ?_, ?_, ?_, fun k _ => rfl⟩
  · unfold extra at hC
    clear_value wd
    clear hw h2 hq h1 key h hE hr
    norm_num at hC
    split_ifs at hC with a b c e f <;> simp only [Option.some.injEq] at hC <;> subst hC <;> simp only [not_le] at *
    · exact Or.inl ⟨a, by trivial, by trivial⟩
    · exact Or.inr (Or.inl ⟨a, b, by trivial, by trivial⟩)
    · exact Or.inr (Or.inr (Or.inl ⟨a, b, c, by trivial, by trivial⟩))
    · exact Or.inr (Or.inr (Or.inr (Or.inl ⟨a, c, e, by trivial, by trivial⟩)))
    · exact Or.inr (Or.inr (Or.inr (Or.inr ⟨a, e, f, by trivial, by trivial⟩)))
  · intro k hk
    constructor
    · intro hs
      exact if_neg (not_lt.2 hs)
    · intro hs
      refine ⟨angles T (helmKappa T wd k) k, if_pos hs, ?_⟩
      rw [pow_two, pow_two]
      exact angles_spec T _ k hk
  · rintro rfl
    exact ⟨rfl, fun _ _ => rfl⟩
  · rintro rfl
    exact ⟨rfl, fun _ _ => rfl⟩

/-- **C90** The same for Yukawa. -/
theorem C90_yukawa_levels (T : PlaneTable) (lambda size : ℝ) :
    (yukLevels T lambda size).length = 22 ∧ ∀ (lev : ℕ) L, (yukLevels T lambda size)[lev]? = some L →
      let ld := lambda * size / 2 ^ lev
      L.s = T.s ∧ ∀ k < L.s, L.f k = T.rule.f k ∧ IsGreatest (candidates T (√(T.rule.lam k ^ 2 + 2 * T.rule.lam k * ld)) k) (L.m k) := by
  refine ⟨by unfold yukLevels; rw [List.length_map, List.length_range]; rfl, ?_⟩
  intro lev L hL ld
  unfold yukLevels at hL
  rw [List.getElem?_map] at hL
  obtain ⟨lev', hr, rfl⟩ := Option.map_eq_some_iff.1 hL
  obtain rfl : lev = lev' := by
    rw [List.getElem?_eq_some_iff] at hr
    obtain ⟨hr1, hr2⟩ := hr
    rw [List.getElem_range] at hr2
    exact hr2
  refine ⟨rfl, fun k hk => ⟨rfl, ?_⟩⟩
  rw [pow_two]
  exact angles_spec T _ k hk

/-- **C90** For other digits than three and six a table in range has no waves: the expansions are empty at every level, and
nothing is carried by them. -/
theorem C90_other_digits {d : ℤ} (h3 : d ≠ 3) (h6 : d ≠ 6) :
    (waveBase d = none ↔ d < 0 ∨ 15 ≤ d) ∧
    ∀ T, waveBase d = some T → ∀ lambda size : ℝ, ∀ L ∈ yukLevels T lambda size, L.nexp = 0 := by
  unfold waveBase
  constructor
  · split_ifs with h <;> simp [h]
  · intro T hT lambda size L hL
    split_ifs at hT with h
    simp only [Option.some.injEq] at hT
    subst hT
    obtain ⟨lev, _, rfl⟩ := List.mem_map.1 hL
    rfl

/-! ### Cases -/

example : waveBase 3 = some table3 ∧ waveBase 6 = some table6 := ⟨rfl, rfl⟩

/-- A box three to the right of the first child, with the waves `1`. -/
noncomputable def exBox : SrcBox := ⟨3, 0, 1, fun _ _ _ => 1⟩

example : exBox.Near ∧ exBox.direction 0 = some 1 ∧ exBox.toChild 0 1 = (-1, 0, 3) := by
  refine ⟨?_, ?_, ?_⟩
  · unfold SrcBox.Near exBox; norm_num
  · rfl
  · rfl

/-- Two boxes, one of them twice, at the tables for three digits: for the first child the box ahead counts twice. -/
example : ∃ A, gather (fun b => iToI (yukEToE (yukLevel table3 1 1 4)) (yukLevel table3 1 1 4).nexp b.dx b.dy b.dz
      fun w => arrayOf (yukLevel table3 1 1 4).s (yukLevel table3 1 1 4).half (b.S w)) (yukEToE (yukLevel table3 1 1 4))
      (yukLevel table3 1 1 3).nexp (yukLevel table3 1 1 4).nexp 0 1 [exBox, ⟨-2, 0, 0, fun _ _ _ => 5⟩, exBox] = some A ∧
    A.length = (yukLevel table3 1 1 4).nexp := by
  obtain ⟨A, h1, h2, _⟩ := C90_yukawa_gather (d := 3) rfl (lambda := 1) (size := 1) (by norm_num) 3
    [exBox, ⟨-2, 0, 0, fun _ _ _ => 5⟩, exBox] (by
      intro b hb
      simp only [List.mem_cons, List.not_mem_nil, or_false] at hb
      unfold SrcBox.Near
      rcases hb with rfl | rfl | rfl <;> simp [exBox]) (c := 0) (v := 1) (by norm_num) (by norm_num)
  exact ⟨A, h1, h2⟩

end Dashmm
