import Verif.Props.TraceCover
import Verif.Spec.TracePlot
import Mathlib.Tactic.Linarith
import Mathlib.Tactic.NormNum
import Mathlib.Tactic.Positivity

/-!
# C116: plots of a trace
-/

namespace Dashmm

namespace Trace

theorem IsRounding.zero {R : ℚ → ℚ} (h : IsRounding R) : R 0 = 0 := by
  have := h.err 0
  simpa using this

theorem IsRounding.nonneg {R : ℚ → ℚ} (h : IsRounding R) {x : ℚ} (hx : 0 ≤ x) : 0 ≤ R x := by
  have := h.mono 0 x hx
  rwa [h.zero] at this

theorem IsRounding.bounds {R : ℚ → ℚ} (h : IsRounding R) {x : ℚ} (hx : 0 ≤ x) : x - x / 2 ^ 53 ≤ R x ∧ R x ≤ x + x / 2 ^ 53 := by
  have := h.err x
  rw [abs_of_nonneg hx, abs_le] at this
  constructor <;> linarith [this.1, this.2]

theorem filter_split {l : List Evt} (hl : Sorted l) {a b c : Nat} (t : Nat) (hab : a ≤ b) (hbc : b ≤ c) :
    l.filter (inside a (min c t)) = l.filter (inside a (min b t)) ++ l.filter (inside b (min c t)) := by
  induction l with
  | nil => rfl
  | cons x l ih =>
    obtain ⟨h1, h2⟩ := sorted_cons.1 hl
    by_cases hx : x.stamp < b
    · have e1 : inside b (min c t) x = false := by
        simp only [inside, decide_eq_false_iff_not]; omega
      have e2 : inside a (min c t) x = inside a (min b t) x := by
        simp only [inside]; rw [decide_eq_decide]; omega
      simp only [List.filter_cons, e1, e2, ih h2]
      cases inside a (min b t) x <;> simp
    · have e3 : ∀ y ∈ x :: l, inside a (min b t) y = false := by
        intro y hy
        rcases List.mem_cons.1 hy with rfl | hy
        · simp only [inside, decide_eq_false_iff_not]; omega
        · have := h1 y hy; simp only [inside, decide_eq_false_iff_not]; omega
      have e4 : ∀ y ∈ x :: l, inside a (min c t) y = inside b (min c t) y := by
        intro y hy
        have : b ≤ y.stamp := by
          rcases List.mem_cons.1 hy with rfl | hy
          · omega
          · have := h1 y hy; omega
        simp only [inside]
        rw [decide_eq_decide]; omega
      have e5 : (x :: l).filter (inside a (min b t)) = [] := List.filter_eq_nil_iff.2 (fun y hy => by rw [e3 y hy]; simp)
      rw [e5, List.nil_append]
      exact List.filter_congr e4

theorem coverage_keys {ty a b : Nat} {W : List ((Int × Int) × List Evt)} {C : List ((Int × Int) × Rat)} (h : coverage ty a b W = some C) :
    C.map Prod.fst = W.map Prod.fst := by
  induction W generalizing C with
  | nil => simp only [coverage, Option.some.injEq] at h; subst h; rfl
  | cons x W ih =>
    obtain ⟨k, l⟩ := x
    rw [coverage] at h
    cases h1 : rangeCoverage l ty a b with
    | none => rw [h1] at h; simp at h
    | some q =>
      cases h2 : coverage ty a b W with
      | none => rw [h1, h2] at h; simp at h
      | some qs =>
        rw [h1, h2] at h
        simp only [Option.some.injEq] at h
        subst h
        simp [ih h2]

theorem find_nodup {α : Type} {W : List ((Int × Int) × α)} (h : (W.map Prod.fst).Nodup) {k : Int × Int} {v : α} (hm : (k, v) ∈ W) :
    (W.find? fun x => decide (x.1 = k)) = some (k, v) := by
  induction W with
  | nil => simp at hm
  | cons x W ih =>
    rw [List.map_cons, List.nodup_cons] at h
    rw [List.find?_cons]
    rcases List.mem_cons.1 hm with rfl | hm
    · simp
    · have hne : x.1 ≠ k := by
        intro e
        exact h.1 (List.mem_map.2 ⟨_, hm, e.symm⟩)
      simp only [hne, decide_false]
      exact ih h.2 hm

theorem reads_lt {fs : List TFile} {S : St} (h : Reads fs S) : S.ws.Pairwise lt := by
  obtain ⟨S0, hI, _, _, _, hF⟩ := reads_inv h
  exact fin_lt hF hI.sorted

theorem keys_nodup {ws : List Wrk} (h : ws.Pairwise lt) : (ws.map key).Nodup := by
  rw [List.Nodup, List.pairwise_map]
  exact h.imp fun hab => lt_keys hab

theorem barMap_keys (ws : List Wrk) : (barMap ws).map Prod.fst = ws.map key := by
  unfold barMap
  rw [List.map_map]
  have : ws.map key = (ws.zipIdx.map Prod.fst).map key := by rw [List.zipIdx_map_fst]
  rw [this, List.map_map]
  rfl

theorem barOf_eq {ws : List Wrk} (h : ws.Pairwise lt) {i : Nat} (hi : i < ws.length) : barOf (barMap ws) (key ws[i]) = ws.length - 1 - i := by
  unfold barOf
  rw [find_nodup (v := ws.length - 1 - i) (by rw [barMap_keys]; exact keys_nodup h)]
  · rfl
  · unfold barMap
    refine List.mem_map.2 ⟨(ws[i], i), ?_, rfl⟩
    rw [List.mem_zipIdx_iff_getElem?]
    simp [hi]

theorem mapM_some {α β : Type} {f : α → Option β} {l : List α} {r : List β} (h : l.mapM f = some r) : List.Forall₂ (fun a b => f a = some b) l r := by
  induction l generalizing r with
  | nil =>
    rw [List.mapM_nil] at h
    cases h
    exact List.Forall₂.nil
  | cons a l ih =>
    rw [List.mapM_cons] at h
    cases h1 : f a with
    | none => rw [h1] at h; simp at h
    | some b =>
      cases h2 : l.mapM f with
      | none => rw [h1, h2] at h; simp at h
      | some bs =>
        rw [h1, h2] at h
        simp only [Option.bind_eq_bind, Option.bind_some, Option.pure_def, Option.some.injEq] at h
        subst h
        exact List.Forall₂.cons h1 (ih h2)

theorem ranges_keys {a b : Nat} {ws : List Wrk} {W : List ((Int × Int) × List Evt)} (h : ranges a b ws = .ok W) : W.map Prod.fst = ws.map key := by
  induction ws generalizing W with
  | nil => rw [ranges] at h; cases h; rfl
  | cons w ws ih =>
    rw [ranges] at h
    split at h
    · split at h
      · rename_i rs hrs
        cases h
        simp only [List.map_cons, ih hrs]
        rfl
      · cases h
      · cases h
    · cases h
    · cases h

theorem window_keys {S : St} {a b : Nat} {W : List ((Int × Int) × List Evt)} (h : window S a b = .ok W) : W.map Prod.fst = S.ws.map key := by
  unfold window at h
  split_ifs at h
  exact ranges_keys h

theorem forall2_map {α β : Type} {f : α → Option (List β)} {l : List α} {r : List (List β)} (h : List.Forall₂ (fun a b => f a = some b) l r) :
    r = l.map fun a => (f a).getD [] := by
  induction h with
  | nil => rfl
  | cons h1 _ ih => rw [List.map_cons, h1, ← ih]; rfl

theorem flatMap_single {β : Type} {f : Nat → List β} {l : List Nat} (hn : l.Nodup) {i : Nat} (hi : i ∈ l) (h : ∀ j ∈ l, j ≠ i → f j = []) :
    l.flatMap f = f i := by
  induction l with
  | nil => simp at hi
  | cons a l ih =>
    rw [List.nodup_cons] at hn
    rw [List.flatMap_cons]
    by_cases ha : a = i
    · subst ha
      have : l.flatMap f = [] := by
        rw [List.flatMap_eq_nil_iff]
        intro j hj
        exact h j (List.mem_cons_of_mem _ hj) (fun e => hn.1 (e ▸ hj))
      rw [this, List.append_nil]
    · rw [h a (List.mem_cons_self ..) ha, List.nil_append]
      rcases List.mem_cons.1 hi with e | hi
      · exact absurd e.symm ha
      · exact ih hn.2 hi fun j hj => h j (List.mem_cons_of_mem _ hj)

theorem filter_single {α : Type} {C : List ((Int × Int) × α)} (h : (C.map Prod.fst).Nodup) {k : Int × Int} (hk : k ∈ C.map Prod.fst) :
    ∃ q, (k, q) ∈ C ∧ (C.filter fun c => decide (c.1 = k)) = [(k, q)] := by
  induction C with
  | nil => simp at hk
  | cons x C ih =>
    rw [List.map_cons, List.nodup_cons] at h
    rw [List.map_cons] at hk
    by_cases hx : x.1 = k
    · refine ⟨x.2, by rw [← hx]; exact List.mem_cons_self .., ?_⟩
      rw [List.filter_cons]
      simp only [hx, decide_true, if_true]
      have : C.filter (fun c => decide (c.1 = k)) = [] := by
        rw [List.filter_eq_nil_iff]
        intro c hc e
        exact h.1 (by rw [hx, ← of_decide_eq_true e]; exact List.mem_map_of_mem hc)
      rw [this]
      rw [← hx]
    · rcases List.mem_cons.1 hk with e | hk
      · exact absurd e.symm hx
      · obtain ⟨q, h1, h2⟩ := ih h.2 hk
        refine ⟨q, List.mem_cons_of_mem _ h1, ?_⟩
        rw [List.filter_cons]
        simp only [hx, decide_false]
        exact h2

theorem column_some {R : ℚ → ℚ} {S : St} {seg t0 t1 px : Nat} {padding H : Int} {ix : Nat} {col : List Rect}
    (h : plotColumn R S seg t0 t1 px padding H ix = some col) :
    ∃ W C, window S (sampleAt R t0 t1 px ix) (sampleAt R t0 t1 px (ix + 1)) = .ok W ∧
      coverage seg (sampleAt R t0 t1 px ix) (sampleAt R t0 t1 px (ix + 1)) W = some C ∧ C.map Prod.fst = S.ws.map key ∧
      col = C.map fun c => ⟨ix + 1, barBottom padding H (barOf (barMap S.ws) c.1) + 1, barTop padding H (barOf (barMap S.ws) c.1), c.2⟩ := by
  unfold plotColumn at h
  split at h
  · rename_i W hW
    split at h
    · rename_i C hC
      cases h
      exact ⟨W, C, hW, hC, (coverage_keys hC).trans (window_keys hW), rfl⟩
    · cases h
  · cases h

theorem plot_some {R : ℚ → ℚ} {S : St} {px : Nat} {py padding : Int} {t0 t1 seg : Nat} {py' : Int} {img : List Rect}
    (hp : plot R S px py padding t0 t1 seg = some (py', img)) :
    ∃ H, barHeight R py padding S.ws.length = some (H, py') ∧ (∀ ix < px, (plotColumn R S seg t0 t1 px padding H ix).isSome) ∧
      img = (List.range px).flatMap fun ix => (plotColumn R S seg t0 t1 px padding H ix).getD [] := by
  unfold plot at hp
  split at hp
  · cases hp
  · rename_i H p hb
    obtain ⟨l, hl, e⟩ := Option.map_eq_some_iff.1 hp
    cases e
    have hF := mapM_some hl
    refine ⟨H, hb, ?_, ?_⟩
    · intro ix hix
      obtain ⟨h1, h2⟩ := List.forall₂_iff_get.1 hF
      have := h2 ix (by simpa using hix) (by rw [← h1]; simpa using hix)
      simp only [List.get_eq_getElem, List.getElem_range] at this
      rw [this]; rfl
    · rw [forall2_map hF, List.flatMap_def]

end Trace

open Trace

/-- The samples begin at `t0`, end at `t1` (for up to 2^48 ns, over three days) and never go back, however `double` is rounded. -/
theorem C116_samples {R : ℚ → ℚ} (hR : IsRounding R) {t0 t1 n : Nat} (hn : 0 < n) (h01 : t0 ≤ t1) (hd : t1 - t0 ≤ 2 ^ 48) :
    sampleAt R t0 t1 n 0 = t0 ∧ sampleAt R t0 t1 n n = t1 ∧ ∀ s s', s ≤ s' → sampleAt R t0 t1 n s ≤ sampleAt R t0 t1 n s' := by
  have hn' : (0 : ℚ) < n := by exact_mod_cast hn
  have hd0 : (0 : ℚ) ≤ ((t1 - t0 : Nat) : ℚ) := Nat.cast_nonneg _
  have hd1 : ((t1 - t0 : Nat) : ℚ) ≤ 2 ^ 48 := by exact_mod_cast hd
  have hdx : 0 ≤ R (R ((t1 - t0 : Nat) : ℚ) / (n : ℚ)) := hR.nonneg (div_nonneg (hR.nonneg hd0) hn'.le)
  refine ⟨?_, ?_, ?_⟩
  · unfold sampleAt
    have hb := hR.bounds (x := 1 / 2) (by norm_num)
    have : ⌊R (1 / 2)⌋ = 0 := by
      rw [Int.floor_eq_iff]
      norm_num at hb ⊢
      constructor <;> linarith [hb.1, hb.2]
    rw [Nat.cast_zero, mul_zero, hR.zero, zero_add, this]
    simp
  · unfold sampleAt
    set d : ℚ := ((t1 - t0 : Nat) : ℚ) with hdd
    obtain ⟨a1, a2⟩ := hR.bounds hd0
    have hA : 0 ≤ R d / n := div_nonneg (hR.nonneg hd0) hn'.le
    obtain ⟨b1, b2⟩ := hR.bounds hA
    have hB : 0 ≤ R (R d / n) * n := mul_nonneg hdx hn'.le
    obtain ⟨c1, c2⟩ := hR.bounds hB
    have e : R d / n * n = R d := div_mul_cancel₀ _ hn'.ne'
    have b1' : R d - R d / 2 ^ 53 ≤ R (R d / n) * n := by
      have := mul_le_mul_of_nonneg_right b1 hn'.le
      have e2 : (R d / n - R d / n / 2 ^ 53) * n = R d - R d / 2 ^ 53 := by
        rw [sub_mul, e, div_mul_eq_mul_div (R d / n), e]
      linarith
    have b2' : R (R d / n) * n ≤ R d + R d / 2 ^ 53 := by
      have := mul_le_mul_of_nonneg_right b2 hn'.le
      have e2 : (R d / n + R d / n / 2 ^ 53) * n = R d + R d / 2 ^ 53 := by
        rw [add_mul, e, div_mul_eq_mul_div (R d / n), e]
      linarith
    have hlow : d - 1 / 4 ≤ R (R (R d / n) * n) := by norm_num at a1 a2 b1' b2' c1 c2 hd1 ⊢; linarith
    have hhigh : R (R (R d / n) * n) ≤ d + 1 / 4 := by norm_num at a1 a2 b1' b2' c1 c2 hd1 ⊢; linarith
    have h0 : 0 ≤ R (R (R d / n) * n) := hR.nonneg hB
    obtain ⟨f1, f2⟩ := hR.bounds (x := R (R (R d / n) * n) + 1 / 2) (by linarith)
    have hfl : ⌊R (R (R (R d / n) * n) + 1 / 2)⌋ = ((t1 - t0 : Nat) : Int) := by
      rw [Int.floor_eq_iff, Int.cast_natCast, ← hdd]
      constructor <;> norm_num at f1 f2 hlow hhigh hd1 ⊢ <;> linarith
    rw [hfl, Int.toNat_natCast]
    omega
  · intro s s' hs
    unfold sampleAt
    have : R (R (R (R ((t1 - t0 : Nat) : ℚ) / (n : ℚ)) * (s : ℚ)) + 1 / 2) ≤ R (R (R (R ((t1 - t0 : Nat) : ℚ) / (n : ℚ)) * (s' : ℚ)) + 1 / 2) := by
      refine hR.mono _ _ (add_le_add (hR.mono _ _ ?_) (le_refl _))
      exact mul_le_mul_of_nonneg_left (by exact_mod_cast hs) hdx
    have := Int.floor_le_floor this
    omega

/-- The windows of the samples (the columns of a plot) are the window from `t0` to `t1`, each record of which is in exactly one of them. -/
theorem C116_windows {R : ℚ → ℚ} (hR : IsRounding R) {t0 t1 n : Nat} (hn : 0 < n) (h01 : t0 ≤ t1) (hd : t1 - t0 ≤ 2 ^ 48)
    {fs : List TFile} (hne : NoEmptyFile fs) {S : St} (h : Reads fs S) :
    ∃ (U : Nat → List ((Int × Int) × List Evt)) (W : List ((Int × Int) × List Evt)), (∀ s < n, window S (sampleAt R t0 t1 n s) (sampleAt R t0 t1 n (s + 1)) = .ok (U s)) ∧ window S t0 t1 = .ok W ∧
      ∀ k l, (k, l) ∈ W → ∃ u : Nat → List Evt, (∀ s < n, (k, u s) ∈ U s) ∧ l = (List.range n).flatMap u := by
  obtain ⟨s0, s1, sm⟩ := C116_samples hR hn h01 hd
  refine ⟨fun s => _, _, fun s _ => window_eq hne h (sm s (s + 1) (by omega)), window_eq hne h h01, ?_⟩
  intro k l hm
  obtain ⟨w, hw, e⟩ := List.mem_map.1 hm
  simp only [Prod.mk.injEq] at e
  obtain ⟨rfl, rfl⟩ := e
  refine ⟨fun s => w.events.filter (inside (sampleAt R t0 t1 n s) (min (sampleAt R t0 t1 n (s + 1)) (latest w.events))),
    fun s _ => List.mem_map.2 ⟨w, hw, rfl⟩, ?_⟩
  have hs := (reads_worker h hw).1
  have key1 : ∀ m, w.events.filter (inside (sampleAt R t0 t1 n 0) (min (sampleAt R t0 t1 n m) (latest w.events))) =
      (List.range m).flatMap fun s => w.events.filter (inside (sampleAt R t0 t1 n s) (min (sampleAt R t0 t1 n (s + 1)) (latest w.events))) := by
    intro m
    induction m with
    | zero =>
      rw [List.range_zero, List.flatMap_nil, List.filter_eq_nil_iff]
      intro y _
      simp only [inside, decide_eq_true_eq]; omega
    | succ m ih =>
      rw [List.range_succ, List.flatMap_append, ← ih, filter_split hs _ (sm 0 m (by omega)) (sm m (m + 1) (by omega))]
      simp
  have := key1 n
  rw [s0, s1] at this
  exact this

/-- The height of the image differs from what was asked for by at most half a pixel for each worker (with exact arithmetic). -/
theorem C116_height {py padding : Int} {n : Nat} (hn : 0 < n) (hp : 0 ≤ py - padding * ((n : Int) - 1)) :
    ∃ h py', barHeight id py padding n = some (h, py') ∧ 0 ≤ h ∧ 2 * py' ≤ 2 * py + n ∧ 2 * py < 2 * py' + n := by
  have hn' : (0 : ℚ) < n := by exact_mod_cast hn
  have hp' : (0 : ℚ) ≤ ((py - padding * ((n : Int) - 1) : Int) : ℚ) := by exact_mod_cast hp
  unfold barHeight
  rw [if_neg (by omega)]
  refine ⟨_, _, rfl, ?_⟩
  simp only [id]
  set T : Int := py - padding * ((n : Int) - 1) with hT
  have hq : (0 : ℚ) ≤ (T : ℚ) / n + 1 / 2 := by positivity
  unfold trunc
  rw [if_pos hq]
  obtain ⟨f1, f2⟩ := Int.floor_eq_iff.1 (rfl : ⌊(T : ℚ) / n + 1 / 2⌋ = _)
  set h : Int := ⌊(T : ℚ) / n + 1 / 2⌋ with hh
  have g1 : (h : ℚ) * n ≤ T + n / 2 := by
    have := mul_le_mul_of_nonneg_right f1 hn'.le
    rw [add_mul, div_mul_cancel₀ _ hn'.ne'] at this
    linarith
  have g2 : (T : ℚ) + n / 2 < (h : ℚ) * n + n := by
    have := mul_lt_mul_of_pos_right f2 hn'
    rw [add_mul, add_mul, div_mul_cancel₀ _ hn'.ne'] at this
    linarith
  have g1' : 2 * (h * n) ≤ 2 * T + n := by
    have : (2 * ((h : ℚ) * n)) ≤ 2 * T + n := by linarith
    exact_mod_cast this
  have g2' : 2 * T + n < 2 * (h * n) + 2 * n := by
    have : 2 * (T : ℚ) + n < 2 * ((h : ℚ) * n) + 2 * n := by linarith
    exact_mod_cast this
  refine ⟨Int.floor_nonneg.2 hq, ?_, ?_⟩ <;> linarith

/-- The bars: in each column each worker has exactly one rectangle, with the rows of its bar; the bars are in the image, do not overlap and have
`padding` rows between them, the first worker on top. -/
theorem C116_bars {R : ℚ → ℚ} {fs : List TFile} {S : St} (h : Reads fs S) {px : Nat} {py padding : Int} {t0 t1 seg : Nat}
    (hpad : 0 ≤ padding) {py' : Int} {img : List Rect} (hp : plot R S px py padding t0 t1 seg = some (py', img))
    (hh : ∀ H, barHeight R py padding S.ws.length = some (H, py') → 1 ≤ H) :
    ∃ H, 1 ≤ H ∧ ∃ low : Int × Int → Int,
      (∀ w ∈ S.ws, 1 ≤ low (w.loc, w.wid) ∧ low (w.loc, w.wid) + H - 1 ≤ py') ∧
      S.ws.Pairwise (fun w w' => low (w'.loc, w'.wid) + H + padding ≤ low (w.loc, w.wid)) ∧
      (∀ r ∈ img, 1 ≤ r.x ∧ r.x ≤ px ∧ ∃ w ∈ S.ws, r.low = low (w.loc, w.wid) ∧ r.high = low (w.loc, w.wid) + H - 1) ∧
      ∀ ix < px, ∀ w ∈ S.ws, ∃ q, (img.filter fun r => decide (r.x = ix + 1 ∧ r.low = low (w.loc, w.wid))) =
          [⟨ix + 1, low (w.loc, w.wid), low (w.loc, w.wid) + H - 1, q⟩] ∧
        ∃ W C, window S (sampleAt R t0 t1 px ix) (sampleAt R t0 t1 px (ix + 1)) = .ok W ∧
          coverage seg (sampleAt R t0 t1 px ix) (sampleAt R t0 t1 px (ix + 1)) W = some C ∧ ((w.loc, w.wid), q) ∈ C := by
  obtain ⟨H, hb, hcols, rfl⟩ := plot_some hp
  have hH := hh H hb
  have hlt := reads_lt h
  have hpy : py' = H * S.ws.length + padding * ((S.ws.length : Int) - 1) := by
    unfold barHeight at hb
    split_ifs at hb
    simp only [Option.some.injEq, Prod.mk.injEq] at hb
    rw [← hb.2, hb.1]
  have hidx : ∀ i (hi : i < S.ws.length), barBottom padding H (barOf (barMap S.ws) (S.ws[i].loc, S.ws[i].wid)) =
      ((S.ws.length : Int) - 1 - i) * (padding + H) := by
    intro i hi
    have := barOf_eq hlt hi
    unfold key at this
    unfold barBottom
    rw [this]
    congr 1
    omega
  have hinj : ∀ w ∈ S.ws, ∀ w' ∈ S.ws, barBottom padding H (barOf (barMap S.ws) (w.loc, w.wid)) = barBottom padding H (barOf (barMap S.ws) (w'.loc, w'.wid)) →
      w = w' := by
    intro w hw w' hw' e
    obtain ⟨i, hi, rfl⟩ := List.getElem_of_mem hw
    obtain ⟨j, hj, rfl⟩ := List.getElem_of_mem hw'
    rw [hidx i hi, hidx j hj] at e
    have := Int.eq_of_mul_eq_mul_right (show padding + H ≠ 0 by omega) e
    have : i = j := by omega
    subst this; rfl
  refine ⟨H, hH, fun k => barBottom padding H (barOf (barMap S.ws) k) + 1, ?_, ?_, ?_, ?_⟩
  · intro w hw
    obtain ⟨i, hi, rfl⟩ := List.getElem_of_mem hw
    simp only [hidx i hi]
    have h1 : 0 ≤ ((S.ws.length : Int) - 1 - i) * (padding + H) := Int.mul_nonneg (by omega) (by omega)
    have h2 : ((S.ws.length : Int) - 1 - i) * (padding + H) ≤ ((S.ws.length : Int) - 1) * (padding + H) :=
      Int.mul_le_mul_of_nonneg_right (by omega) (by omega)
    refine ⟨by omega, ?_⟩
    rw [hpy]
    have e : ((S.ws.length : Int) - 1) * (padding + H) = H * S.ws.length + padding * ((S.ws.length : Int) - 1) - H := by ring
    omega
  · rw [List.pairwise_iff_getElem]
    intro i j hi hj hij
    simp only [hidx i hi, hidx j hj]
    have h2 : ((S.ws.length : Int) - 1 - j + 1) * (padding + H) ≤ ((S.ws.length : Int) - 1 - i) * (padding + H) :=
      Int.mul_le_mul_of_nonneg_right (by omega) (by omega)
    have e : ((S.ws.length : Int) - 1 - j + 1) * (padding + H) = ((S.ws.length : Int) - 1 - j) * (padding + H) + padding + H := by ring
    omega
  · intro r hr
    obtain ⟨ix, hix, hr⟩ := List.mem_flatMap.1 hr
    have hix := List.mem_range.1 hix
    obtain ⟨col, hcol⟩ := Option.isSome_iff_exists.1 (hcols ix hix)
    rw [hcol] at hr
    obtain ⟨W, C, _, _, hk, rfl⟩ := column_some hcol
    obtain ⟨c, hc, rfl⟩ := List.mem_map.1 hr
    have : c.1 ∈ S.ws.map key := by rw [← hk]; exact List.mem_map_of_mem hc
    obtain ⟨w, hw, e⟩ := List.mem_map.1 this
    refine ⟨by simp, by simp only; omega, w, hw, ?_, ?_⟩
    · simp only; rw [← e]; rfl
    · simp only [barTop]; rw [← e]; unfold key; omega
  · intro ix hix w hw
    obtain ⟨col, hcol⟩ := Option.isSome_iff_exists.1 (hcols ix hix)
    obtain ⟨W, C, hW, hC, hk, hcol'⟩ := column_some hcol
    obtain ⟨q, hq, hfil⟩ := filter_single (C := C) (by rw [hk]; exact keys_nodup hlt) (k := (w.loc, w.wid))
      (by rw [hk]; exact List.mem_map.2 ⟨w, hw, rfl⟩)
    refine ⟨q, ?_, W, C, hW, hC, hq⟩
    rw [List.filter_flatMap, flatMap_single List.nodup_range (List.mem_range.2 hix)]
    · rw [hcol, Option.getD_some, hcol', List.filter_map]
      have : C.filter ((fun r : Rect => decide (r.x = ix + 1 ∧ r.low = barBottom padding H (barOf (barMap S.ws) (w.loc, w.wid)) + 1)) ∘ fun c =>
          (⟨ix + 1, barBottom padding H (barOf (barMap S.ws) c.1) + 1, barTop padding H (barOf (barMap S.ws) c.1), c.2⟩ : Rect)) =
          C.filter fun c => decide (c.1 = (w.loc, w.wid)) := by
        apply List.filter_congr
        intro c hc
        have : c.1 ∈ S.ws.map key := by rw [← hk]; exact List.mem_map_of_mem hc
        obtain ⟨w', hw', e⟩ := List.mem_map.1 this
        simp only [Function.comp, true_and]
        rw [decide_eq_decide]
        constructor
        · intro hb
          rw [← e] at hb ⊢
          have := hinj w' hw' w hw (by unfold key at hb; omega)
          subst this; rfl
        · intro hb; rw [hb]
      rw [this, hfil]
      simp only [List.map_cons, List.map_nil, barTop]
      congr 2
      omega
    · intro j hj hne
      obtain ⟨col', hcol2⟩ := Option.isSome_iff_exists.1 (hcols j (List.mem_range.1 hj))
      obtain ⟨_, C', _, _, _, rfl⟩ := column_some hcol2
      rw [hcol2, Option.getD_some, List.filter_eq_nil_iff]
      intro r hr
      obtain ⟨c, _, rfl⟩ := List.mem_map.1 hr
      simp only [decide_eq_true_eq]
      omega

/-- A segment that is drawn over several columns: those that are wholly inside of it are drawn as if there were none. -/
theorem C116_white_inside {R : ℚ → ℚ} {fs : List TFile} (hne : NoEmptyFile fs) {S : St} (h : Reads fs S) {px : Nat} {py padding : Int} {t0 t1 seg : Nat}
    {py' : Int} {img : List Rect} (hp : plot R S px py padding t0 t1 seg = some (py', img)) {ix : Nat} (hix : ix < px)
    (hlt : sampleAt R t0 t1 px ix < sampleAt R t0 t1 px (ix + 1)) {w : Wrk} (hw : w ∈ S.ws) {segs : List (Nat × Nat)}
    (hT : Timeline seg w.events segs) (hap : Apart segs) {s : Nat × Nat} (hs : s ∈ segs) (h1 : s.1 < sampleAt R t0 t1 px ix)
    (h2 : sampleAt R t0 t1 px (ix + 1) ≤ s.2) :
    ∃ H, barHeight R py padding S.ws.length = some (H, py') ∧
      ∃ r ∈ img, r.x = ix + 1 ∧ r.low = barBottom padding H (barOf (barMap S.ws) (w.loc, w.wid)) + 1 ∧ r.cover = 0 := by
  obtain ⟨H, hb, hcols, rfl⟩ := plot_some hp
  refine ⟨H, hb, ?_⟩
  obtain ⟨col, hcol⟩ := Option.isSome_iff_exists.1 (hcols ix hix)
  obtain ⟨W, C, hW, hC, _, hcol'⟩ := column_some hcol
  obtain ⟨hz, _⟩ := C111_inside_zero hne h hlt hW hC hw hT hap hs h1 h2
  refine ⟨⟨ix + 1, barBottom padding H (barOf (barMap S.ws) (w.loc, w.wid)) + 1, barTop padding H (barOf (barMap S.ws) (w.loc, w.wid)), 0⟩, ?_, rfl, rfl, rfl⟩
  refine List.mem_flatMap.2 ⟨ix, List.mem_range.2 hix, ?_⟩
  rw [hcol, Option.getD_some, hcol']
  exact List.mem_map.2 ⟨_, hz, rfl⟩

/-- The colour of the bar of a worker in a column is the part of the column that its segments cover, if no segment covers all of the column and more (see
`C116_white_inside`) and each worker has a record after the column. -/
theorem C116_colour_partial {R : ℚ → ℚ} {fs : List TFile} (hne : NoEmptyFile fs) {S : St} (h : Reads fs S) {px : Nat} {py padding : Int} {t0 t1 seg : Nat}
    {py' : Int} {img : List Rect} (hp : plot R S px py padding t0 t1 seg = some (py', img)) {ix : Nat} (hix : ix < px) {a b : Nat}
    (ha : a = sampleAt R t0 t1 px ix) (hb : b = sampleAt R t0 t1 px (ix + 1)) (hab : a < b) {segs : Int × Int → List (Nat × Nat)}
    (hT : ∀ w ∈ S.ws, Timeline seg w.events (segs (w.loc, w.wid))) (hap : ∀ k, Apart (segs k))
    (hlast : ∀ w ∈ S.ws, ∃ e ∈ w.events, b ≤ e.stamp) (hno : ∀ k, ∀ s ∈ segs k, ¬ (s.1 < a ∧ b ≤ s.2)) {w : Wrk} (hw : w ∈ S.ws) :
    ∃ H, barHeight R py padding S.ws.length = some (H, py') ∧
      ∃ r ∈ img, r.x = ix + 1 ∧ r.low = barBottom padding H (barOf (barMap S.ws) (w.loc, w.wid)) + 1 ∧
        r.cover = (covered a b (segs (w.loc, w.wid)) : ℚ) / ((b : ℚ) - a) := by
  obtain ⟨H, hbh, hcols, rfl⟩ := plot_some hp
  refine ⟨H, hbh, ?_⟩
  obtain ⟨col, hcol⟩ := Option.isSome_iff_exists.1 (hcols ix hix)
  obtain ⟨W, C, hW, hC, hk, hcol'⟩ := column_some hcol
  rw [← ha, ← hb] at hW hC
  have := C111_cover_partial hne h hab hW hT hap hlast hno
  rw [this] at hC
  cases hC
  refine ⟨⟨ix + 1, barBottom padding H (barOf (barMap S.ws) (w.loc, w.wid)) + 1, barTop padding H (barOf (barMap S.ws) (w.loc, w.wid)), _⟩, ?_, rfl, rfl, rfl⟩
  refine List.mem_flatMap.2 ⟨ix, List.mem_range.2 hix, ?_⟩
  rw [hcol, Option.getD_some, hcol', List.map_map]
  have hm : (w.loc, w.wid) ∈ W.map Prod.fst := by
    rw [window_keys hW]; exact List.mem_map.2 ⟨w, hw, rfl⟩
  obtain ⟨x, hx, e⟩ := List.mem_map.1 hm
  refine List.mem_map.2 ⟨x, hx, ?_⟩
  simp only [Function.comp, e]

/-- The mean over the workers is defined if there is a worker, and is between 0 and 1 if the coverages are. -/
theorem C116_mean {C : List ((Int × Int) × ℚ)} (hC : C ≠ []) (h : ∀ c ∈ C, 0 ≤ c.2 ∧ c.2 ≤ 1) : ∃ q, sumOfCover C = some q ∧ 0 ≤ q ∧ q ≤ 1 := by
  have hl : 0 < C.length := List.length_pos_of_ne_nil hC
  have hl' : (0 : ℚ) < C.length := by exact_mod_cast hl
  have hs : ∀ D : List ((Int × Int) × ℚ), (∀ c ∈ D, 0 ≤ c.2 ∧ c.2 ≤ 1) → 0 ≤ (D.map Prod.snd).sum ∧ (D.map Prod.snd).sum ≤ D.length := by
    intro D
    induction D with
    | nil => simp
    | cons x D ih =>
      intro hD
      obtain ⟨a, b⟩ := ih fun c hc => hD c (List.mem_cons_of_mem _ hc)
      obtain ⟨c, d⟩ := hD x (List.mem_cons_self ..)
      simp only [List.map_cons, List.sum_cons, List.length_cons, Nat.cast_add, Nat.cast_one]
      constructor <;> linarith
  obtain ⟨a, b⟩ := hs C h
  unfold sumOfCover
  rw [if_neg (by omega)]
  exact ⟨_, rfl, div_nonneg a hl'.le, (div_le_one hl').2 b⟩

/-- Every utilization with at least one sample writes to elements of a vector that do not exist. -/
theorem C116_utilization_undefined (R : ℚ → ℚ) (S : St) (t0 t1 : Nat) {samples : Nat} (hs : 0 < samples) (segs : List Nat) :
    utilization R S t0 t1 samples segs = none := by
  obtain ⟨m, rfl⟩ : ∃ m, samples = m + 1 := ⟨samples - 1, by omega⟩
  unfold utilization emptyRows
  rw [List.map_id'', List.replicate_succ, List.zipIdx_cons, List.mapM_cons]
  · simp [utilSample, vecSet]
  · intro x; rfl

/-! Two workers, five columns. -/

example : IsRounding id := ⟨fun _ _ h => h, fun x => by simp; positivity⟩

example : plot id ⟨true, 4, [⟨0, 0, 0, [⟨1, "b", 2, true, false⟩, ⟨5, "e", 2, false, true⟩, ⟨9, "z", 0, false, false⟩]⟩,
      ⟨0, 1, 2, [⟨2, "b", 2, true, false⟩, ⟨8, "e", 2, false, true⟩, ⟨9, "z", 0, false, false⟩]⟩]⟩ 2 10 1 0 8 2 =
    some (11, [⟨1, 7, 11, 3 / 4⟩, ⟨1, 1, 5, 1 / 2⟩, ⟨2, 7, 11, 1 / 4⟩, ⟨2, 1, 5, 0⟩]) := by decide +kernel

end Dashmm
