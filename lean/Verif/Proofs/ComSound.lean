import Verif.Proofs.ComExec
import Verif.Props.Com

/-!
The two centre-of-mass expansions in evaluations.
-/

namespace Dashmm.ComEx

open Com Harm

noncomputable section

theorem strength_nil (n : ℕ) (t : Point ℝ) : strength n [] t = 0 := by simp [strength]

theorem strength_append (n : ℕ) (l l' : List (Com.Src ℝ)) (t : Point ℝ) :
    strength n (l ++ l') t = strength n l t + strength n l' t := by simp [strength]

theorem strength_perm (n : ℕ) {l l' : List (Com.Src ℝ)} (h : l.Perm l') (t : Point ℝ) : strength n l t = strength n l' t :=
  (h.map _).sum_eq

theorem strength_nonneg (n : ℕ) (l : List (Com.Src ℝ)) (t : Point ℝ) : 0 ≤ strength n l t := by
  refine List.sum_nonneg fun x hx => ?_
  obtain ⟨q, -, rfl⟩ := List.mem_map.1 hx
  split
  · exact le_rfl
  · positivity

theorem potential_perm {l l' : List (Com.Src ℝ)} (h : l.Perm l') (x y z : ℝ) :
    Com.potential l x y z = Com.potential l' x y z := (h.map _).sum_eq

theorem potential_app (l l' : List (Com.Src ℝ)) (x y z : ℝ) :
    Com.potential (l ++ l') x y z = Com.potential l x y z + Com.potential l' x y z := by simp [Com.potential]

theorem fieldComp_perm {l l' : List (Com.Src ℝ)} (h : l.Perm l') (x y z : ℝ) (g : Com.Src ℝ → ℝ) :
    fieldComp l x y z g = fieldComp l' x y z g := (h.map _).sum_eq

theorem fieldComp_app (l l' : List (Com.Src ℝ)) (x y z : ℝ) (g : Com.Src ℝ → ℝ) :
    fieldComp (l ++ l') x y z g = fieldComp l x y z g + fieldComp l' x y z g := by simp [fieldComp]

theorem sqrt_dist2 (q : Com.Src ℝ) (t : Point ℝ) : √(dist2 q t.x t.y t.z) = (t.sub q.pos).norm := by
  unfold dist2 Point.norm Point.sub Src.pos
  congr 1 <;> ring

/-- The total charge over a power of the distance from the centre, against the distances from the sources. -/
theorem absCharge_le {κ r : ℝ} (n : ℕ) (h0 : 0 ≤ κ) (h1 : κ < 1) {c t : Point ℝ} (hr : (t.sub c).norm = r) (hp : 0 < r) :
    ∀ l : List (Com.Src ℝ), (∀ q ∈ l, (q.pos.sub c).norm ≤ κ * r) →
      absCharge l / r ^ n ≤ (1 + κ) ^ n * strength n l t
  | [], _ => by simp [absCharge, strength]
  | q :: l, h => by
    have ih := absCharge_le n h0 h1 hr hp l fun q hq => h q (List.mem_cons_of_mem _ hq)
    have hq := h q List.mem_cons_self
    have e1 : absCharge (q :: l) = |q.charge| + absCharge l := by simp [absCharge]
    have l1 := sub_norm_le t q.pos c
    have l2 := sub_norm_le t c q.pos
    rw [norm_neg_sub c q.pos] at l2
    rw [hr] at l1 l2
    have hd : 0 < (t.sub q.pos).norm := by nlinarith
    have hd0 : dist2 q t.x t.y t.z ≠ 0 := by
      intro h0; rw [← sqrt_dist2, h0, Real.sqrt_zero] at hd; exact lt_irrefl _ hd
    have e2 : strength n (q :: l) t = |q.charge| / (t.sub q.pos).norm ^ n + strength n l t := by
      simp [strength, hd0, sqrt_dist2]
    rw [e1, e2, add_div, mul_add]
    refine add_le_add ?_ ih
    have hle : (t.sub q.pos).norm ≤ (1 + κ) * r := by nlinarith
    have hpw : (t.sub q.pos).norm ^ n ≤ (1 + κ) ^ n * r ^ n := by
      rw [← mul_pow]; exact pow_le_pow_left₀ hd.le hle n
    rw [mul_div_assoc', div_le_div_iff₀ (by positivity) (by positivity)]
    nlinarith [mul_le_mul_of_nonneg_left hpw (abs_nonneg q.charge)]

theorem away_eq (d : Data ℝ) (t : Point ℝ) : d.away t = (t.sub ⟨d.c0, d.c1, d.c2⟩).norm ^ 2 := by
  unfold Data.away Point.norm Point.sub
  rw [Real.sq_sqrt (by nlinarith [mul_self_nonneg (t.x - d.c0), mul_self_nonneg (t.y - d.c1), mul_self_nonneg (t.z - d.c2)])]

theorem separated_of {d : Data ℝ} {l : List (Com.Src ℝ)} {t : Point ℝ} {κ r : ℝ} (h0 : 0 ≤ κ) (h1 : κ < 1)
    (hr : (t.sub ⟨d.c0, d.c1, d.c2⟩).norm = r) (hp : 0 < r)
    (h : ∀ q ∈ l, (q.pos.sub ⟨d.c0, d.c1, d.c2⟩).norm ≤ κ * r) : Com.Separated d l (κ * r) r t.x t.y t.z where
  a_nonneg := by positivity
  near q hq := by
    have := h q hq
    have h2 := pow_le_pow_left₀ (norm_nonneg' _) this 2
    refine le_trans (le_of_eq ?_) h2
    unfold Point.norm Point.sub Src.pos
    rw [Real.sq_sqrt (by nlinarith [mul_self_nonneg (q.x - d.c0), mul_self_nonneg (q.y - d.c1), mul_self_nonneg (q.z - d.c2)])]
    ring
  r_nonneg := hp.le
  dist := by
    rw [← hr, ← away_eq]; unfold Data.away; ring
  apart := by nlinarith

/-- What `LaplaceCOM` computes. -/
def ComClose (ε : ℝ) (l : List (Com.Src ℝ)) (t : Point ℝ) (v : ℝ) : Prop :=
  |v - Com.potential l t.x t.y t.z| ≤ ε * strength 1 l t

/-- What `LaplaceCOMAcc` computes. -/
def AccClose (ε : ℝ) (l : List (Com.Src ℝ)) (t : Point ℝ) (v : ℝ × ℝ × ℝ) : Prop :=
  |v.1 - fieldX l t.x t.y t.z| ≤ ε * strength 2 l t ∧ |v.2.1 - fieldY l t.x t.y t.z| ≤ ε * strength 2 l t ∧
    |v.2.2 - fieldZ l t.x t.y t.z| ≤ ε * strength 2 l t

theorem abs_add_sub {a b x y e f : ℝ} (h1 : |a - x| ≤ e) (h2 : |b - y| ≤ f) : |a + b - (x + y)| ≤ e + f := by
  rw [abs_le] at *; constructor <;> linarith [h1.1, h1.2, h2.1, h2.2]

theorem com_addable {a b : Data ℝ} {A B : List (Com.Src ℝ)} (ha : IsMoments a A) (hb : IsMoments b B)
    (hA : ∀ q ∈ A, 0 < q.charge) (hB : ∀ q ∈ B, 0 < q.charge) (hne : B ≠ []) :
    ∃ d, addCom a b = some d ∧ IsMoments d (A ++ B) := by
  have h1 := total_pos hB hne
  have h2 := total_nonneg (l := A) fun q hq => (hA q hq).le
  have hm : a.mtot + b.mtot ≠ 0 := by rw [ha.mtot, hb.mtot]; linarith
  have : ∃ d, addCom a b = some d := by
    unfold addCom; simp only
    rw [if_neg hm]
    exact ⟨_, rfl⟩
  obtain ⟨d, hd⟩ := this
  exact ⟨d, hd, isMoments_addCom ha hb hd⟩

theorem comSound {κ ε : ℝ} (h0 : 0 ≤ κ) (h1 : κ < 1) (hε : comEps κ ≤ ε) : Sound comKernel κ (ComClose ε) where
  nil t := by simp [ComClose, Com.potential, strength_nil]
  app h h' := by
    unfold ComClose at *
    rw [potential_app, strength_append, mul_add]
    exact abs_add_sub h h'
  perm hp h := by
    unfold ComClose at *
    rw [← potential_perm hp, ← strength_perm 1 hp]; exact h
  direct l t := by
    have e0 : comKernel.sToT l t = Com.potential l t.x t.y t.z := comSToTSum_eq l _
    have p0 : 0 ≤ comEps κ := by
      have : 0 < 1 - κ := by linarith
      unfold comEps; positivity
    unfold ComClose
    rw [e0, sub_self, abs_zero]
    exact mul_nonneg (p0.trans hε) (strength_nonneg 1 l t)
  add ha hb hA hB hne := com_addable ha hb hA hB hne
  far {d l t} hm hn hpos := by
    generalize hr : (t.sub ⟨d.c0, d.c1, d.c2⟩).norm = r at hn hpos
    have hs := separated_of h0 h1 hr hpos hn
    obtain ⟨t', ht', -, hb⟩ := C60_com_error_partial d l hm ⟨t.x, t.y, t.z, 0⟩ hs
    have e1 : t' = comMToT1 d ⟨t.x, t.y, t.z, 0⟩ := by
      have : [comMToT1 d ⟨t.x, t.y, t.z, 0⟩] = [t'] := ht'
      exact (List.cons.inj this).1.symm
    rw [e1, zero_add] at hb
    have haw : d.away t ≠ 0 := by rw [away_eq, hr]; positivity
    refine ⟨(comMToT1 d ⟨t.x, t.y, t.z, 0⟩).phi, ?_, ?_⟩
    · unfold comKernel; simp only; rw [if_neg haw]
    · refine hb.trans ?_
      have hc := absCharge_le 1 h0 h1 hr hpos l hn
      have hk : 0 < 1 - κ := by linarith
      have e2 : absCharge l * (2 * ((κ * r) ^ 2 / r ^ 3) + 6 * ((κ * r) ^ 3 / (r ^ 3 * (r - κ * r)))) =
          (2 * κ ^ 2 + 6 * κ ^ 3 / (1 - κ)) * (absCharge l / r ^ 1) := by
        have : r - κ * r = (1 - κ) * r := by ring
        rw [this]; field_simp
      rw [e2]
      have hA : 0 ≤ 2 * κ ^ 2 + 6 * κ ^ 3 / (1 - κ) := by positivity
      refine (mul_le_mul_of_nonneg_left hc hA).trans ?_
      rw [← mul_assoc, pow_one]
      exact mul_le_mul_of_nonneg_right hε (strength_nonneg 1 l t)

theorem accSound {κ ε : ℝ} (h0 : 0 ≤ κ) (h1 : κ < 1) (hε : accEps κ ≤ ε) : Sound accKernel κ (AccClose ε) where
  nil t := by simp [AccClose, fieldX, fieldY, fieldZ, fieldComp, strength_nil]
  app h h' := by
    obtain ⟨a1, a2, a3⟩ := h
    obtain ⟨b1, b2, b3⟩ := h'
    unfold AccClose fieldX fieldY fieldZ at *
    rw [fieldComp_app, fieldComp_app, fieldComp_app, strength_append, mul_add]
    exact ⟨abs_add_sub a1 b1, abs_add_sub a2 b2, abs_add_sub a3 b3⟩
  perm hp h := by
    unfold AccClose fieldX fieldY fieldZ at *
    rw [← fieldComp_perm hp, ← fieldComp_perm hp, ← fieldComp_perm hp, ← strength_perm 2 hp]; exact h
  direct l t := by
    have e0 : accKernel.sToT l t = (fieldX l t.x t.y t.z, fieldY l t.x t.y t.z, fieldZ l t.x t.y t.z) := accSToTSum_eq l _
    have p0 : 0 ≤ accEps κ := by
      have : 0 < 1 - κ := by linarith
      unfold accEps; positivity
    have := mul_nonneg (p0.trans hε) (strength_nonneg 2 l t)
    unfold AccClose
    rw [e0]
    simp only [sub_self, abs_zero]
    exact ⟨this, this, this⟩
  add ha hb hA hB _ := isMoments_addAcc ha hb (fun q hq => (hA q hq).le) fun q hq => (hB q hq).le
  far {d l t} hm hn hpos := by
    generalize hr : (t.sub ⟨d.c0, d.c1, d.c2⟩).norm = r at hn hpos
    have hs := separated_of h0 h1 hr hpos hn
    have hb := acc_all hs hm 0 0 0
    simp only [zero_add] at hb
    have haw : d.away t ≠ 0 := by rw [away_eq, hr]; positivity
    have hc := absCharge_le 2 h0 h1 hr hpos l hn
    have hk : 0 < 1 - κ := by linarith
    have e2 : absCharge l * (76 * ((κ * r) ^ 3 / (r ^ 2 * (r - κ * r) ^ 3))) =
        76 * κ ^ 3 / (1 - κ) ^ 3 * (absCharge l / r ^ 2) := by
      have : r - κ * r = (1 - κ) * r := by ring
      rw [this]; field_simp
    have hle : absCharge l * (76 * ((κ * r) ^ 3 / (r ^ 2 * (r - κ * r) ^ 3))) ≤ ε * strength 2 l t := by
      rw [e2]
      have hA : 0 ≤ 76 * κ ^ 3 / (1 - κ) ^ 3 := by positivity
      refine (mul_le_mul_of_nonneg_left hc hA).trans ?_
      rw [← mul_assoc]
      exact mul_le_mul_of_nonneg_right hε (strength_nonneg 2 l t)
    refine ⟨((accMToT1 d ⟨t.x, t.y, t.z, 0, 0, 0⟩).a0, (accMToT1 d ⟨t.x, t.y, t.z, 0, 0, 0⟩).a1,
      (accMToT1 d ⟨t.x, t.y, t.z, 0, 0, 0⟩).a2), ?_, hb.1.trans hle, hb.2.1.trans hle, hb.2.2.trans hle⟩
    unfold accKernel; simp only; rw [if_neg haw]

end

end Dashmm.ComEx
