import Verif.Model.Coeff
import Verif.Spec.Coeff
import Mathlib.Tactic.Ring
import Mathlib.Tactic.Linarith

namespace Dashmm.Coeff

/-- One run of consecutive cells. -/
theorem packs_interval (lo hi _c : Int) :
    Packs (fun m : Int => lo ≤ m ∧ m ≤ hi) (fun m => m - lo) (hi - lo + 1) where
  inside := by intro m h; constructor <;> omega
  separate := by intro a b _ _ h; omega
  gapless := by intro k h0 h1; exact ⟨k + lo, ⟨by omega, by omega⟩, by omega⟩

/-- Rows of equal length one after the other. -/
theorem packs_prod {α β : Type} {A : α → Prop} {B : β → Prop} {f : α → Int} {g : β → Int}
    {s t : Int} (ha : Packs A f s) (hb : Packs B g t) (hs : 0 ≤ s) :
    Packs (fun x : α × β => A x.1 ∧ B x.2) (fun x => f x.1 * t + g x.2) (s * t) where
  inside := by
    rintro ⟨a, b⟩ ⟨h1, h2⟩
    obtain ⟨p, q⟩ := ha.inside a h1
    obtain ⟨u, v⟩ := hb.inside b h2
    simp only
    constructor
    · have : 0 ≤ f a * t := mul_nonneg p (by omega)
      omega
    · have : (f a + 1) * t ≤ s * t := mul_le_mul_of_nonneg_right (by omega) (by omega)
      linarith
  separate := by
    rintro ⟨a, b⟩ ⟨c, d⟩ ⟨h1, h2⟩ ⟨h3, h4⟩ h
    simp only at h h1 h2 h3 h4
    obtain ⟨u, v⟩ := hb.inside b h2
    obtain ⟨u', v'⟩ := hb.inside d h4
    have e : f a = f c := by
      rcases lt_trichotomy (f a) (f c) with l | l | l
      · have : (f a + 1) * t ≤ f c * t := mul_le_mul_of_nonneg_right (by omega) (by omega)
        linarith
      · exact l
      · have : (f c + 1) * t ≤ f a * t := mul_le_mul_of_nonneg_right (by omega) (by omega)
        linarith
    have e2 : g b = g d := by rw [e] at h; omega
    exact Prod.ext (ha.separate _ _ h1 h3 e) (hb.separate _ _ h2 h4 e2)
  gapless := by
    intro k h0 h1
    have ht : 0 < t := by
      by_contra hc
      have : s * t ≤ 0 := mul_nonpos_of_nonneg_of_nonpos hs (by omega)
      omega
    obtain ⟨a, a1, a2⟩ := ha.gapless (k / t) (Int.ediv_nonneg h0 ht.le)
      (Int.ediv_lt_of_lt_mul ht h1)
    obtain ⟨b, b1, b2⟩ := hb.gapless (k % t) (Int.emod_nonneg _ ht.ne') (Int.emod_lt_of_pos _ ht)
    refine ⟨(a, b), ⟨a1, b1⟩, ?_⟩
    simp only [a2, b2]
    have := Int.mul_ediv_add_emod k t
    linarith

/-- Blocks of growing width one after the other. -/
theorem packs_blocks {β : Type} {D : Int → β → Prop} {loc : Int → β → Int} {w off : Int → Int}
    (hl : ∀ n, 0 ≤ n → Packs (D n) (loc n) (w n))
    (hw : ∀ n, 0 ≤ n → 0 ≤ w n)
    (h0 : off 0 = 0) (hs : ∀ n, 0 ≤ n → off (n + 1) = off n + w n) :
    ∀ p : Nat, Packs (fun x : Int × β => (0 ≤ x.1 ∧ x.1 ≤ (p : Int)) ∧ D x.1 x.2)
      (fun x => off x.1 + loc x.1 x.2) (off (p + 1)) := by
  have mono : ∀ d : Nat, ∀ n : Int, 0 ≤ n → off n ≤ off (n + d) := by
    intro d
    induction d with
    | zero => intro n _; simp
    | succ d ih =>
      intro n hn
      have := ih n hn
      have e := hs (n + d) (by omega)
      have := hw (n + d) (by omega)
      push_cast
      rw [← add_assoc, e]; omega
  have mono' : ∀ n k : Int, 0 ≤ n → n ≤ k → off n ≤ off k := by
    intro n k hn hk
    have := mono (k - n).toNat n hn
    rwa [show n + ((k - n).toNat : Int) = k by omega] at this
  intro p
  refine ⟨?_, ?_, ?_⟩
  · rintro ⟨n, b⟩ ⟨⟨n0, n1⟩, hb⟩
    simp only at *
    obtain ⟨u, v⟩ := (hl n n0).inside b hb
    have a1 := mono' 0 n le_rfl n0
    have a2 := mono' (n + 1) (p + 1) (by omega) (by omega)
    have := hs n n0
    omega
  · rintro ⟨n, b⟩ ⟨k, c⟩ ⟨⟨n0, n1⟩, hb⟩ ⟨⟨k0, k1⟩, hc⟩ h
    simp only at *
    obtain ⟨u, v⟩ := (hl n n0).inside b hb
    obtain ⟨u', v'⟩ := (hl k k0).inside c hc
    have e : n = k := by
      rcases lt_trichotomy n k with l | l | l
      · have := mono' (n + 1) k (by omega) (by omega)
        have := hs n n0; omega
      · exact l
      · have := mono' (k + 1) n (by omega) (by omega)
        have := hs k k0; omega
    subst e
    have := (hl n n0).separate b c hb hc (by omega)
    rw [this]
  · induction p with
    | zero =>
      intro k a1 a2
      have e := hs 0 le_rfl
      simp only [Nat.cast_zero] at a2
      rw [zero_add] at e a2
      obtain ⟨b, b1, b2⟩ := (hl 0 le_rfl).gapless k a1 (by omega)
      exact ⟨(0, b), ⟨⟨le_rfl, by simp⟩, b1⟩, by simp only; omega⟩
    | succ p ih =>
      intro k a1 a2
      by_cases hk : k < off (p + 1)
      · obtain ⟨⟨n, b⟩, ⟨⟨n0, n1⟩, hb⟩, e⟩ := ih k a1 hk
        simp only at *
        exact ⟨(n, b), ⟨⟨n0, by push_cast; omega⟩, hb⟩, e⟩
      · have e := hs (p + 1) (by omega)
        push_cast at a2
        obtain ⟨b, b1, b2⟩ := (hl (p + 1) (by omega)).gapless (k - off (p + 1)) (by omega)
          (by omega)
        exact ⟨((p : Int) + 1, b), ⟨⟨by simp only; omega, by simp⟩, b1⟩, by simp only; omega⟩

/-- Reading a packing through another presentation of the same domain and map. -/
theorem Packs.congr {α : Type} {A B : α → Prop} {f g : α → Int} {s t : Int}
    (h : Packs A f s) (hd : ∀ a, A a ↔ B a) (hf : ∀ a, A a → f a = g a) (hs : s = t) :
    Packs B g t where
  inside := by
    intro a ha
    have := h.inside a ((hd a).2 ha)
    rw [hf a ((hd a).2 ha), hs] at this
    exact this
  separate := by
    intro a b ha hb e
    have ha' := (hd a).2 ha
    have hb' := (hd b).2 hb
    exact h.separate a b ha' hb' (by rw [hf a ha', hf b hb', e])
  gapless := by
    intro k k0 k1
    obtain ⟨a, a1, a2⟩ := h.gapless k k0 (by omega)
    exact ⟨a, (hd a).1 a1, by rw [← hf a a1, a2]⟩

/-- A quotient is exact when the numerator is a multiple, found by induction. -/
theorem tdiv_of_eq {a b q : Int} (hb : b ≠ 0) (h : a = b * q) : a.tdiv b = q := by
  subst h; exact Int.mul_tdiv_cancel_left _ hb

theorem tri_exact (n : Nat) : ∃ q : Int, (n : Int) * (n + 1) = 2 * q := by
  induction n with
  | zero => exact ⟨0, by simp⟩
  | succ n ih => obtain ⟨q, h⟩ := ih; exact ⟨q + (n + 1), by push_cast; linarith⟩

theorem did_exact (n : Nat) : ∃ q : Int, (n : Int) * (n + 1) * (4 * n - 1) = 6 * q := by
  induction n with
  | zero => exact ⟨0, by simp⟩
  | succ n ih =>
    obtain ⟨q, h⟩ := ih
    exact ⟨q + (n + 1) * (2 * n + 1), by push_cast; linarith⟩

theorem hid_exact (n : Nat) : ∃ q : Int, (n : Int) * (2 * n - 1) * (2 * n + 1) = 3 * q := by
  induction n with
  | zero => exact ⟨0, by simp⟩
  | succ n ih =>
    obtain ⟨q, h⟩ := ih
    exact ⟨q + (2 * n + 1) * (2 * n + 1), by push_cast; linarith⟩

theorem tri_step (n : Int) (h : 0 ≤ n) :
    ((n + 1) * (n + 1 + 1)).tdiv 2 = (n * (n + 1)).tdiv 2 + (n + 1) := by
  obtain ⟨k, rfl⟩ := Int.eq_ofNat_of_zero_le h
  obtain ⟨q, e⟩ := tri_exact k
  rw [tdiv_of_eq (by decide) e]
  exact tdiv_of_eq (by decide) (by linarith)

theorem did_step (n : Int) (h : 0 ≤ n) :
    ((n + 1) * (n + 1 + 1) * (4 * (n + 1) - 1)).tdiv 6 =
      (n * (n + 1) * (4 * n - 1)).tdiv 6 + (n + 1) * (2 * n + 1) := by
  obtain ⟨k, rfl⟩ := Int.eq_ofNat_of_zero_le h
  obtain ⟨q, e⟩ := did_exact k
  rw [tdiv_of_eq (by decide) e]
  exact tdiv_of_eq (by decide) (by linarith)

theorem hid_step (n : Int) (h : 0 ≤ n) :
    ((n + 1) * (2 * (n + 1) - 1) * (2 * (n + 1) + 1)).tdiv 3 =
      (n * (2 * n - 1) * (2 * n + 1)).tdiv 3 + (2 * n + 1) * (2 * n + 1) := by
  obtain ⟨k, rfl⟩ := Int.eq_ofNat_of_zero_le h
  obtain ⟨q, e⟩ := hid_exact k
  rw [tdiv_of_eq (by decide) e]
  exact tdiv_of_eq (by decide) (by linarith)

theorem packs_midx (p : Nat) :
    Packs (fun x : Int × Int => (0 ≤ x.1 ∧ x.1 ≤ (p : Int)) ∧ (0 ≤ x.2 ∧ x.2 ≤ x.1))
      (fun x => midx x.1 x.2) (msize p) := by
  refine (packs_blocks (D := fun n m => 0 ≤ m ∧ m ≤ n) (loc := fun _ m => m - 0)
    (w := fun n => n - 0 + 1) (off := fun n => (n * (n + 1)).tdiv 2)
    (fun n _ => packs_interval 0 n 0) (fun n h => by omega) (by simp)
    (fun n h => by simpa using tri_step n h) p).congr (fun _ => Iff.rfl) ?_ ?_
  · intro a _; simp [midx]
  · simp [msize, add_assoc]

theorem packs_lidx (p : Nat) :
    Packs (fun x : Int × Int => (0 ≤ x.1 ∧ x.1 ≤ (p : Int)) ∧ (-x.1 ≤ x.2 ∧ x.2 ≤ x.1))
      (fun x => lidx x.1 x.2) (lsize p) := by
  refine (packs_blocks (D := fun n m => -n ≤ m ∧ m ≤ n) (loc := fun n m => m - -n)
    (w := fun n => n - -n + 1) (off := fun n => n * n)
    (fun n _ => packs_interval (-n) n 0) (fun n h => by omega) (by simp)
    (fun n h => by ring) p).congr (fun _ => Iff.rfl) ?_ ?_
  · intro a _; simp only [lidx]; ring
  · simp [lsize]

theorem packs_didx (p : Nat) :
    Packs (fun x : Int × Int × Int => (0 ≤ x.1 ∧ x.1 ≤ (p : Int)) ∧
        ((0 ≤ x.2.1 ∧ x.2.1 ≤ x.1) ∧ (-x.1 ≤ x.2.2 ∧ x.2.2 ≤ x.1)))
      (fun x => didx x.1 x.2.1 x.2.2) (dsize p) := by
  refine (packs_blocks
    (D := fun n (y : Int × Int) => (0 ≤ y.1 ∧ y.1 ≤ n) ∧ (-n ≤ y.2 ∧ y.2 ≤ n))
    (loc := fun n y => (y.1 - 0) * (n - -n + 1) + (y.2 - -n))
    (w := fun n => (n - 0 + 1) * (n - -n + 1))
    (off := fun n => (n * (n + 1) * (4 * n - 1)).tdiv 6)
    (fun n h => packs_prod (packs_interval 0 n 0) (packs_interval (-n) n 0) (by omega))
    (fun n h => mul_nonneg (by omega) (by omega)) (by simp)
    (fun n h => ?_) p).congr (fun _ => Iff.rfl) ?_ ?_
  · have := did_step n h
    rw [this]; ring
  · intro a _; simp only [didx]; ring
  · simp only [dsize]; congr 1; ring

theorem packs_hidx (p : Nat) :
    Packs (fun x : Int × Int × Int => (0 ≤ x.1 ∧ x.1 ≤ (p : Int)) ∧
        ((-x.1 ≤ x.2.1 ∧ x.2.1 ≤ x.1) ∧ (-x.1 ≤ x.2.2 ∧ x.2.2 ≤ x.1)))
      (fun x => hidx x.1 x.2.1 x.2.2) (hsize p) := by
  refine (packs_blocks
    (D := fun n (y : Int × Int) => (-n ≤ y.1 ∧ y.1 ≤ n) ∧ (-n ≤ y.2 ∧ y.2 ≤ n))
    (loc := fun n y => (y.1 - -n) * (n - -n + 1) + (y.2 - -n))
    (w := fun n => (n - -n + 1) * (n - -n + 1))
    (off := fun n => (n * (2 * n - 1) * (2 * n + 1)).tdiv 3)
    (fun n h => packs_prod (packs_interval (-n) n 0) (packs_interval (-n) n 0) (by omega))
    (fun n h => mul_nonneg (by omega) (by omega)) (by simp)
    (fun n h => ?_) p).congr (fun _ => Iff.rfl) ?_ ?_
  · have := hid_step n h
    rw [this]; ring
  · intro a _; simp only [hidx]; ring
  · simp only [hsize]; congr 1; ring

theorem packs_sidx (p : Nat) :
    Packs (fun x : (Int × Int) × Int =>
        ((0 ≤ x.1.1 ∧ x.1.1 ≤ (p : Int)) ∧ (0 ≤ x.1.2 ∧ x.1.2 ≤ x.1.1)) ∧
          (0 ≤ x.2 ∧ x.2 ≤ (p : Int)))
      (fun x => sidx x.1.1 x.1.2 x.2 p) (ssize p) := by
  obtain ⟨q, e⟩ := tri_exact (p + 1)
  push_cast at e
  have hm : msize p = q := tdiv_of_eq (by decide) (by rw [← e]; ring)
  have hq : 0 ≤ q := by
    have : (0 : Int) ≤ (p + 1) * (p + 1 + 1) := mul_nonneg (by omega) (by omega)
    omega
  refine (packs_prod (packs_midx p) (packs_interval 0 p 0) (by rw [hm]; exact hq)).congr
    (fun _ => Iff.rfl) ?_ ?_
  · intro a _; simp only [sidx]; ring
  · rw [hm]
    refine (tdiv_of_eq (by decide) ?_).symm
    have : ((p : Int) + 1) * (p + 1) * (p + 2) = (p + 1) * ((p + 1) * (p + 1 + 1)) := by ring
    rw [this, e]; ring

end Dashmm.Coeff
