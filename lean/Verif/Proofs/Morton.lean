import Verif.Model.Hilbert
import Mathlib.Tactic.Ring
namespace Dashmm
namespace Hilbert

theorem stage_or (a b : BitVec 64) (c : Nat) (m : BitVec 64) :
    stage (a ||| b) c m = stage a c m ||| stage b c m := by
  unfold stage
  ext j hj
  simp only [BitVec.getElem_and, BitVec.getElem_or, BitVec.getElem_shiftLeft]
  generalize a[j] = a1
  generalize b[j] = b1
  generalize m[j] = m1
  generalize a[j - c] = a2
  generalize b[j - c] = b2
  generalize decide (j < c) = t
  revert a1 b1 m1 a2 b2 t
  decide

theorem split_or (a b : BitVec 32) : split (a ||| b) = split a ||| split b := by
  unfold split
  simp only
  have h : (a ||| b).setWidth 64 &&& 0x1fffff#64
      = (a.setWidth 64 &&& 0x1fffff#64) ||| (b.setWidth 64 &&& 0x1fffff#64) := by
    ext j hj
    simp only [BitVec.getElem_and, BitVec.getElem_or, BitVec.getElem_setWidth, BitVec.getLsbD_or]
    cases a.getLsbD j <;> cases b.getLsbD j <;> simp
  rw [h]
  simp only [stage_or]

theorem split_zero : split 0 = 0 := by decide +kernel

theorem split_pow : ∀ n : Fin 21, split (1#32 <<< n.val) = 1#64 <<< (3 * n.val) := by decide +kernel

/-- The value of the lowest `n` bits. -/
theorem split_low (k : BitVec 32) (n : Nat) (hn : n ≤ 21) (j : Nat) :
    (split (k &&& (BitVec.ofNat 32 (2 ^ n - 1)))).getLsbD j
      = (decide (j % 3 = 0) && decide (j / 3 < n) && k.getLsbD (j / 3)) := by
  induction n with
  | zero =>
    have : k &&& (BitVec.ofNat 32 (2 ^ 0 - 1)) = 0 := by simp
    rw [this, split_zero]
    simp
  | succ n ih =>
    have ih := ih (by omega)
    have hlow : ∀ (m i : Nat), (BitVec.ofNat 32 (2 ^ m - 1)).getLsbD i
        = (decide (i < 32) && decide (i < m)) := by
      intro m i
      rw [BitVec.getLsbD_ofNat, Nat.testBit_two_pow_sub_one]
    have hsplit : k &&& BitVec.ofNat 32 (2 ^ (n + 1) - 1)
        = (k &&& BitVec.ofNat 32 (2 ^ n - 1)) ||| (if k.getLsbD n then 1#32 <<< n else 0) := by
      apply BitVec.eq_of_getLsbD_eq
      intro i hi
      rw [BitVec.getLsbD_and, BitVec.getLsbD_or, BitVec.getLsbD_and, hlow, hlow]
      by_cases hin : i = n
      · subst hin
        cases hk : k.getLsbD i <;> simp [hi, hk]
      · have h1 : (if k.getLsbD n then 1#32 <<< n else 0).getLsbD i = false := by
          split
          · rw [BitVec.getLsbD_shiftLeft, BitVec.getLsbD_one]
            simp
            omega
          · simp
        rw [h1]
        have : (i < n + 1) ↔ i < n := by omega
        simp [this]
    rw [hsplit, split_or, BitVec.getLsbD_or, ih]
    have hone : (split (if k.getLsbD n then 1#32 <<< n else 0)).getLsbD j
        = (k.getLsbD n && decide (j = 3 * n)) := by
      split
      · rename_i h
        rw [split_pow ⟨n, by omega⟩, BitVec.getLsbD_shiftLeft, BitVec.getLsbD_one]
        simp [h]
        rw [Bool.eq_iff_iff]
        simp
        omega
      · rename_i h
        rw [split_zero]
        simp [h]
    rw [hone]
    by_cases h3 : j = 3 * n
    · subst h3
      have e1 : 3 * n % 3 = 0 := by omega
      have e2 : 3 * n / 3 = n := by omega
      simp [e1, e2]
    · have : (j / 3 < n + 1 ∧ j % 3 = 0) ↔ (j / 3 < n ∧ j % 3 = 0) := by omega
      by_cases h0 : j % 3 = 0
      · have : (j / 3 < n + 1) ↔ (j / 3 < n) := by omega
        simp [h0, h3, this]
      · simp [h0, h3]

theorem split_bit {k : BitVec 32} (hk : k.toNat < 2 ^ 21) (j : Nat) :
    (split k).getLsbD j = (decide (j % 3 = 0) && k.getLsbD (j / 3)) := by
  have he : k &&& BitVec.ofNat 32 (2 ^ 21 - 1) = k := by
    apply BitVec.eq_of_getLsbD_eq
    intro i hi
    rw [BitVec.getLsbD_and, BitVec.getLsbD_ofNat, Nat.testBit_two_pow_sub_one]
    by_cases h : i < 21
    · simp [hi, h]
    · have : k.getLsbD i = false := by
        rw [BitVec.getLsbD]
        exact Nat.testBit_lt_two_pow (lt_of_lt_of_le hk (Nat.pow_le_pow_right (by omega) (by omega)))
      simp [this]
  have h := split_low k 21 (le_refl _) j
  rw [he] at h
  rw [h]
  by_cases h21 : j / 3 < 21
  · simp [h21]
  · have : k.getLsbD (j / 3) = false := by
      rw [BitVec.getLsbD]
      exact Nat.testBit_lt_two_pow (lt_of_lt_of_le hk (Nat.pow_le_pow_right (by omega) (by omega)))
    simp [this]

theorem morton_bit {x y z : BitVec 32} (hx : x.toNat < 2 ^ 21) (hy : y.toNat < 2 ^ 21)
    (hz : z.toNat < 2 ^ 21) (i : Nat) (hi : i < 21) :
    (morton x y z).getLsbD (3 * i) = x.getLsbD i ∧
    (morton x y z).getLsbD (3 * i + 1) = y.getLsbD i ∧
    (morton x y z).getLsbD (3 * i + 2) = z.getLsbD i := by
  have hx' := split_bit hx
  have hy' := split_bit hy
  have hz' := split_bit hz
  have hsh : ∀ (v : BitVec 64) (c j : Nat), j < 64 →
      (v <<< c).getLsbD j = (decide (c ≤ j) && v.getLsbD (j - c)) := by
    intro v c j hj
    rw [BitVec.getLsbD_shiftLeft]
    by_cases hc : c ≤ j
    · have : ¬ j < c := by omega
      simp [hj, hc, this]
    · have : j < c := by omega
      simp [hc, this]
  simp only [morton, BitVec.zero_or, BitVec.getLsbD_or]
  refine ⟨?_, ?_, ?_⟩
  · rw [hsh _ _ _ (by omega), hsh _ _ _ (by omega), hx', hy', hz']
    have e1 : 3 * i % 3 = 0 := by omega
    have e2 : 3 * i / 3 = i := by omega
    have e3 : ¬ (1 ≤ 3 * i ∧ (3 * i - 1) % 3 = 0) := by omega
    have e4 : ¬ (2 ≤ 3 * i ∧ (3 * i - 2) % 3 = 0) := by omega
    rw [not_and] at e3 e4
    by_cases h1 : 1 ≤ 3 * i <;> by_cases h2 : 2 ≤ 3 * i <;> simp [e1, e2, h1, h2, e3, e4]
  · rw [hsh _ _ _ (by omega), hsh _ _ _ (by omega), hx', hy', hz']
    have e1 : ¬ (3 * i + 1) % 3 = 0 := by omega
    have e2 : (3 * i + 1 - 1) % 3 = 0 := by omega
    have e3 : (3 * i + 1 - 1) / 3 = i := by omega
    have e4 : ¬ (2 ≤ 3 * i + 1 ∧ (3 * i + 1 - 2) % 3 = 0) := by omega
    rw [not_and] at e4
    by_cases h2 : 2 ≤ 3 * i + 1
    · have e5 : ¬ (3 * i - 1) % 3 = 0 := by omega
      simp [e1, h2, e5]
    · simp [e1, h2]
  · rw [hsh _ _ _ (by omega), hsh _ _ _ (by omega), hx', hy', hz']
    have e1 : ¬ (3 * i + 2) % 3 = 0 := by omega
    have e2 : ¬ (3 * i + 2 - 1) % 3 = 0 := by omega
    simp [e1]

end Hilbert
end Dashmm
