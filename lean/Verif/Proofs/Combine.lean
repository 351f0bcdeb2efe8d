import Verif.Spec.Combine
import Mathlib.Data.List.Forall2
import Mathlib.Tactic.Ring
import Mathlib.Tactic.Linarith
import Mathlib.Data.Finite.Prod
import Mathlib.Tactic.Tauto
/-!
Lemmas about the files of test points.
-/
namespace Dashmm.Combine

variable {S P V F : Type}

/-! ### Reading and writing -/

theorem fread_enc {α : Type} (c : Codec α) (l : List α) (rest : List UInt8) :
    fread c l.length ((l.map c.enc).flatten ++ rest) = (l, rest) := by
  induction l with
  | nil => rfl
  | cons a l ih =>
    have hl := c.len a
    simp only [List.length_cons, fread, List.map_cons, List.flatten_cons, List.append_assoc]
    rw [if_neg (by simp [hl])]
    have h1 : (c.enc a ++ ((l.map c.enc).flatten ++ rest)).drop c.size = (l.map c.enc).flatten ++ rest := by
      rw [← hl, List.drop_left]
    have h2 : (c.enc a ++ ((l.map c.enc).flatten ++ rest)).take c.size = c.enc a := by
      rw [← hl, List.take_left]
    rw [h1, h2, ih, c.inv]

theorem fread_length {α : Type} (c : Codec α) : ∀ (n : ℕ) (bs : List UInt8),
    (fread c n bs).1.length ≤ n ∧
    ((fread c n bs).1.length = n → n * c.size ≤ bs.length ∧ (fread c n bs).2 = bs.drop (n * c.size)) := by
  intro n
  induction n with
  | zero => intro bs; simp [fread]
  | succ n ih =>
    intro bs
    unfold fread
    split_ifs with h
    · simp
    · have := ih (bs.drop c.size)
      simp only [List.length_cons, List.length_drop, List.drop_drop] at this ⊢
      refine ⟨by omega, fun he => ?_⟩
      obtain ⟨h1, h2⟩ := this.2 (by omega)
      refine ⟨?_, ?_⟩
      · rw [Nat.add_mul, Nat.one_mul]; omega
      · rw [h2, Nat.add_mul, Nat.one_mul, Nat.add_comm]

theorem fread_one {α : Type} (c : Codec α) (a : α) (rest : List UInt8) :
    fread c 1 (c.enc a ++ rest) = ([a], rest) := by
  have := fread_enc c [a] rest
  simpa using this

theorem flatten_enc_length {α : Type} (c : Codec α) (l : List α) :
    ((l.map c.enc).flatten).length = l.length * c.size := by
  induction l with
  | nil => simp
  | cons a l ih => simp [c.len, Nat.add_mul, ih]; ring

theorem readFile_write (L : Layout S P V F) (c : Combiner S P V F) (h : c.WF) (rest : List UInt8) :
    readFile L (some (write L c ++ rest)) = .ok c := by
  obtain ⟨h1, h2⟩ := h
  unfold readFile write
  simp only [List.append_assoc]
  rw [fread_one]
  have e1 : c.head.nSources.toInt.toNat = c.sources.length := by omega
  have e2 : c.head.nTargets.toInt.toNat = c.targets.length := by omega
  simp only [e1, e2]
  rw [if_neg (by omega), fread_enc]
  simp only [ne_eq, not_true_eq_false, if_false]
  rw [if_neg (by omega), fread_enc]
  simp

theorem readFile_ok {L : Layout S P V F} {bs : List UInt8} {c : Combiner S P V F} (h : readFile L (some bs) = .ok c) :
    c.WF ∧ c.head = L.header.dec (bs.take L.header.size) ∧
    L.header.size + c.sources.length * L.source.size + c.targets.length * L.target.size ≤ bs.length := by
  unfold readFile at h
  by_cases hsz : bs.length < L.header.size
  · simp [fread, hsz] at h
  · have e : fread L.header 1 bs = ([L.header.dec (bs.take L.header.size)], bs.drop L.header.size) := by
      simp [fread, hsz]
    simp only [e] at h
    generalize hh1 : L.header.dec (bs.take L.header.size) = head at h
    have hs := fread_length L.source head.nSources.toInt.toNat (bs.drop L.header.size)
    split_ifs at h with g1 g2 g3 g4
    have ht := fread_length L.target head.nTargets.toInt.toNat
      (fread L.source head.nSources.toInt.toNat (bs.drop L.header.size)).2
    injection h with h
    subst h
    have g2' := not_not.1 g2
    have g4' := not_not.1 g4
    obtain ⟨k1, k2⟩ := hs.2 g2'
    obtain ⟨k3, -⟩ := ht.2 g4'
    rw [k2] at k3
    simp only [List.length_drop] at k1 k3
    refine ⟨⟨?_, ?_⟩, rfl, ?_⟩
    · simp only [g2']; omega
    · simp only [g4']; omega
    · simp only [g2', g4']; omega

theorem write_length (L : Layout S P V F) (c : Combiner S P V F) : (write L c).length =
    L.header.size + c.sources.length * L.source.size + c.targets.length * L.target.size := by
  simp only [write, List.length_append, flatten_enc_length, L.header.len]

/-! ### Combining -/

theorem copyLoop_some (f : FileTarget P V → FileTarget P V → FileTarget P V) :
    ∀ ts os : List (FileTarget P V), ts.length = os.length →
      ((copyLoop (some f) ts os).2 = none ↔ ts.map (·.index) = os.map (·.index)) ∧
      ((copyLoop (some f) ts os).2 = none → (copyLoop (some f) ts os).1 = List.zipWith f ts os) ∧
      ((copyLoop (some f) ts os).2 ≠ none → (copyLoop (some f) ts os).2 = some .indexMismatch) := by
  intro ts
  induction ts with
  | nil => intro os h; cases os <;> simp_all [copyLoop]
  | cons t ts ih =>
    intro os h
    cases os with
    | nil => simp at h
    | cons o os =>
      have := ih os (by simpa using h)
      unfold copyLoop
      split_ifs with hi
      · simp only [List.map_cons, List.cons.injEq, hi, true_and, List.zipWith_cons_cons]
        exact ⟨this.1, fun h => this.2.1 h, this.2.2⟩
      · simp [hi]

theorem copyLoop_none (ts os : List (FileTarget P V)) (h : ts.length = os.length) :
    (copyLoop none ts os).1 = ts ∧ ((copyLoop none ts os).2 = none ↔ ts = []) := by
  cases ts with
  | nil => simp [copyLoop]
  | cons t ts =>
    cases os with
    | nil => simp at h
    | cons o os =>
      unfold copyLoop
      split_ifs <;> simp

theorem copyLoop_prefix (f : FileTarget P V → FileTarget P V → FileTarget P V) :
    ∀ (ts os : List (FileTarget P V)) (m : ℕ) (h1 : m < ts.length) (h2 : m < os.length),
      (∀ i (hi : i < m), (ts[i]'(by omega)).index = (os[i]'(by omega)).index) → ts[m].index ≠ os[m].index →
      copyLoop (some f) ts os = (List.zipWith f (ts.take m) (os.take m) ++ ts.drop m, some .indexMismatch) := by
  intro ts
  induction ts with
  | nil => intro os m h1; simp at h1
  | cons t ts ih =>
    intro os m h1 h2 hp hm
    cases os with
    | nil => simp at h2
    | cons o os =>
      cases m with
      | zero =>
        unfold copyLoop
        rw [if_neg (by simpa using hm)]
        simp
      | succ m =>
        have h0 := hp 0 (by omega)
        simp only [List.getElem_cons_zero] at h0
        have := ih os m (by simpa using h1) (by simpa using h2)
          (fun i hi => by simpa using hp (i + 1) (by omega)) (by simpa using hm)
        unfold copyLoop
        rw [if_pos h0]
        simp [this]

end Dashmm.Combine

/-! ### Saving -/

namespace Dashmm.Combine

variable {S P V F : Type}

theorem sorted_index {α : Type} (idx : α → ℤ) (l : List α)
    (h : (l.map idx).Perm ((List.range l.length).map fun (i : ℕ) => (i : ℤ))) :
    (l.mergeSort fun a b => idx a ≤ idx b).map idx = (List.range l.length).map fun (i : ℕ) => (i : ℤ) := by
  have hp := List.mergeSort_perm l (fun a b => decide (idx a ≤ idx b))
  have hs := List.pairwise_mergeSort (le := fun a b => decide (idx a ≤ idx b))
    (fun a b c h1 h2 => by simp at h1 h2 ⊢; exact h1.trans h2) (fun a b => by simp; exact le_total _ _) l
  refine List.Perm.eq_of_pairwise' (r := (· ≤ ·)) ?_ ?_ ((hp.map idx).trans h)
  · rw [List.pairwise_map]
    exact hs.imp fun h => by simpa using h
  · rw [List.pairwise_map]
    exact List.pairwise_le_range.imp fun h => by exact_mod_cast h

/-- `saver` for a named kernel. -/
def saverTotal (zero : V) (k : Kernel) (a : MadeTarget P V) : FileTarget P V :=
  (saver zero k a).getD ⟨a.position, zero, zero, zero, zero, a.index⟩

theorem mapM_saver (zero : V) {k : Kernel} (hk : k ≠ .other) (ts : List (MadeTarget P V)) :
    ts.mapM (saver zero k) = some (ts.map (saverTotal zero k)) := by
  induction ts with
  | nil => rfl
  | cons t ts ih =>
    have : saver zero k t = some (saverTotal zero k t) := by cases k <;> simp_all [saver, saverTotal]
    rw [List.mapM_cons, this, ih]
    rfl

end Dashmm.Combine

namespace Dashmm.Combine

/-- Every finite type has a codec (in unary). -/
theorem exists_codec (α : Type) [Finite α] [Nonempty α] : Nonempty (Codec α) := by
  obtain ⟨n, ⟨e⟩⟩ := Finite.exists_equiv_fin α
  let enc : α → List UInt8 := fun a => (0 : UInt8) :: List.ofFn fun i : Fin n => if i = e a then 1 else 0
  have hinj : Function.Injective enc := by
    intro a b h
    simp only [enc, List.cons.injEq, true_and] at h
    have h1 := congrFun (List.ofFn_injective h) (e a)
    simp only [if_true] at h1
    by_contra hne
    rw [if_neg fun hh => hne (e.injective hh)] at h1
    exact absurd h1 (by decide)
  exact ⟨n + 1, by omega, enc, Function.invFun enc, fun a => by simp [enc], fun a => Function.leftInverse_invFun hinj a⟩

instance : Finite Int32 :=
  Finite.of_injective (fun a : Int32 => a.toBitVec.toFin) fun a b h =>
    Int32.toBitVec_inj.1 (BitVec.toFin_inj.1 h)

instance {F : Type} [Finite F] : Finite (Header F) :=
  Finite.of_injective (fun h : Header F => (h.nSources, h.nTargets, h.refinementLimit, h.hasLaplace, h.hasYukawa,
    h.hasHelmholtz, h.yukawaParam, h.helmholtzParam)) fun a b h => by
      simp only [Prod.mk.injEq] at h
      ext1 <;> tauto

instance {P V : Type} [Finite P] [Finite V] : Finite (FileTarget P V) :=
  Finite.of_injective (fun h : FileTarget P V => (h.position, h.phi, h.phiLaplace, h.phiYukawa, h.phiHelmholtz, h.index))
    fun a b h => by
      simp only [Prod.mk.injEq] at h
      ext1 <;> tauto

/-- There are layouts for all finite types of records. -/
theorem exists_layout (S P V F : Type) [Finite S] [Nonempty S] [Finite P] [Nonempty P] [Finite V] [Nonempty V]
    [Finite F] [Nonempty F] : Nonempty (Layout S P V F) := by
  have hF : Nonempty (Header F) := ⟨⟨0, 0, 0, false, false, false, Classical.arbitrary F, Classical.arbitrary F⟩⟩
  have hT : Nonempty (FileTarget P V) := ⟨⟨Classical.arbitrary P, Classical.arbitrary V, Classical.arbitrary V,
    Classical.arbitrary V, Classical.arbitrary V, 0⟩⟩
  obtain ⟨a⟩ := exists_codec (Header F)
  obtain ⟨b⟩ := exists_codec S
  obtain ⟨c⟩ := exists_codec (FileTarget P V)
  exact ⟨⟨a, b, c⟩⟩

end Dashmm.Combine
