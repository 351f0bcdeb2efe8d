import Verif.Proofs.Combine
/-!
Property C118: the files of test points and their combination.

Full statement: the program combines the exact potentials of its three input files into one file and
says that it did so only if it did. It is false of the code (the second file is not looked at, success
is claimed in any case); what holds of the operations is proved.
-/
namespace Dashmm

open Combine

variable {S P V F : Type}

/-- C118: a written file is read back exactly, also if something follows it in the file. -/
theorem C118_read_back (L : Layout S P V F) (c : Combiner S P V F) (h : c.WF) (rest : List UInt8) :
    readFile L (some (write L c ++ rest)) = .ok c := readFile_write L c h rest

/-- C118: a file cut off anywhere is refused. -/
theorem C118_cut_off (L : Layout S P V F) (c : Combiner S P V F) (h : c.WF) (n : ℕ) (hn : n < (write L c).length)
    (r : Combiner S P V F) : readFile L (some ((write L c).take n)) ≠ .ok r := by
  intro hr
  obtain ⟨hw, hh, hlen⟩ := readFile_ok hr
  have hhs : L.header.size ≤ n := by
    rw [List.length_take] at hlen
    omega
  have e : ((write L c).take n).take L.header.size = L.header.enc c.head := by
    rw [List.take_take, Nat.min_eq_left hhs]
    unfold write
    rw [List.append_assoc, ← L.header.len c.head, List.take_left]
  rw [e, L.header.inv] at hh
  have h1 : r.sources.length = c.sources.length := by
    have := hw.1; have := h.1; rw [hh] at *; omega
  have h2 : r.targets.length = c.targets.length := by
    have := hw.2; have := h.2; rw [hh] at *; omega
  rw [h1, h2, List.length_take, ← write_length] at hlen
  omega

/-- C118: what is read is consistent: the counts of the header are those of the records. -/
theorem C118_read_consistent {L : Layout S P V F} {file : Option (List UInt8)} {c : Combiner S P V F}
    (h : readFile L file = .ok c) : c.WF := by
  cases file with
  | none => cases h
  | some bs => exact (readFile_ok h).1

/-- Some kernel is the first of a file. -/
theorem first_exists (h : Header F) : ∃ k, h.first k := by
  cases h1 : h.hasLaplace with
  | true => exact ⟨.laplace, h1⟩
  | false =>
    cases h2 : h.hasYukawa with
    | true => exact ⟨.yukawa, h1, h2⟩
    | false =>
      cases h3 : h.hasHelmholtz with
      | true => exact ⟨.helmholtz, h1, h2, h3⟩
      | false => exact ⟨.other, h1, h2, h3⟩

private theorem combined_of (f : FileTarget P V → FileTarget P V → FileTarget P V) {k : Kernel}
    {a b r : Combiner S P V F} (hl : a.targets.length = b.targets.length)
    (hs : r.sources = a.sources) (hc : r.head.nSources = a.head.nSources ∧ r.head.nTargets = a.head.nTargets)
    (hr : r.head.refinementLimit = a.head.refinementLimit ∧ r.head.yukawaParam = a.head.yukawaParam ∧
      r.head.helmholtzParam = a.head.helmholtzParam)
    (hf : ∀ k', r.head.has k' = (a.head.has k' || (decide (k' = k) && b.head.has k')))
    (ht : r.targets = List.zipWith f a.targets b.targets)
    (hq : ∀ s t : FileTarget P V, (f s t).position = s.position ∧ (f s t).index = s.index ∧ (f s t).phi = s.phi ∧
      ∀ k' ≠ Kernel.other, (f s t).exact k' = if k' = k then t.exact k' else s.exact k') :
    Combined k a b r := by
  refine ⟨hs, hc, hr, hf, by simp [ht, hl], fun i h1 h2 h3 => ?_⟩
  have e : r.targets[i] = f a.targets[i] b.targets[i] := by simp [ht]
  rw [e]
  exact hq _ _

/-- C118: `Combine` succeeds exactly if the counts and the indices agree, the other file has data of some
kernel (or there are no targets), and this file has none of the kernel it takes; it takes exactly the
data of the first kernel of the other file, target by target, and changes nothing else. -/
theorem C118_combine {a b : Combiner S P V F} (ha : a.WF) (hb : b.WF) {k : Kernel} (hk : b.head.first k) :
    ((combine a b).2 = none ↔
      a.sources.length = b.sources.length ∧ a.targets.map (·.index) = b.targets.map (·.index) ∧
        a.head.has k = false ∧ (k = .other → a.targets = [])) ∧
    ((combine a b).2 = none → Combined k a b (combine a b).1) := by
  have hiff : (a.head.nSources ≠ b.head.nSources ∨ a.head.nTargets ≠ b.head.nTargets) ↔
      ¬ (a.sources.length = b.sources.length ∧ a.targets.length = b.targets.length) := by
    rw [ne_eq, ne_eq, ← Int32.toInt_inj, ← Int32.toInt_inj, ha.1, ha.2, hb.1, hb.2]
    omega
  have hlen : a.targets.map (·.index) = b.targets.map (·.index) → a.targets.length = b.targets.length := by
    intro h
    simpa using congrArg List.length h
  by_cases hc : a.sources.length = b.sources.length ∧ a.targets.length = b.targets.length
  · have hn := (not_congr hiff).2 (not_not.2 hc)
    cases k with
    | laplace =>
      have hk : b.head.hasLaplace = true := hk
      cases h : a.head.hasLaplace with
      | true => simp [combine, setup, hn, hk, h, Header.has]
      | false =>
        have := copyLoop_some (fun a b : FileTarget P V => { a with phiLaplace := b.phiLaplace }) a.targets b.targets hc.2
        simp only [combine, setup, hn, hk, h, Header.has, if_false, if_true, Bool.false_eq_true]
        refine ⟨by simp [this.1, hc.1], fun he => combined_of _ hc.2 rfl ⟨rfl, rfl⟩ ⟨rfl, rfl, rfl⟩ ?_ (this.2.1 he) ?_⟩
        · intro k'; cases k' <;> simp [Header.has, hk]
        · intro s t
          refine ⟨rfl, rfl, rfl, fun k' hk' => ?_⟩
          cases k' <;> simp_all [FileTarget.exact]
    | yukawa =>
      obtain ⟨hk1, hk⟩ : b.head.hasLaplace = false ∧ b.head.hasYukawa = true := hk
      cases h : a.head.hasYukawa with
      | true => simp [combine, setup, hn, hk, hk1, h, Header.has]
      | false =>
        have := copyLoop_some (fun a b : FileTarget P V => { a with phiYukawa := b.phiYukawa }) a.targets b.targets hc.2
        simp only [combine, setup, hn, hk, hk1, h, Header.has, if_false, if_true, Bool.false_eq_true]
        refine ⟨by simp [this.1, hc.1], fun he => combined_of _ hc.2 rfl ⟨rfl, rfl⟩ ⟨rfl, rfl, rfl⟩ ?_ (this.2.1 he) ?_⟩
        · intro k'; cases k' <;> simp [Header.has, hk]
        · intro s t
          refine ⟨rfl, rfl, rfl, fun k' hk' => ?_⟩
          cases k' <;> simp_all [FileTarget.exact]
    | helmholtz =>
      obtain ⟨hk1, hk2, hk⟩ : b.head.hasLaplace = false ∧ b.head.hasYukawa = false ∧ b.head.hasHelmholtz = true := hk
      cases h : a.head.hasHelmholtz with
      | true => simp [combine, setup, hn, hk, hk1, hk2, h, Header.has]
      | false =>
        have := copyLoop_some (fun a b : FileTarget P V => { a with phiHelmholtz := b.phiHelmholtz }) a.targets b.targets hc.2
        simp only [combine, setup, hn, hk, hk1, hk2, h, Header.has, if_false, if_true, Bool.false_eq_true]
        refine ⟨by simp [this.1, hc.1], fun he => combined_of _ hc.2 rfl ⟨rfl, rfl⟩ ⟨rfl, rfl, rfl⟩ ?_ (this.2.1 he) ?_⟩
        · intro k'; cases k' <;> simp [Header.has, hk]
        · intro s t
          refine ⟨rfl, rfl, rfl, fun k' hk' => ?_⟩
          cases k' <;> simp_all [FileTarget.exact]
    | other =>
      obtain ⟨hk1, hk2, hk⟩ : b.head.hasLaplace = false ∧ b.head.hasYukawa = false ∧ b.head.hasHelmholtz = false := hk
      have := copyLoop_none a.targets b.targets hc.2
      simp only [combine, setup, hn, hk, hk1, hk2, Header.has, if_false, Bool.false_eq_true]
      refine ⟨?_, fun he => ?_⟩
      · rw [this.2]
        refine ⟨fun h => ⟨hc.1, ?_, trivial, fun _ => h⟩, fun h => h.2.2.2 trivial⟩
        have h2 := hc.2
        rw [h] at h2 ⊢
        have h3 : b.targets = [] := List.length_eq_zero_iff.1 h2.symm
        rw [h3]
      · have h0 := this.2.1 he
        refine combined_of (fun s _ => s) hc.2 rfl ⟨rfl, rfl⟩ ⟨rfl, rfl, rfl⟩ ?_ ?_ ?_
        · intro k'; cases k' <;> simp [Header.has]
        · simp [h0, copyLoop]
        · intro s t
          refine ⟨rfl, rfl, rfl, fun k' hk' => ?_⟩
          simp [hk']
  · have hn := hiff.2 hc
    simp only [combine, setup, if_pos hn]
    refine ⟨⟨fun h => (by cases h), fun h => (hc ⟨h.1, hlen h.2.1⟩).elim⟩, fun h => (by cases h)⟩

/-- C118: when the files differ in an index, the exception leaves the object half changed: the new
kernel's flag is set, and all targets before the differing one have already been overwritten. (Laplace
data.) -/
theorem C118_half_done {a b : Combiner S P V F} (hS : a.head.nSources = b.head.nSources)
    (hT : a.head.nTargets = b.head.nTargets) (hb : b.head.hasLaplace = true) (ha : a.head.hasLaplace = false)
    {m : ℕ} (h1 : m < a.targets.length) (h2 : m < b.targets.length)
    (hp : ∀ i (hi : i < m), (a.targets[i]'(by omega)).index = (b.targets[i]'(by omega)).index)
    (hm : a.targets[m].index ≠ b.targets[m].index) :
    (combine a b).2 = some .indexMismatch ∧ (combine a b).1.head.hasLaplace = true ∧
    (combine a b).1.targets = List.zipWith (fun s t => { s with phiLaplace := t.phiLaplace })
      (a.targets.take m) (b.targets.take m) ++ a.targets.drop m := by
  have := copyLoop_prefix (fun a b : FileTarget P V => { a with phiLaplace := b.phiLaplace }) a.targets b.targets m
    h1 h2 hp hm
  simp [combine, setup, hS, hT, hb, ha, this]

/-- C118: combining with a file that has no data of any kernel calls an empty function as soon as there
is a target: the exception is not one that the program catches. -/
theorem C118_no_data {a b : Combiner S P V F} (hS : a.head.nSources = b.head.nSources)
    (hT : a.head.nTargets = b.head.nTargets) (hb : b.head.first .other)
    {t u : FileTarget P V} {ts us : List (FileTarget P V)} (ha : a.targets = t :: ts) (hu : b.targets = u :: us)
    (hi : t.index = u.index) : combine a b = (a, some .badFunction) := by
  obtain ⟨h1, h2, h3⟩ := hb
  simp [combine, setup, hS, hT, h1, h2, h3, ha, hu, copyLoop, hi]
  ext <;> simp [ha]

/-- C118: three consistent files with the same points, one for each kernel, give by two calls of `Combine`
an object with all potentials, each from its file. -/
theorem C118_three {a b c : Combiner S P V F} (ha : a.WF) (hb : b.WF) (hc : c.WF)
    (fa : ∀ k, a.head.has k = decide (k = .laplace)) (fb : ∀ k, b.head.has k = decide (k = .yukawa))
    (fc : ∀ k, c.head.has k = decide (k = .helmholtz))
    (hsb : a.sources.length = b.sources.length) (hsc : a.sources.length = c.sources.length)
    (hib : a.targets.map (·.index) = b.targets.map (·.index))
    (hic : a.targets.map (·.index) = c.targets.map (·.index)) :
    let ab := combine a b
    let abc := combine ab.1 c
    ab.2 = none ∧ abc.2 = none ∧ abc.1.hasAllPhis = true ∧ abc.1.sources = a.sources ∧
    abc.1.targets.length = a.targets.length ∧
    ∀ i (hr : i < abc.1.targets.length) (h1 : i < a.targets.length) (h2 : i < b.targets.length)
      (h3 : i < c.targets.length),
      abc.1.targets[i].phiLaplace = a.targets[i].phiLaplace ∧ abc.1.targets[i].phiYukawa = b.targets[i].phiYukawa ∧
      abc.1.targets[i].phiHelmholtz = c.targets[i].phiHelmholtz ∧ abc.1.targets[i].position = a.targets[i].position ∧
      abc.1.targets[i].index = a.targets[i].index := by
  intro ab abc
  have kb : b.head.first .yukawa := ⟨by have := fb .laplace; simpa [Header.has] using this,
    by have := fb .yukawa; simpa [Header.has] using this⟩
  have kc : c.head.first .helmholtz := ⟨by have := fc .laplace; simpa [Header.has] using this,
    by have := fc .yukawa; simpa [Header.has] using this, by have := fc .helmholtz; simpa [Header.has] using this⟩
  have C1 := C118_combine ha hb kb
  have e1 : ab.2 = none := C1.1.2 ⟨hsb, hib, by rw [fa]; rfl, by simp⟩
  have R1 := C1.2 e1
  have hbl : b.targets.length = a.targets.length := by simpa using (congrArg List.length hib).symm
  have hcl : c.targets.length = a.targets.length := by simpa using (congrArg List.length hic).symm
  have wab : (combine a b).1.WF := ⟨by rw [R1.counts.1, R1.sources, ha.1], by rw [R1.counts.2, R1.length, ha.2]⟩
  have hidx : (combine a b).1.targets.map (·.index) = a.targets.map (·.index) := by
    refine List.ext_getElem (by simp [R1.length]) fun i h1 h2 => ?_
    simp only [List.length_map] at h1 h2
    simp only [List.getElem_map]
    exact (R1.targets i h1 h2 (by omega)).2.1
  have C2 := C118_combine wab hc kc
  have e2 : abc.2 = none := C2.1.2 ⟨by rw [R1.sources]; exact hsc, by rw [hidx]; exact hic,
    by rw [R1.flags, fa]; rfl, by simp⟩
  have R2 := C2.2 e2
  have fl : ∀ k ≠ Kernel.other, abc.1.head.has k = true := by
    intro k hk
    rw [R2.flags, R1.flags, fa, fb, fc]
    cases k <;> simp_all
  refine ⟨e1, e2, ?_, by rw [R2.sources, R1.sources], by rw [R2.length, R1.length], ?_⟩
  · have x1 : abc.1.head.hasLaplace = true := fl .laplace (by simp)
    have x2 : abc.1.head.hasYukawa = true := fl .yukawa (by simp)
    have x3 : abc.1.head.hasHelmholtz = true := fl .helmholtz (by simp)
    simp [Combiner.hasAllPhis, x1, x2, x3]
  · intro i hr h1 h2 h3
    have hm : i < (combine a b).1.targets.length := by rw [R1.length]; exact h1
    obtain ⟨p2, i2, -, q2⟩ := R2.targets i hr hm h3
    obtain ⟨p1, i1, -, q1⟩ := R1.targets i hm h1 h2
    refine ⟨?_, ?_, ?_, p2.trans p1, i2.trans i1⟩
    · exact (q2 .laplace (by simp)).trans (q1 .laplace (by simp))
    · exact (q2 .yukawa (by simp)).trans (q1 .yukawa (by simp))
    · exact q2 .helmholtz (by simp)

/-- C118: of a file with data of several kernels only the first is taken: here the Yukawa data and flag
are as before. -/
theorem C118_only_first {a b : Combiner S P V F} (ha : a.WF) (hb : b.WF) (h1 : b.head.hasLaplace = true)
    (h : (combine a b).2 = none) :
    (combine a b).1.head.hasYukawa = a.head.hasYukawa ∧
    ∀ i (hr : i < (combine a b).1.targets.length) (hi : i < a.targets.length),
      (combine a b).1.targets[i].phiYukawa = a.targets[i].phiYukawa := by
  have C := C118_combine ha hb (k := .laplace) h1
  have R := C.2 h
  have hl : a.targets.length = b.targets.length := by
    simpa using congrArg List.length (C.1.1 h).2.1
  refine ⟨?_, fun i hr hi => ?_⟩
  · have := R.flags .yukawa
    simpa [Header.has] using this
  · exact (R.targets i hr hi (by omega)).2.2.2 .yukawa (by simp)

/-- C118: the program never looks at its second file: what it writes and how it ends does not depend on
it, and the combination of two files with data of one kernel each is never complete. -/
theorem C118_second_file_ignored (L : Layout S P V F) (f1 f2 f2' f3 : Option (List UInt8)) (outOk : Bool) :
    mainRun L f1 f2 f3 outOk = mainRun L f1 f2' f3 outOk ∧
    ∀ {c1 c3 : Combiner S P V F} {k1 k3 : Kernel}, readFile L f1 = .ok c1 → readFile L f3 = .ok c3 →
      (∀ k, c1.head.has k = decide (k = k1)) → (∀ k, c3.head.has k = decide (k = k3)) →
      ∀ out, (mainRun L f1 f2 f3 outOk).1 = some out →
        ∃ c, readFile L (some out) = .ok c ∧ c.hasAllPhis = false := by
  refine ⟨rfl, fun {c1 c3 k1 k3} h1 h3 g1 g3 out ho => ?_⟩
  have w1 := C118_read_consistent h1
  have w3 := C118_read_consistent h3
  obtain ⟨k, hk⟩ := first_exists c3.head
  have C := C118_combine w1 w3 hk
  simp only [mainRun, h1, h3] at ho
  split at ho
  · cases ho
  · cases ho
  · rename_i c hc
    have e : (combine c1 c3).2 = none := by rw [hc]
    have R := C.2 e
    rw [hc] at R
    have wc : c.WF := ⟨by rw [R.counts.1, R.sources, w1.1], by rw [R.counts.2, R.length, w1.2]⟩
    split_ifs at ho
    injection ho with ho
    refine ⟨c, ?_, ?_⟩
    · rw [← ho]
      have := C118_read_back L c wc []
      rwa [List.append_nil] at this
    · have e1 := R.flags .laplace
      have e2 := R.flags .yukawa
      have e3 := R.flags .helmholtz
      rw [g1, g3] at e1 e2 e3
      simp only [Header.has] at e1 e2 e3
      simp only [Combiner.hasAllPhis, e1, e2, e3]
      cases k1 <;> cases k3 <;> simp

/-- C118: the program claims success and returns zero whenever it returns, also when the files do not
exist. -/
theorem C118_always_success (L : Layout S P V F) (f1 f2 f3 : Option (List UInt8)) (outOk : Bool) :
    ((mainRun L f1 f2 f3 outOk).2 = .terminated ∨ ∃ b, (mainRun L f1 f2 f3 outOk).2 = .returned 0 b true) ∧
    mainRun L none f2 f3 outOk = (none, .returned 0 true true) := by
  refine ⟨?_, rfl⟩
  unfold mainRun
  split
  · exact .inl rfl
  · split
    · exact .inl rfl
    · split
      · exact .inl rfl
      · exact .inr ⟨_, rfl⟩
      · split
        · exact .inr ⟨_, rfl⟩
        · exact .inr ⟨_, rfl⟩
    · exact .inr ⟨_, rfl⟩
  · exact .inr ⟨_, rfl⟩

/-- C118: when the program complains about nothing, the output has the first kernel of the third file
combined into the first file. -/
theorem C118_main_partial (L : Layout S P V F) (f1 f2 f3 : Option (List UInt8)) (outOk : Bool)
    (h : (mainRun L f1 f2 f3 outOk).2 = .returned 0 false true) :
    ∃ c1 c3 c k out, readFile L f1 = .ok c1 ∧ readFile L f3 = .ok c3 ∧ c3.head.first k ∧
      Combined k c1 c3 c ∧ (mainRun L f1 f2 f3 outOk).1 = some out ∧ readFile L (some out) = .ok c := by
  unfold mainRun at h ⊢
  cases h1 : readFile L f1 with
  | ok c1 =>
    cases h3 : readFile L f3 with
    | ok c3 =>
      simp only [h1, h3] at h ⊢
      obtain ⟨k, hk⟩ := first_exists c3.head
      have w1 := C118_read_consistent h1
      have C := C118_combine w1 (C118_read_consistent h3) hk
      rcases hc : combine c1 c3 with ⟨c, e⟩
      rw [hc] at C
      cases e with
      | some e => rw [hc] at h; cases e <;> simp at h
      | none =>
        have R := C.2 rfl
        have wc : c.WF := ⟨by rw [R.counts.1, R.sources, w1.1], by rw [R.counts.2, R.length, w1.2]⟩
        cases outOk with
        | false => simp [hc] at h
        | true =>
          have := C118_read_back L c wc []
          rw [List.append_nil] at this
          exact ⟨c1, c3, c, k, write L c, rfl, rfl, hk, R, by simp, this⟩
    | _ => simp [h1, h3] at h
  | _ => simp [h1] at h

/-- C118: makepoints, for each of the three kernels and points numbered from zero in any order, saves a
file that reads back with that kernel's flag alone, and where target `i` has index `i`, its position
and its potential as the exact potential of the kernel. -/
theorem C118_saved (L : Layout S P V F) (idx : S → Int32) (zero : V) (limit : Int32) (yuk helm : F) {k : Kernel}
    (hk : k ≠ .other) (ss : List S) (ts : List (MadeTarget P V)) (hn : ss.length = ts.length)
    (hsmall : ts.length < 2 ^ 31)
    (ht : (ts.map (·.index.toInt)).Perm ((List.range ts.length).map fun (i : ℕ) => (i : ℤ))) :
    ∃ out c, saveFile L idx zero limit yuk helm k ss ts = some out ∧ readFile L (some out) = .ok c ∧
      (∀ k', c.head.has k' = decide (k' = k)) ∧ c.sources.Perm ss ∧
      c.targets.map (·.index.toInt) = (List.range ts.length).map (fun (i : ℕ) => (i : ℤ)) ∧
      ∀ t ∈ ts, ∃ u ∈ c.targets, u.index = t.index ∧ u.position = t.position ∧ u.exact k = t.phi := by
  set ss' := ss.mergeSort fun a b => (idx a).toInt ≤ (idx b).toInt with hss
  set ts' := ts.mergeSort fun a b => a.index.toInt ≤ b.index.toInt with hts
  have ps : ss'.Perm ss := List.mergeSort_perm _ _
  have pt : ts'.Perm ts := List.mergeSort_perm _ _
  have ls : ss'.length = ss.length := ps.length_eq
  have lt : ts'.length = ts.length := pt.length_eq
  let c : Combiner S P V F := ⟨savedHeader (.ofNat ss'.length) (.ofNat ts'.length) limit yuk helm k, ss', ts'.map (saverTotal zero k)⟩
  have wc : c.WF := by
    refine ⟨?_, ?_⟩
    · simp only [c, savedHeader]
      exact Int32.toInt_ofNat_of_lt (by omega)
    · simp only [c, savedHeader, List.length_map]
      exact Int32.toInt_ofNat_of_lt (by omega)
  have htake : ts'.take ss'.length = ts' := List.take_of_length_le (by omega)
  refine ⟨write L c, c, ?_, ?_, ?_, ps, ?_, ?_⟩
  · simp only [saveFile, savedTargets, ← hss, ← hts]
    rw [htake, mapM_saver zero hk]
    rfl
  · have := C118_read_back L c wc []
    rwa [List.append_nil] at this
  · intro k'
    cases k' <;> cases k <;> simp_all [c, savedHeader, Header.has]
  · have := sorted_index (fun t : MadeTarget P V => t.index.toInt) ts ht
    rw [← this]
    simp only [c, List.map_map]
    refine List.map_congr_left fun t _ => ?_
    cases k <;> simp_all [saverTotal, saver]
  · intro t h
    refine ⟨saverTotal zero k t, List.mem_map_of_mem (pt.mem_iff.2 h), ?_⟩
    cases k <;> simp_all [saverTotal, saver, FileTarget.exact]

/-- C118: an unknown kernel name is accepted by makepoints and ends it with an exception when the first
target is to be saved. -/
theorem C118_unknown_kernel (L : Layout S P V F) (idx : S → Int32) (zero : V) (limit : Int32) (yuk helm : F)
    (ss : List S) (ts : List (MadeTarget P V)) (hs : ss ≠ []) (ht : ts ≠ []) :
    saveFile L idx zero limit yuk helm .other ss ts = none := by
  have ls : 0 < (ss.mergeSort fun a b => (idx a).toInt ≤ (idx b).toInt).length := by
    rw [(List.mergeSort_perm _ _).length_eq]; exact List.length_pos_iff.2 hs
  have lt : 0 < (ts.mergeSort fun a b => a.index.toInt ≤ b.index.toInt).length := by
    rw [(List.mergeSort_perm _ _).length_eq]; exact List.length_pos_iff.2 ht
  unfold saveFile savedTargets
  simp only [Option.map_eq_none_iff]
  generalize (ss.mergeSort fun a b => (idx a).toInt ≤ (idx b).toInt) = ss' at ls ⊢
  generalize (ts.mergeSort fun a b => a.index.toInt ≤ b.index.toInt) = ts' at lt ⊢
  cases ts' with
  | nil => simp at lt
  | cons t ts' =>
    obtain ⟨n, hn⟩ : ∃ n, ss'.length = n + 1 := ⟨ss'.length - 1, by omega⟩
    rw [hn, List.take_succ_cons, List.mapM_cons]
    rfl

/-! Non-vacuity. -/

/-- Target records of two files with one target. -/
private def exT (l y : ℕ) : FileTarget ℕ ℕ := ⟨7, 0, l, y, 0, 3⟩
private def exA : Combiner ℕ ℕ ℕ ℕ := ⟨⟨1, 1, 40, true, false, false, 0, 0⟩, [5], [exT 11 0]⟩
private def exB : Combiner ℕ ℕ ℕ ℕ := ⟨⟨1, 1, 40, false, true, false, 0, 0⟩, [5], [exT 0 22]⟩

example : exA.WF ∧ exB.WF ∧ exB.head.first .yukawa ∧ combine exA exB =
    (⟨⟨1, 1, 40, true, true, false, 0, 0⟩, [5], [exT 11 22]⟩, none) := by
  refine ⟨⟨rfl, rfl⟩, ⟨rfl, rfl⟩, ⟨rfl, rfl⟩, rfl⟩

/-- Two files that agree in the first index and differ in the second, as `C118_half_done` needs. -/
example : (combine (⟨⟨0, 2, 40, false, false, false, 0, 0⟩, [], [exT 1 0, exT 1 0]⟩ : Combiner ℕ ℕ ℕ ℕ)
    ⟨⟨0, 2, 40, true, false, false, 0, 0⟩, [], [exT 9 0, { exT 9 0 with index := 4 }]⟩) =
    (⟨⟨0, 2, 40, true, false, false, 0, 0⟩, [], [exT 9 0, exT 1 0]⟩, some .indexMismatch) := rfl

/-- Files can be laid out, so `exA` and `exB` can be written, read back, and combined by the program. -/
example : ∃ L : Layout (Fin 256) (Fin 256) (Fin 256) (Fin 256), ∃ c : Combiner (Fin 256) (Fin 256) (Fin 256) (Fin 256),
    c.WF ∧ c.targets ≠ [] ∧ readFile L (some (write L c)) = .ok c := by
  obtain ⟨L⟩ := exists_layout (Fin 256) (Fin 256) (Fin 256) (Fin 256)
  refine ⟨L, ⟨⟨1, 1, 40, true, false, false, 0, 0⟩, [5], [⟨7, 0, 11, 0, 0, 3⟩]⟩, ⟨rfl, rfl⟩, by simp, ?_⟩
  have := C118_read_back L ⟨⟨1, 1, 40, true, false, false, 0, 0⟩, [5], [⟨7, 0, 11, 0, 0, 3⟩]⟩ ⟨rfl, rfl⟩ []
  rwa [List.append_nil] at this

/-- Points numbered from zero in another order, as `C118_saved` needs. -/
example : ((([⟨7, 9, 1⟩, ⟨8, 9, 0⟩] : List (MadeTarget ℕ ℕ)).map (·.index.toInt)).Perm
    ((List.range 2).map fun (i : ℕ) => (i : ℤ))) := by decide

end Dashmm
