import Verif.Spec.TraceZero
import Verif.Props.Trace

/-!
# C112: the time origin of a trace
-/

namespace Dashmm

namespace Trace

theorem scan_found {l m : List Wrk} {w : Wrk} {e : Evt} (hl : ∀ x ∈ l, ∃ y, x.events.head? = some y ∧ zeroref y = 2 ^ 64 - 1)
    (hw : w.events.head? = some e) (he : zeroref e ≠ 2 ^ 64 - 1) (z : Nat) : zeroScan (l ++ w :: m) z = some (zeroref e) := by
  induction l generalizing z with
  | nil => rw [List.nil_append, zeroScan, hw]; simp only; rw [if_pos he]
  | cons x l ih =>
    obtain ⟨y, h1, h2⟩ := hl x (by simp)
    rw [List.cons_append, zeroScan, h1]
    simp only
    rw [if_neg (by simp [h2])]
    exact ih (fun x hx => hl x (by simp [hx])) _

theorem scan_none {l : List Wrk} (hl : ∀ x ∈ l, ∃ y, x.events.head? = some y ∧ zeroref y = 2 ^ 64 - 1) (hne : l ≠ []) (z : Nat) :
    zeroScan l z = some (2 ^ 64 - 1) := by
  induction l generalizing z with
  | nil => exact absurd rfl hne
  | cons x l ih =>
    obtain ⟨y, h1, h2⟩ := hl x (by simp)
    rw [zeroScan, h1]
    simp only
    rw [if_neg (by simp [h2])]
    by_cases hl' : l = []
    · subst hl'; rw [zeroScan, h2]
    · exact ih (fun x hx => hl x (by simp [hx])) hl' _

theorem scan_some {l : List Wrk} (hl : ∀ x ∈ l, x.events ≠ []) (z : Nat) : (zeroScan l z).isSome := by
  induction l generalizing z with
  | nil => rfl
  | cons x l ih =>
    have h1 := hl x (by simp)
    rw [zeroScan]
    cases he : x.events with
    | nil => exact absurd he h1
    | cons e t =>
      simp only [List.head?_cons]
      split_ifs
      · rfl
      · exact ih (fun x hx => hl x (by simp [hx])) _

theorem inv_ne {fs : List TFile} (hne : NoEmptyFile fs) {S : St} (hI : Inv fs S) {w : Wrk} (hw : w ∈ S.ws) : w.events ≠ [] := by
  rw [hI.records w hw]
  obtain ⟨f, hf, e⟩ := (hI.keys (key w)).1 (List.mem_map_of_mem hw)
  exact records_ne hne hf e

theorem reset_some {fs : List TFile} (hne : NoEmptyFile fs) {S : St} (hI : Inv fs S) :
    resetZero S.ws = some (S.ws.map fun w => { w with events := resetWith ((zeroOf S.ws w.loc).getD 0) w.events }) := by
  unfold resetZero
  rw [if_pos]
  rw [List.all_eq_true]
  intro w hw
  exact scan_some (fun x hx => inv_ne hne hI (List.mem_filter.1 hx).1) 0

theorem origin_found {fs : List TFile} (hne : NoEmptyFile fs) {S : St} (hI : Inv fs S) {loc : Int} {z : Nat} (h : Origin fs loc z)
    (hz : z ≠ 2 ^ 64 - 1) : zeroOf S.ws loc = some z := by
  obtain ⟨wid, ⟨e, h1, h2, h3⟩, h4⟩ := h
  have hf : ∃ f ∈ fs, fkey f = (loc, wid) := by
    by_contra hcon
    have : recordsOf fs (loc, wid) = [] := recordsOf_none fun f hf e => hcon ⟨f, hf, e⟩
    rw [this] at h1; simp at h1
  obtain ⟨w, hw, hk⟩ := List.mem_map.1 ((hI.keys _).2 hf)
  have hwl : w.loc = loc ∧ w.wid = wid := by simpa [key] using hk
  have hmem : w ∈ S.ws.filter fun w => decide (w.loc = loc) := List.mem_filter.2 ⟨hw, by simpa using hwl.1⟩
  obtain ⟨l, m, hlm⟩ := List.append_of_mem hmem
  have h2' : e.tag = zeroTag := h2
  have hze : zeroref e = z := by rw [zeroref, if_pos h2', h3]
  have hwe : w.events.head? = some e := by rw [hI.records w hw, hk]; exact h1
  unfold zeroOf
  rw [hlm, scan_found (e := e) _ hwe (by rw [hze]; exact hz), hze]
  intro x hx
  have hxm : x ∈ S.ws.filter fun w => decide (w.loc = loc) := by rw [hlm]; simp [hx]
  obtain ⟨hx1, hx2⟩ := List.mem_filter.1 hxm
  have hxl : x.loc = loc := by simpa using hx2
  have hpw : (S.ws.filter fun w => decide (w.loc = loc)).Pairwise lt := hI.sorted.filter _
  rw [hlm] at hpw
  have hlt := (List.pairwise_append.1 hpw).2.2 x hx w (by simp)
  have hwid : x.wid < wid := by
    unfold lt before at hlt
    rw [hxl, hwl.1, hwl.2] at hlt
    simpa using hlt
  cases hxe : x.events with
  | nil => exact absurd hxe (inv_ne hne hI hx1)
  | cons y t =>
    refine ⟨y, rfl, ?_⟩
    have := h4 x.wid hwid y.stamp
    have hkx : key x = (loc, x.wid) := by simp [key, hxl]
    unfold zeroref
    rw [if_neg]
    intro htag
    refine this ⟨y, ?_, htag, rfl⟩
    rw [← hkx, ← hI.records x hx1, hxe]; rfl

theorem origin_none {fs : List TFile} (hne : NoEmptyFile fs) {S : St} (hI : Inv fs S) {loc : Int} (h : ∀ wid z, ¬ BeginsWithZero fs (loc, wid) z) :
    zeroOf S.ws loc = some (2 ^ 64 - 1) ∨ zeroOf S.ws loc = some 0 := by
  unfold zeroOf
  by_cases hl : (S.ws.filter fun w => decide (w.loc = loc)) = []
  · rw [hl]; right; rfl
  · left
    refine scan_none ?_ hl 0
    intro x hx
    obtain ⟨hx1, hx2⟩ := List.mem_filter.1 hx
    have hxl : x.loc = loc := by simpa using hx2
    cases hxe : x.events with
    | nil => exact absurd hxe (inv_ne hne hI hx1)
    | cons y t =>
      refine ⟨y, rfl, ?_⟩
      have hkx : key x = (loc, x.wid) := by simp [key, hxl]
      unfold zeroref
      rw [if_neg]
      intro htag
      refine h x.wid y.stamp ⟨y, ?_, htag, rfl⟩
      rw [← hkx, ← hI.records x hx1, hxe]; rfl

theorem readsZero_worker {fs : List TFile} (hne : NoEmptyFile fs) {S : St} (h : ReadsZero fs S) {w : Wrk} (hw : w ∈ S.ws) :
    ∃ S0, Inv fs S0 ∧ Sorted w.events ∧ w.events.Perm (resetWith ((zeroOf S0.ws w.loc).getD 0) (recordsOf fs (w.loc, w.wid))) := by
  obtain ⟨S0, ws, h0, h1, h2⟩ := h
  have hI : Inv fs S0 := by simpa using Inv.start.adds h0
  rw [reset_some hne hI] at h1
  cases h1
  unfold Finalizes at h2
  simp only [hI.open_, Bool.false_eq_true, if_false] at h2
  obtain ⟨w1, hw1, a, b, c, p, s⟩ := fin_mem h2.2.2.2.2 hw
  obtain ⟨w0, hw0, rfl⟩ := List.mem_map.1 hw1
  refine ⟨S0, hI, s, ?_⟩
  simp only at a b p
  have hr : recordsOf fs (w.loc, w.wid) = w0.events := by rw [a, b]; exact (hI.records w0 hw0).symm
  rw [hr, a]
  exact p

end Trace

open Trace

/-- Files that all have records can be read with an origin. -/
theorem C112_defined {fs : List TFile} (hne : NoEmptyFile fs) : ∃ S, ReadsZero fs S := by
  obtain ⟨S0, h0⟩ := adds_ok Inv.start fs
  have hI : Inv fs S0 := by simpa using Inv.start.adds h0
  refine ⟨⟨true, S0.counter, (S0.ws.map fun w => ({ w with events := resetWith ((zeroOf S0.ws w.loc).getD 0) w.events } : Wrk)).map
    fun w => ⟨w.loc, w.wid, w.gid, w.events.mergeSort fun a b => decide (a.stamp ≤ b.stamp)⟩⟩, S0, _, h0, reset_some hne hI, ?_⟩
  have hev : ∀ w ∈ (S0.ws.map fun w => ({ w with events := resetWith ((zeroOf S0.ws w.loc).getD 0) w.events } : Wrk)), w.events ≠ [] := by
    intro w hw
    obtain ⟨w0, hw0, rfl⟩ := List.mem_map.1 hw
    have := inv_ne hne hI hw0
    simp only [resetWith]
    split_ifs
    · simpa using this
    · exact this
  generalize (S0.ws.map fun w => ({ w with events := resetWith ((zeroOf S0.ws w.loc).getD 0) w.events } : Wrk)) = ws at hev
  have hmin : ∀ w ∈ ws, w.minNs.isSome := by
    intro w hw
    have := hev w hw
    unfold Wrk.minNs
    cases he : w.events with
    | nil => exact absurd he this
    | cons x l => rfl
  have hmax : ∀ w ∈ ws, w.maxNs.isSome := by
    intro w hw
    have := hev w hw
    unfold Wrk.maxNs
    rw [Option.isSome_map]
    cases he : w.events.getLast? with
    | none => exact absurd (List.getLast?_eq_none_iff.1 he) this
    | some x => rfl
  unfold Finalizes
  simp only [hI.open_, Bool.false_eq_true, if_false]
  have e1 : minNs ws = _ := fold_some (f := min) (g := Wrk.minNs) ws (2 ^ 64 - 1) hmin
  have e2 : maxNs ws = _ := fold_some (f := max) (g := Wrk.maxNs) ws 0 hmax
  refine ⟨by rw [e1]; rfl, by rw [e2]; rfl, trivial, trivial, ?_⟩
  rw [List.forall₂_map_right_iff]
  refine List.forall₂_same.2 ?_
  intro w _
  refine ⟨rfl, rfl, rfl, List.mergeSort_perm _ _, ?_⟩
  have := List.pairwise_mergeSort (le := fun a b : Evt => decide (a.stamp ≤ b.stamp)) (by simp; omega) (by simp; omega) w.events
  exact this.imp (by simp)

/-- What is wanted: all times of a locality are relative to the time of its origin. They are, if the record of the origin is the first that is read for
its worker, and no record of the locality is earlier: the records of the files are those of the trace, later by the time of the origin. -/
theorem C112_relative_partial {fs : List TFile} (hne : NoEmptyFile fs) {S : St} (h : ReadsZero fs S) {loc : Int} {z : Nat} (hz : Origin fs loc z)
    (hlow : ∀ wid, ∀ e ∈ recordsOf fs (loc, wid), z ≤ e.stamp ∧ e.stamp < 2 ^ 64 - 1) {w : Wrk} (hw : w ∈ S.ws) (hl : w.loc = loc) :
    Sorted w.events ∧ (w.events.map (later z)).Perm (recordsOf fs (loc, w.wid)) := by
  have hz1 : z ≠ 2 ^ 64 - 1 := by
    obtain ⟨wid, ⟨e, h1, _, h3⟩, _⟩ := hz
    have := (hlow wid e (List.mem_of_head? h1)).2
    omega
  obtain ⟨S0, hI, hs, hp⟩ := readsZero_worker hne h hw
  refine ⟨hs, ?_⟩
  rw [hl, origin_found hne hI hz hz1] at hp
  have h1 := hp.map (later z)
  refine h1.trans (List.Perm.of_eq ?_)
  simp only [Option.getD_some, resetWith]
  split_ifs with hc
  · rw [List.map_map]
    conv_rhs => rw [← List.map_id (recordsOf fs (loc, w.wid))]
    refine List.map_congr_left ?_
    intro e he
    obtain ⟨p, q⟩ := hlow w.wid e he
    obtain ⟨t, a, b, c, d⟩ := e
    simp only [Function.comp_apply, shift, later, id, Evt.mk.injEq, and_true]
    simp only at p q
    omega
  · have : z = 0 := by omega
    subst this
    have : later 0 = id := by funext e; rfl
    rw [this, List.map_id]

/-- The full statement is false: with a record earlier than the origin, that record becomes the later one of any two records of the locality of which the
other one is not earlier than the origin. -/
theorem C112_early_becomes_late {z : Nat} {e e' : Evt} (h1 : e.stamp < z) (h2 : z ≤ e'.stamp) (h3 : e'.stamp < 2 ^ 64) :
    (shift z e').stamp < (shift z e).stamp ∧ e.stamp < e'.stamp := by
  simp only [shift]; omega

/-- Nor if the record of the origin is not the first one that is read for its worker, as with another order of the files: then the times are not changed
at all. -/
theorem C112_not_first {fs : List TFile} (hne : NoEmptyFile fs) {S : St} (h : ReadsZero fs S) {loc : Int}
    (hno : ∀ wid z, ¬ BeginsWithZero fs (loc, wid) z) {w : Wrk} (hw : w ∈ S.ws) (hl : w.loc = loc) :
    Sorted w.events ∧ w.events.Perm (recordsOf fs (loc, w.wid)) := by
  obtain ⟨S0, hI, hs, hp⟩ := readsZero_worker hne h hw
  refine ⟨hs, ?_⟩
  rw [hl] at hp
  rcases origin_none hne hI hno with e | e <;> rw [e] at hp <;> simpa [resetWith] using hp

/-- Two files of one worker, the origin in the first: it is found. In the other order it is not. -/
theorem C112_order_matters : ∃ f g : TFile, Origin [f, g] 0 5 ∧ (∀ wid, ∀ e ∈ recordsOf [f, g] (0, wid), 5 ≤ e.stamp) ∧
    ∀ wid z, ¬ BeginsWithZero [g, f] (0, wid) z := by
  refine ⟨⟨0, 0, [⟨5, "dashmm zero ref", 0, false, false⟩]⟩, ⟨0, 0, [⟨7, "dashmm stot begin", 2, true, false⟩]⟩, ⟨0, ?_, ?_⟩, ?_, ?_⟩
  · exact ⟨_, rfl, rfl, rfl⟩
  · rintro wid hwid z ⟨e, he, _⟩
    have : ¬ (0 : Int) = wid := by omega
    simp [recordsOf, this] at he
  · intro wid e he
    by_cases hw : (0 : Int) = wid
    · subst hw
      simp [recordsOf] at he
      rcases he with rfl | rfl <;> simp
    · simp [recordsOf, hw] at he
  · rintro wid z ⟨e, he, ht, _⟩
    by_cases hw : (0 : Int) = wid
    · subst hw
      simp [recordsOf] at he
      subst he
      simp at ht
    · simp [recordsOf, hw] at he

/-! The origin at 5 and a record at 7, which is then at 2; a record at 3 would be far in the future. -/

example : shift 5 ⟨7, "x", 2, true, false⟩ = ⟨2, "x", 2, true, false⟩ := by decide

example : shift 5 ⟨3, "x", 2, true, false⟩ = ⟨18446744073709551614, "x", 2, true, false⟩ := by decide

end Dashmm
