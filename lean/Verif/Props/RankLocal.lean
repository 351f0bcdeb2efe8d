import Verif.Spec.RankLocal
import Mathlib.Tactic.SplitIfs
import Mathlib.Data.List.Basic
import Mathlib.Data.Nat.Basic
import Mathlib.Order.Nat

/-!
# C109: the objects that give access to the data of the ranks
-/

namespace Dashmm

namespace RankLocal

variable {V : Type}

/-- What an object holds. -/
def held (o : Obj) : List Res :=
  match o.ptr with
  | none => []
  | some (.mem a) => [.pin a]
  | some (.copy b) => [.buf b]

/-- How often the objects hold `r`. -/
def owned (r : Res) : List (Nat × Obj) → Nat
  | [] => 0
  | (_, o) :: l => (held o).count r + owned r l

/-- The members of an object fit together. -/
def Good (me : Nat) (o : Obj) : Prop :=
  (o.ptr = none ∧ o.glob = none) ∨ (∃ a, o.ptr = some (.mem a) ∧ o.glob = some a ∧ o.remote = false ∧ a.rank = me) ∨
    ∃ b a, o.ptr = some (.copy b) ∧ o.glob = some a ∧ o.remote = true

structure Inv (me : Nat) (S : State V) : Prop where
  good : ∀ x ∈ S.objs, Good me x.2
  le : ∀ r, owned r S.objs ≤ S.live.count r
  fresh : ∀ b, S.live.count (.buf b) ≤ 1 ∧ (.buf b ∈ S.live → b < S.next)

theorem find_mem {l : List (Nat × Obj)} {v : Nat} {o : Obj} (h : find l v = some o) : (v, o) ∈ l := by
  induction l with
  | nil => cases h
  | cons x l ih =>
    obtain ⟨k, x⟩ := x
    rw [find] at h
    split_ifs at h with hk
    · subst hk; cases h; exact List.mem_cons_self ..
    · exact List.mem_cons_of_mem _ (ih h)

theorem find_owned {l : List (Nat × Obj)} {v : Nat} {o : Obj} (h : find l v = some o) (r : Res) : (held o).count r ≤ owned r l := by
  induction l with
  | nil => cases h
  | cons x l ih =>
    obtain ⟨k, x⟩ := x
    rw [find] at h
    rw [owned]
    split_ifs at h with hk
    · cases h; omega
    · have := ih h; omega

theorem owned_put {l : List (Nat × Obj)} {v : Nat} {o : Obj} (h : find l v = some o) (o' : Obj) (r : Res) :
    owned r (put l v o') + (held o).count r = owned r l + (held o').count r := by
  induction l with
  | nil => cases h
  | cons x l ih =>
    obtain ⟨k, x⟩ := x
    rw [find] at h
    rw [put]
    split_ifs at h with hk
    · cases h; rw [if_pos hk, owned, owned]; omega
    · rw [if_neg hk, owned, owned]; have := ih h; omega

theorem owned_del {l : List (Nat × Obj)} {v : Nat} {o : Obj} (h : find l v = some o) (r : Res) :
    owned r (del l v) + (held o).count r = owned r l := by
  induction l with
  | nil => cases h
  | cons x l ih =>
    obtain ⟨k, x⟩ := x
    rw [find] at h
    rw [del]
    split_ifs at h with hk
    · cases h; rw [if_pos hk, owned]; omega
    · rw [if_neg hk, owned, owned]; have := ih h; omega

theorem mem_put {l : List (Nat × Obj)} {v : Nat} {o' : Obj} {x : Nat × Obj} (h : x ∈ put l v o') : x ∈ l ∨ x.2 = o' := by
  induction l with
  | nil => cases h
  | cons y l ih =>
    obtain ⟨k, y⟩ := y
    rw [put] at h
    split_ifs at h
    · rcases List.mem_cons.1 h with rfl | h
      · exact .inr rfl
      · exact .inl (List.mem_cons_of_mem _ h)
    · rcases List.mem_cons.1 h with rfl | h
      · exact .inl (List.mem_cons_self ..)
      · rcases ih h with h | h
        · exact .inl (List.mem_cons_of_mem _ h)
        · exact .inr h

theorem mem_del {l : List (Nat × Obj)} {v : Nat} {x : Nat × Obj} (h : x ∈ del l v) : x ∈ l := by
  induction l with
  | nil => cases h
  | cons y l ih =>
    obtain ⟨k, y⟩ := y
    rw [del] at h
    split_ifs at h
    · exact List.mem_cons_of_mem _ h
    · rcases List.mem_cons.1 h with rfl | h
      · exact List.mem_cons_self ..
      · exact List.mem_cons_of_mem _ (ih h)

theorem find_put_self {l : List (Nat × Obj)} {v : Nat} {o : Obj} (h : find l v = some o) (o' : Obj) : find (put l v o') v = some o' := by
  induction l with
  | nil => cases h
  | cons y l ih =>
    obtain ⟨k, y⟩ := y
    rw [find] at h
    rw [put]
    split_ifs at h with hk
    · rw [if_pos hk, find, if_pos hk]
    · rw [if_neg hk, find, if_neg hk]; exact ih h

theorem find_put_ne {l : List (Nat × Obj)} {v w : Nat} (hn : w ≠ v) (o' : Obj) : find (put l v o') w = find l w := by
  induction l with
  | nil => rfl
  | cons y l ih =>
    obtain ⟨k, y⟩ := y
    rw [put]
    split_ifs with hk
    · rw [find, find, if_neg (fun h => hn (h.symm.trans hk)), if_neg (fun h => hn (h.symm.trans hk))]
    · rw [find, find, ih]

theorem find_del_ne {l : List (Nat × Obj)} {v w : Nat} (hn : w ≠ v) : find (del l v) w = find l w := by
  induction l with
  | nil => rfl
  | cons y l ih =>
    obtain ⟨k, y⟩ := y
    rw [del]
    split_ifs with hk
    · rw [find, if_neg (fun h => hn (h.symm.trans hk))]
    · rw [find, find, ih]

theorem held_empty (r : Res) : (held .empty).count r = 0 := rfl

theorem good_empty (me : Nat) : Good me .empty := .inl ⟨rfl, rfl⟩

/-- The destructor finds what it gives back. -/
theorem release_ok {me : Nat} {o : Obj} (hg : Good me o) {live : List Res} (h : ∀ r, (held o).count r ≤ live.count r) :
    ∃ l, release live o = some l ∧ (∀ r, l.count r + (held o).count r = live.count r) ∧ ∀ r ∈ l, r ∈ live := by
  have key : ∀ r, (held o) = [r] → ∃ l, giveBack live r = some l ∧ (∀ q, l.count q + (held o).count q = live.count q) ∧
      ∀ q ∈ l, q ∈ live := by
    intro r hr
    have hm : r ∈ live := by
      have := h r
      rw [hr, List.count_singleton_self] at this
      exact List.count_pos_iff.1 this
    refine ⟨live.erase r, by rw [giveBack, if_pos hm], fun q => ?_, fun q hq => List.mem_of_mem_erase hq⟩
    rw [hr]
    by_cases hq : q = r
    · subst hq
      rw [List.count_erase_self, List.count_singleton_self]
      have := List.count_pos_iff.2 hm
      omega
    · rw [List.count_erase_of_ne hq, List.count_singleton, if_neg (by simpa using Ne.symm hq)]; rfl
  obtain ⟨p, g, rm⟩ := o
  rcases hg with ⟨hp, hg⟩ | ⟨a, hp, hg, hr, _⟩ | ⟨b, a, hp, hg, hr⟩
  · cases hp
    exact ⟨live, rfl, fun r => rfl, fun r hr => hr⟩
  · cases hp; cases hg; cases hr
    exact key (.pin a) rfl
  · cases hp; cases hg; cases hr
    exact key (.buf b) rfl

/-- How much more is acquired than held. -/
def excess (S : State V) (r : Res) : Nat := S.live.count r - owned r S.objs

/-- One step with the right names. -/
theorem step_ok {me : Nat} {S : State V} (hI : Inv me S) {c : Cmd V} (hc : NamesRight S c) :
    ∃ S', step me S c = some S' ∧ Inv me S' ∧ (∀ r, excess S r ≤ excess S' r) ∧ (CarefulStep S c → ∀ r, excess S' r = excess S r) := by
  cases c with
  | make v g nomem =>
    have hv : (find S.objs v).isSome = false := by simpa [NamesRight, exists_] using hc
    have hs : step me S (.make v g nomem) =
        some { (construct me nomem S g).2 with objs := (v, (construct me nomem S g).1) :: (construct me nomem S g).2.objs } := by
      rw [step, hv]; rfl
    cases g with
    | none =>
      have e : ∀ r, owned r ((v, (⟨none, none, false⟩ : Obj)) :: S.objs) = owned r S.objs := fun r => by
        rw [owned, show held ⟨none, none, false⟩ = [] from rfl, List.count_nil]; omega
      refine ⟨_, hs, ⟨fun x hx => ?_, fun r => ?_, hI.fresh⟩, fun r => ?_, fun _ r => ?_⟩
      · rcases List.mem_cons.1 hx with rfl | hx
        · exact .inl ⟨rfl, rfl⟩
        · exact hI.good x hx
      · show owned r ((v, (⟨none, none, false⟩ : Obj)) :: S.objs) ≤ _
        rw [e]; exact hI.le r
      · show _ ≤ S.live.count r - owned r ((v, (⟨none, none, false⟩ : Obj)) :: S.objs)
        rw [e]; exact Nat.le_refl _
      · show S.live.count r - owned r ((v, (⟨none, none, false⟩ : Obj)) :: S.objs) = _
        rw [e]; rfl
    | some a =>
      by_cases hr : a.rank = me
      · have hcon : construct me nomem S (some a) = (⟨some (.mem a), some a, false⟩, { S with live := .pin a :: S.live }) := by
          rw [construct, if_pos hr]
        rw [hcon] at hs
        have e : ∀ r, owned r ((v, (⟨some (.mem a), some a, false⟩ : Obj)) :: S.objs) = owned r S.objs + ([Res.pin a]).count r := fun r => by
          rw [owned, show held ⟨some (.mem a), some a, false⟩ = [Res.pin a] from rfl]; omega
        have e2 : ∀ r, (Res.pin a :: S.live).count r = S.live.count r + ([Res.pin a]).count r := fun r => by
          rw [← List.singleton_append, List.count_append]; omega
        refine ⟨_, hs, ⟨fun x hx => ?_, fun r => ?_, fun b => ?_⟩, fun r => ?_, fun _ r => ?_⟩
        · rcases List.mem_cons.1 hx with rfl | hx
          · exact .inr (.inl ⟨a, rfl, rfl, rfl, hr⟩)
          · exact hI.good x hx
        · show owned r ((v, (⟨some (.mem a), some a, false⟩ : Obj)) :: S.objs) ≤ (Res.pin a :: S.live).count r
          rw [e, e2]; have := hI.le r; omega
        · refine ⟨?_, fun hb => ?_⟩
          · show (Res.pin a :: S.live).count (.buf b) ≤ 1
            rw [e2]; exact (hI.fresh b).1
          · rcases List.mem_cons.1 hb with hb | hb
            · cases hb
            · exact (hI.fresh b).2 hb
        · show _ ≤ (Res.pin a :: S.live).count r - owned r ((v, (⟨some (.mem a), some a, false⟩ : Obj)) :: S.objs)
          rw [e, e2, excess]; omega
        · show (Res.pin a :: S.live).count r - owned r ((v, (⟨some (.mem a), some a, false⟩ : Obj)) :: S.objs) = _
          rw [e, e2, excess]; omega
      · cases nomem with
        | true =>
          have hcon : construct me true S (some a) = (⟨none, none, false⟩, S) := by
            rw [construct, if_neg hr]; rfl
          rw [hcon] at hs
          have e : ∀ r, owned r ((v, (⟨none, none, false⟩ : Obj)) :: S.objs) = owned r S.objs := fun r => by
            rw [owned, show held ⟨none, none, false⟩ = [] from rfl, List.count_nil]; omega
          refine ⟨_, hs, ⟨fun x hx => ?_, fun r => ?_, hI.fresh⟩, fun r => ?_, fun _ r => ?_⟩
          · rcases List.mem_cons.1 hx with rfl | hx
            · exact .inl ⟨rfl, rfl⟩
            · exact hI.good x hx
          · show owned r ((v, (⟨none, none, false⟩ : Obj)) :: S.objs) ≤ _
            rw [e]; exact hI.le r
          · show _ ≤ S.live.count r - owned r ((v, (⟨none, none, false⟩ : Obj)) :: S.objs)
            rw [e]; exact Nat.le_refl _
          · show S.live.count r - owned r ((v, (⟨none, none, false⟩ : Obj)) :: S.objs) = _
            rw [e]; rfl
        | false =>
          have hcon : construct me false S (some a) = (⟨some (.copy S.next), some a, true⟩, { S with
              copies := fun b => if b = S.next then S.mem a else S.copies b, live := .buf S.next :: S.live, next := S.next + 1 }) := by
            rw [construct, if_neg hr]; rfl
          rw [hcon] at hs
          have e : ∀ r, owned r ((v, (⟨some (.copy S.next), some a, true⟩ : Obj)) :: S.objs) =
              owned r S.objs + ([Res.buf S.next]).count r := fun r => by
            rw [owned, show held ⟨some (.copy S.next), some a, true⟩ = [Res.buf S.next] from rfl]; omega
          have e2 : ∀ r, (Res.buf S.next :: S.live).count r = S.live.count r + ([Res.buf S.next]).count r := fun r => by
            rw [← List.singleton_append, List.count_append]; omega
          refine ⟨_, hs, ⟨fun x hx => ?_, fun r => ?_, fun b => ?_⟩, fun r => ?_, fun _ r => ?_⟩
          · rcases List.mem_cons.1 hx with rfl | hx
            · exact .inr (.inr ⟨S.next, a, rfl, rfl, rfl⟩)
            · exact hI.good x hx
          · show owned r ((v, (⟨some (.copy S.next), some a, true⟩ : Obj)) :: S.objs) ≤ (Res.buf S.next :: S.live).count r
            rw [e, e2]; have := hI.le r; omega
          · refine ⟨?_, fun hb => ?_⟩
            · show (Res.buf S.next :: S.live).count (.buf b) ≤ 1
              rw [e2]
              by_cases hb : b = S.next
              · subst hb
                have : S.live.count (.buf S.next) = 0 := List.count_eq_zero.2 fun hm => Nat.lt_irrefl _ ((hI.fresh _).2 hm)
                rw [this, List.count_singleton_self]
              · rw [List.count_singleton, if_neg (by simpa using Ne.symm hb)]; exact (hI.fresh b).1
            · show b < S.next + 1
              rcases List.mem_cons.1 hb with hb | hb
              · cases hb; omega
              · have := (hI.fresh b).2 hb; omega
          · show _ ≤ (Res.buf S.next :: S.live).count r - owned r ((v, (⟨some (.copy S.next), some a, true⟩ : Obj)) :: S.objs)
            rw [e, e2, excess]; omega
          · show (Res.buf S.next :: S.live).count r - owned r ((v, (⟨some (.copy S.next), some a, true⟩ : Obj)) :: S.objs) = _
            rw [e, e2, excess]; omega
  | drop v =>
    obtain ⟨o, ho⟩ := Option.isSome_iff_exists.1 (show (find S.objs v).isSome = true from hc)
    obtain ⟨l, hl, hcnt, hmem⟩ := release_ok (o := o) (hI.good _ (find_mem ho)) (live := S.live)
      (fun r => Nat.le_trans (find_owned ho r) (hI.le r))
    have hod := owned_del ho
    refine ⟨{ S with live := l, objs := del S.objs v }, by rw [step, ho]; dsimp only; rw [hl]; rfl, ⟨fun x hx => hI.good x (mem_del hx),
      fun r => ?_, fun b => ⟨?_, fun hb => (hI.fresh b).2 (hmem _ hb)⟩⟩, fun r => ?_, fun _ r => ?_⟩
    · show owned r (del S.objs v) ≤ l.count r
      have h1 := hcnt r; have h2 := hod r; have h3 := hI.le r; omega
    · have h1 := hcnt (.buf b); have := (hI.fresh b).1
      show l.count _ ≤ 1
      omega
    · show S.live.count r - owned r S.objs ≤ l.count r - owned r (del S.objs v)
      have h1 := hcnt r; have h2 := hod r; omega
    · show l.count r - owned r (del S.objs v) = S.live.count r - owned r S.objs
      have h1 := hcnt r; have h2 := hod r; omega
  | move v w =>
    obtain ⟨hv, hw⟩ := hc
    have hv : (find S.objs v).isSome = false := by simpa [exists_] using hv
    obtain ⟨o, ho⟩ := Option.isSome_iff_exists.1 (show (find S.objs w).isSome = true from hw)
    have e : ∀ r, owned r ((v, o) :: put S.objs w .empty) = owned r S.objs := fun r => by
      rw [owned]
      have := owned_put ho .empty r
      rw [held_empty] at this; omega
    refine ⟨{ S with objs := (v, o) :: put S.objs w .empty }, by rw [step, hv, ho]; rfl, ⟨fun x hx => ?_, fun r => ?_, hI.fresh⟩,
      fun r => ?_, fun _ r => ?_⟩
    · rcases List.mem_cons.1 hx with rfl | hx
      · exact hI.good (w, o) (find_mem ho)
      · rcases mem_put hx with hx | hx
        · exact hI.good x hx
        · rw [hx]; exact good_empty me
    · show owned r ((v, o) :: put S.objs w .empty) ≤ _
      rw [e]; exact hI.le r
    · show _ ≤ S.live.count r - owned r ((v, o) :: put S.objs w .empty)
      rw [e]; exact Nat.le_refl _
    · show S.live.count r - owned r ((v, o) :: put S.objs w .empty) = _
      rw [e]; rfl
  | assign v w =>
    obtain ⟨hv, hw⟩ := hc
    obtain ⟨o1, h1⟩ := Option.isSome_iff_exists.1 (show (find S.objs v).isSome = true from hv)
    obtain ⟨o, ho⟩ := Option.isSome_iff_exists.1 (show (find S.objs w).isSome = true from hw)
    have hw' : find (put S.objs v o) w = some o := by
      by_cases hvw : w = v
      · subst hvw; exact find_put_self h1 o
      · rw [find_put_ne hvw]; exact ho
    have e : ∀ r, owned r (put (put S.objs v o) w .empty) + (held o1).count r = owned r S.objs := fun r => by
      have a := owned_put h1 o r
      have b := owned_put hw' .empty r
      rw [held_empty] at b; omega
    refine ⟨{ S with objs := put (put S.objs v o) w .empty }, by rw [step, h1, ho], ⟨fun x hx => ?_, fun r => ?_, hI.fresh⟩,
      fun r => ?_, fun hcare r => ?_⟩
    · rcases mem_put hx with hx | hx
      · rcases mem_put hx with hx | hx
        · exact hI.good x hx
        · rw [hx]; exact hI.good _ (find_mem ho)
      · rw [hx]; exact good_empty me
    · show owned r (put (put S.objs v o) w .empty) ≤ S.live.count r
      have := e r; have := hI.le r; omega
    · show S.live.count r - owned r S.objs ≤ S.live.count r - owned r (put (put S.objs v o) w .empty)
      have := e r; omega
    · have hh : holds S v = false := hcare
      rw [holds, h1] at hh
      have hz : (held o1).count r = 0 := by
        obtain ⟨p, g, b⟩ := o1
        cases p with
        | none => rfl
        | some p => cases hh
      show S.live.count r - owned r (put (put S.objs v o) w .empty) = S.live.count r - owned r S.objs
      have := e r; omega
  | write v x =>
    have hv : valid S v = true := hc
    rw [valid] at hv
    cases hf : find S.objs v with
    | none => rw [hf] at hv; cases hv
    | some o =>
      obtain ⟨p, g, b⟩ := o
      cases p with
      | none => rw [hf] at hv; simp at hv
      | some p =>
        cases p with
        | mem a =>
          exact ⟨{ S with mem := fun c => if c = a then x else S.mem c }, by rw [step, hf], ⟨hI.good, hI.le, hI.fresh⟩,
            fun r => Nat.le_refl _, fun _ r => rfl⟩
        | copy n =>
          have hm : Res.buf n ∈ S.live := by
            have h1 := Nat.le_trans (find_owned hf (.buf n)) (hI.le (.buf n))
            rw [show held ⟨some (.copy n), g, b⟩ = [Res.buf n] from rfl, List.count_singleton_self] at h1
            exact List.count_pos_iff.1 h1
          exact ⟨{ S with copies := fun c => if c = n then x else S.copies c }, by rw [step, hf]; dsimp only; rw [if_pos hm],
            ⟨hI.good, hI.le, hI.fresh⟩, fun r => Nat.le_refl _, fun _ r => rfl⟩
  | outside a x =>
    exact ⟨_, rfl, ⟨hI.good, hI.le, hI.fresh⟩, fun r => Nat.le_refl _, fun _ r => rfl⟩

/-- A step that is defined uses the names right. -/
theorem names_of_step {me : Nat} {S S' : State V} {c : Cmd V} (hI : Inv me S) (h : step me S c = some S') : NamesRight S c := by
  cases c with
  | make v g nomem =>
    intro hv
    rw [step, if_pos (show (find S.objs v).isSome = true from hv)] at h; cases h
  | drop v =>
    show (find S.objs v).isSome = true
    rw [step] at h
    cases hf : find S.objs v with
    | none => rw [hf] at h; cases h
    | some o => rfl
  | move v w =>
    rw [step] at h
    by_cases hv : (find S.objs v).isSome = true
    · rw [if_pos hv] at h; cases h
    · rw [if_neg hv] at h
      refine ⟨hv, ?_⟩
      show (find S.objs w).isSome = true
      cases hf : find S.objs w with
      | none => rw [hf] at h; cases h
      | some o => rfl
  | assign v w =>
    rw [step] at h
    cases h1 : find S.objs v with
    | none => rw [h1] at h; cases h
    | some o1 =>
      cases h2 : find S.objs w with
      | none => rw [h1, h2] at h; cases h
      | some o2 => exact ⟨by rw [exists_, h1]; rfl, by rw [exists_, h2]; rfl⟩
  | write v x =>
    show valid S v = true
    rw [step] at h
    rw [valid]
    cases hf : find S.objs v with
    | none => rw [hf] at h; cases h
    | some o =>
      have hg := hI.good _ (find_mem hf)
      obtain ⟨p, g, b⟩ := o
      rcases hg with ⟨hp, _⟩ | ⟨a, hp, hg, _⟩ | ⟨n, a, hp, hg, _⟩
      · cases hp; rw [hf] at h; cases h
      · cases hp; cases hg; rfl
      · cases hp; cases hg; rfl
  | outside a x => trivial

theorem run_inv {me : Nat} {S S' : State V} (hI : Inv me S) {h : List (Cmd V)} (hr : run me S h = some S') :
    Inv me S' ∧ (∀ r, excess S r ≤ excess S' r) ∧ (Careful me S h → ∀ r, excess S' r = excess S r) := by
  induction h generalizing S with
  | nil => cases hr; exact ⟨hI, fun _ => Nat.le_refl _, fun _ _ => rfl⟩
  | cons c h ih =>
    rw [run, List.foldlM_cons] at hr
    cases hc : step me S c with
    | none => rw [hc] at hr; cases hr
    | some S1 =>
      rw [hc] at hr
      obtain ⟨S2, e2, i2, x2, y2⟩ := step_ok hI (names_of_step hI hc)
      rw [hc] at e2; cases e2
      obtain ⟨i3, x3, y3⟩ := ih i2 hr
      exact ⟨i3, fun r => Nat.le_trans (x2 r) (x3 r), fun hcare r => (y3 (hcare.2 _ hc) r).trans (y2 hcare.1 r)⟩

theorem start_inv (me : Nat) (mem : Addr → V) (copies : Nat → V) : Inv me (start mem copies) where
  good := fun _ h => by cases h
  le := fun _ => Nat.le_refl _
  fresh := fun _ => ⟨Nat.zero_le _, fun h => by cases h⟩

/-- A step that does not touch `v` leaves its members alone. -/
theorem find_step {me : Nat} {S S' : State V} {c : Cmd V} {v : Nat} {o : Obj} (hf : find S.objs v = some o) (ht : ¬ Touches v c)
    (h : step me S c = some S') : find S'.objs v = some o := by
  cases c with
  | make u g nomem =>
    rw [step] at h
    by_cases hu : (find S.objs u).isSome = true
    · rw [if_pos hu] at h; cases h
    · rw [if_neg hu] at h
      have hne : u ≠ v := by rintro rfl; rw [hf] at hu; exact hu rfl
      have ho : (construct me nomem S g).2.objs = S.objs := by
        cases g with
        | none => rfl
        | some a => rw [construct]; split_ifs <;> rfl
      cases h
      show find ((u, _) :: (construct me nomem S g).2.objs) v = _
      rw [ho, find, if_neg hne]; exact hf
  | drop u =>
    have hne : v ≠ u := fun e => ht e.symm
    rw [step] at h
    cases hu : find S.objs u with
    | none => rw [hu] at h; cases h
    | some o1 =>
      rw [hu] at h
      dsimp only at h
      cases hr : release S.live o1 with
      | none => rw [hr] at h; cases h
      | some l =>
        rw [hr] at h; cases h
        show find (del S.objs u) v = _
        rw [find_del_ne hne]; exact hf
  | move u w =>
    have hne : v ≠ w := fun e => ht e.symm
    rw [step] at h
    by_cases hu : (find S.objs u).isSome = true
    · rw [if_pos hu] at h; cases h
    · rw [if_neg hu] at h
      have hneu : u ≠ v := by rintro rfl; rw [hf] at hu; exact hu rfl
      cases hw : find S.objs w with
      | none => rw [hw] at h; cases h
      | some o1 =>
        rw [hw] at h; cases h
        show find ((u, o1) :: put S.objs w .empty) v = _
        rw [find, if_neg hneu, find_put_ne hne]; exact hf
  | assign u w =>
    have hnu : v ≠ u := fun e => ht (.inl e.symm)
    have hnw : v ≠ w := fun e => ht (.inr e.symm)
    rw [step] at h
    cases h1 : find S.objs u with
    | none => rw [h1] at h; cases h
    | some o1 =>
      cases h2 : find S.objs w with
      | none => rw [h1, h2] at h; cases h
      | some o2 =>
        rw [h1, h2] at h; cases h
        show find (put (put S.objs u o2) w .empty) v = _
        rw [find_put_ne hnw, find_put_ne hnu]; exact hf
  | write u x =>
    rw [step] at h
    split at h
    · cases h; exact hf
    · split_ifs at h; cases h; exact hf
    · cases h
  | outside a x => cases h; exact hf

/-- The contents of the copy of an object change only by writing through it. -/
theorem copies_step {me : Nat} {S S' : State V} (hI : Inv me S) {c : Cmd V} {v b : Nat} {g : Option Addr} {rm : Bool}
    (hf : find S.objs v = some ⟨some (.copy b), g, rm⟩) (hw : ¬ WritesThrough v c) (h : step me S c = some S') :
    S'.copies b = S.copies b := by
  have hlive : Res.buf b ∈ S.live := by
    have h1 := Nat.le_trans (find_owned hf (.buf b)) (hI.le (.buf b))
    rw [show held ⟨some (.copy b), g, rm⟩ = [Res.buf b] from rfl, List.count_singleton_self] at h1
    exact List.count_pos_iff.1 h1
  cases c with
  | make u a nomem =>
    rw [step] at h
    by_cases hu : (find S.objs u).isSome = true
    · rw [if_pos hu] at h; cases h
    · rw [if_neg hu] at h
      cases h
      show (construct me nomem S a).2.copies b = _
      cases a with
      | none => rfl
      | some a =>
        have := (hI.fresh b).2 hlive
        rw [construct]; split_ifs
        · rfl
        · rfl
        · show (if b = S.next then _ else _) = _
          rw [if_neg (by omega)]
  | drop u =>
    rw [step] at h
    cases hu : find S.objs u with
    | none => rw [hu] at h; cases h
    | some o1 =>
      rw [hu] at h
      dsimp only at h
      cases hr : release S.live o1 with
      | none => rw [hr] at h; cases h
      | some l => rw [hr] at h; cases h; rfl
  | move u w =>
    rw [step] at h
    by_cases hu : (find S.objs u).isSome = true
    · rw [if_pos hu] at h; cases h
    · rw [if_neg hu] at h
      cases hw : find S.objs w with
      | none => rw [hw] at h; cases h
      | some o1 => rw [hw] at h; cases h; rfl
  | assign u w =>
    rw [step] at h
    cases h1 : find S.objs u with
    | none => rw [h1] at h; cases h
    | some o1 =>
      cases h2 : find S.objs w with
      | none => rw [h1, h2] at h; cases h
      | some o2 => rw [h1, h2] at h; cases h; rfl
  | write u x =>
    have hne : u ≠ v := hw
    rw [step] at h
    split at h
    · cases h; rfl
    · rename_i b' g' rm' hu
      split_ifs at h with hl
      cases h
      show (if b = b' then x else S.copies b) = _
      rw [if_neg]
      rintro rfl
      -- two objects would hold the copy
      have h2 : 2 ≤ owned (.buf b) S.objs := by
        have key : ∀ l : List (Nat × Obj), find l v = some ⟨some (.copy b), g, rm⟩ → find l u = some ⟨some (.copy b), g', rm'⟩ →
            2 ≤ owned (.buf b) l := by
          intro l
          induction l with
          | nil => intro h; cases h
          | cons y l ih =>
            obtain ⟨k, y⟩ := y
            intro hv hu
            rw [find] at hv hu
            rw [owned]
            split_ifs at hv hu with k1 k2
            · exact absurd (k2.symm.trans k1) hne
            · have := find_owned hu (.buf b)
              cases hv
              rw [show held ⟨some (.copy b), g', rm'⟩ = [Res.buf b] from rfl, List.count_singleton_self] at this
              rw [show held ⟨some (.copy b), g, rm⟩ = [Res.buf b] from rfl, List.count_singleton_self]; omega
            · have := find_owned hv (.buf b)
              cases hu
              rw [show held ⟨some (.copy b), g, rm⟩ = [Res.buf b] from rfl, List.count_singleton_self] at this
              rw [show held ⟨some (.copy b), g', rm'⟩ = [Res.buf b] from rfl, List.count_singleton_self]; omega
            · have := ih hv hu; omega
        exact key S.objs hf hu
      have := hI.le (.buf b); have := (hI.fresh b).1; omega
    · cases h
  | outside a x => cases h; rfl

end RankLocal

open RankLocal

variable {V : Type} {me : Nat} {mem : Addr → V} {copies : Nat → V} {before : List (Cmd V)} {S : State V}
  (hS : run me (start mem copies) before = some S)
include hS

/-- Whatever has happened, moves and assignments included: nothing is given back twice, and an object that is valid can be read and written. -/
theorem C109_defined {c : Cmd V} (hc : NamesRight S c) : (step me S c).isSome = true ∧ ∀ v, valid S v = true → (read S v).isSome = true := by
  have hI := (run_inv (start_inv me mem copies) hS).1
  obtain ⟨S', e, _⟩ := step_ok hI hc
  refine ⟨by rw [e]; rfl, fun v hv => ?_⟩
  rw [valid] at hv
  unfold RankLocal.read
  cases hf : find S.objs v with
  | none => rw [hf] at hv; cases hv
  | some o =>
    obtain ⟨p, g, b⟩ := o
    cases p with
    | none => rw [hf] at hv; simp at hv
    | some p =>
      have h1 := fun r => Nat.le_trans (find_owned hf r) (hI.le r)
      cases p with
      | mem a =>
        have := h1 (.pin a)
        rw [show held ⟨some (.mem a), g, b⟩ = [Res.pin a] from rfl, List.count_singleton_self] at this
        dsimp only
        rw [if_pos (List.count_pos_iff.1 this)]; rfl
      | copy n =>
        have := h1 (.buf n)
        rw [show held ⟨some (.copy n), g, b⟩ = [Res.buf n] from rfl, List.count_singleton_self] at this
        dsimp only
        rw [if_pos (List.count_pos_iff.1 this)]; rfl

/-- If no object that holds something was assigned to, everything acquired has been given back when all objects are gone. -/
theorem C109_released (hcare : Careful me (start mem copies) before) (hno : S.objs = []) : S.live = [] := by
  obtain ⟨_, _, h⟩ := run_inv (start_inv me mem copies) hS
  refine List.eq_nil_iff_forall_not_mem.2 fun r hr => ?_
  have := h hcare r
  rw [excess, hno, excess] at this
  have h2 := List.count_pos_iff.2 hr
  simp [owned, start] at this
  omega

/-- If an object that holds something is assigned to, this is never given back: something is acquired ever after, also when all objects are gone. -/
theorem C109_assign_leaks {v w : Nat} (hv : holds S v = true) {S1 : State V} (h1 : step me S (.assign v w) = some S1)
    {after : List (Cmd V)} {S2 : State V} (h2 : run me S1 after = some S2) : S2.live ≠ [] := by
  have hI := (run_inv (start_inv me mem copies) hS).1
  obtain ⟨S1', e, i1, -, -⟩ := step_ok hI (names_of_step hI h1)
  rw [h1] at e; cases e
  obtain ⟨_, hx, _⟩ := run_inv i1 h2
  rw [holds] at hv
  cases hf : find S.objs v with
  | none => rw [hf] at hv; cases hv
  | some o1 =>
    rw [hf] at hv
    obtain ⟨p, g, b⟩ := o1
    cases p with
    | none => cases hv
    | some p =>
      obtain ⟨r, hr⟩ : ∃ r, held ⟨some p, g, b⟩ = [r] := by cases p <;> exact ⟨_, rfl⟩
      rw [step, hf] at h1
      cases hw : find S.objs w with
      | none => rw [hw] at h1; cases h1
      | some o =>
        rw [hw] at h1; cases h1
        have hw' : find (put S.objs v o) w = some o := by
          by_cases hvw : w = v
          · subst hvw; exact find_put_self hf o
          · rw [find_put_ne hvw]; exact hw
        have a := owned_put hf o r
        have c := owned_put hw' .empty r
        rw [held_empty] at c
        rw [hr, List.count_singleton_self] at a
        have hle := hI.le r
        have := hx r
        intro hnil
        rw [excess, excess, hnil, List.count_nil, Nat.zero_sub] at this
        have d : S.live.count r - owned r (put (put S.objs v o) w .empty) ≤ 0 := this
        omega

/-- `here()`: an object made for the own block reads what is in it now, whoever has written it. -/
theorem C109_here {v : Nat} {a : Addr} (ha : a.rank = me) {nomem : Bool} {S1 S2 : State V} (h1 : step me S (.make v (some a) nomem) = some S1)
    {after : List (Cmd V)} (h2 : run me S1 after = some S2) (ht : ∀ c ∈ after, ¬ Touches v c) :
    valid S2 v = true ∧ remote S2 v = false ∧ read S2 v = some (S2.mem a) := by
  have hI := (run_inv (start_inv me mem copies) hS).1
  obtain ⟨S1', e, i1, -, -⟩ := step_ok hI (names_of_step hI h1)
  rw [h1] at e; cases e
  have hf1 : find S1.objs v = some ⟨some (.mem a), some a, false⟩ := by
    rw [step] at h1
    split_ifs at h1
    rw [construct, if_pos ha] at h1
    cases h1
    rw [find, if_pos rfl]
  have hf2 : find S2.objs v = some ⟨some (.mem a), some a, false⟩ := by
    clear h1 i1
    induction after generalizing S1 with
    | nil => cases h2; exact hf1
    | cons c after ih =>
      rw [run, List.foldlM_cons] at h2
      cases hc : step me S1 c with
      | none => rw [hc] at h2; cases h2
      | some S3 =>
        rw [hc] at h2
        exact ih h2 (fun c hc => ht c (List.mem_cons_of_mem _ hc)) (find_step hf1 (ht c (List.mem_cons_self ..)) hc)
  have i2 := (run_inv i1 h2).1
  have hl := Nat.le_trans (find_owned hf2 (.pin a)) (i2.le (.pin a))
  rw [show held ⟨some (.mem a), some a, false⟩ = [Res.pin a] from rfl, List.count_singleton_self] at hl
  refine ⟨by rw [valid, hf2]; rfl, by rw [remote, hf2], ?_⟩
  rw [RankLocal.read, hf2]; dsimp only; rw [if_pos (List.count_pos_iff.1 hl)]

/-- `there(rank)`: an object made for the block of another rank reads what was there when it was made, as long as it is not written through. -/
theorem C109_there {v : Nat} {a : Addr} (ha : a.rank ≠ me) {S1 S2 : State V} (h1 : step me S (.make v (some a) false) = some S1)
    {after : List (Cmd V)} (h2 : run me S1 after = some S2) (ht : ∀ c ∈ after, ¬ Touches v c ∧ ¬ WritesThrough v c) :
    valid S2 v = true ∧ remote S2 v = true ∧ read S2 v = some (S.mem a) := by
  have hI := (run_inv (start_inv me mem copies) hS).1
  obtain ⟨S1', e, i1, -, -⟩ := step_ok hI (names_of_step hI h1)
  rw [h1] at e; cases e
  have hf1 : find S1.objs v = some ⟨some (.copy S.next), some a, true⟩ ∧ S1.copies S.next = S.mem a := by
    rw [step] at h1
    split_ifs at h1
    rw [construct, if_neg ha] at h1
    cases h1
    refine ⟨by rw [find, if_pos rfl], ?_⟩
    show (if S.next = S.next then _ else _) = _
    rw [if_pos rfl]
  have hf2 : (find S2.objs v = some ⟨some (.copy S.next), some a, true⟩ ∧ S2.copies S.next = S.mem a) ∧ Inv me S2 := by
    clear h1
    induction after generalizing S1 with
    | nil => cases h2; exact ⟨hf1, i1⟩
    | cons c after ih =>
      rw [run, List.foldlM_cons] at h2
      cases hc : step me S1 c with
      | none => rw [hc] at h2; cases h2
      | some S3 =>
        rw [hc] at h2
        obtain ⟨t1, t2⟩ := ht c (List.mem_cons_self ..)
        obtain ⟨S3', e, i3, -, -⟩ := step_ok i1 (names_of_step i1 hc)
        rw [hc] at e; cases e
        exact ih h2 (fun c hc => ht c (List.mem_cons_of_mem _ hc)) i3
          ⟨find_step hf1.1 t1 hc, (copies_step i1 hf1.1 t2 hc).trans hf1.2⟩
  obtain ⟨⟨hf2, hc2⟩, i2⟩ := hf2
  have hl := Nat.le_trans (find_owned hf2 (.buf S.next)) (i2.le (.buf S.next))
  rw [show held ⟨some (.copy S.next), some a, true⟩ = [Res.buf S.next] from rfl, List.count_singleton_self] at hl
  refine ⟨by rw [valid, hf2]; rfl, by rw [remote, hf2], ?_⟩
  rw [RankLocal.read, hf2]; dsimp only; rw [if_pos (List.count_pos_iff.1 hl), hc2]

/-- Writing through an object for the own block writes the block, and nothing else; writing through one for another rank changes the data of no rank. -/
theorem C109_write {v : Nat} {x : V} {S1 : State V} (h1 : step me S (.write v x) = some S1) :
    read S1 v = some x ∧ (remote S v = true → S1.mem = S.mem) ∧
      (remote S v = false → ∃ a, a.rank = me ∧ S1.mem = fun c => if c = a then x else S.mem c) := by
  have hI := (run_inv (start_inv me mem copies) hS).1
  have hn := names_of_step hI h1
  cases hf : find S.objs v with
  | none => rw [step, hf] at h1; cases h1
  | some o =>
    have hg := hI.good _ (find_mem hf)
    have hl := fun r => Nat.le_trans (find_owned hf r) (hI.le r)
    obtain ⟨p, g, b⟩ := o
    rcases hg with ⟨hp, _⟩ | ⟨a, hp, hg, hr, ha⟩ | ⟨n, a, hp, hg, hr⟩
    · cases hp; rw [step, hf] at h1; cases h1
    · cases hp; cases hg; cases hr
      rw [step, hf] at h1; cases h1
      have := hl (.pin a)
      rw [show held ⟨some (.mem a), some a, false⟩ = [Res.pin a] from rfl, List.count_singleton_self] at this
      refine ⟨?_, fun h => ?_, fun _ => ⟨a, ha, rfl⟩⟩
      · rw [RankLocal.read, hf]; dsimp only; rw [if_pos (List.count_pos_iff.1 this), if_pos rfl]
      · rw [remote, hf] at h; cases h
    · cases hp; cases hg; cases hr
      have := hl (.buf n)
      rw [show held ⟨some (.copy n), some a, true⟩ = [Res.buf n] from rfl, List.count_singleton_self] at this
      rw [step, hf] at h1
      dsimp only at h1
      rw [if_pos (List.count_pos_iff.1 this)] at h1; cases h1
      refine ⟨?_, fun _ => rfl, fun h => ?_⟩
      · rw [RankLocal.read, hf]; dsimp only; rw [if_pos (List.count_pos_iff.1 this), if_pos rfl]
      · rw [remote, hf] at h; cases h

/-- A move hands over everything. -/
theorem C109_moved {v w : Nat} {S1 : State V} (h1 : step me S (.move v w) = some S1) :
    read S1 v = read S w ∧ valid S1 v = valid S w ∧ remote S1 v = remote S w ∧ valid S1 w = false ∧ S1.mem = S.mem := by
  have hI := (run_inv (start_inv me mem copies) hS).1
  obtain ⟨hv, hw⟩ := names_of_step hI h1
  obtain ⟨o, ho⟩ := Option.isSome_iff_exists.1 (show (find S.objs w).isSome = true from hw)
  have hne : v ≠ w := by rintro rfl; exact hv hw
  have e : step me S (.move v w) = some { S with objs := (v, o) :: put S.objs w .empty } := by
    rw [step, if_neg (show ¬ (find S.objs v).isSome = true from hv), ho]
  rw [e] at h1; cases h1
  have f1 : find ((v, o) :: put S.objs w .empty) v = some o := by rw [find, if_pos rfl]
  have f2 : find ((v, o) :: put S.objs w .empty) w = some .empty := by rw [find, if_neg hne, find_put_self ho]
  exact ⟨by rw [RankLocal.read, RankLocal.read, f1, ho], by rw [valid, valid, f1, ho], by rw [remote, remote, f1, ho], by rw [valid, f2]; rfl, rfl⟩

omit hS

/-- On rank 0: an object for the own block, one for that of rank 1, a move and an assignment to the object that has been moved from, then the
others are destroyed: only the copy, which the first holds now, is acquired. With an assignment to an object that holds something, a pin stays. -/
example : (run 0 (start (fun a => a.rank + 7) (fun _ => 0)) [.make 1 (some ⟨0, 0⟩) false, .make 2 (some ⟨0, 1⟩) false, .move 3 1, .write 3 5,
      .assign 1 2, .drop 2, .drop 3]).map (fun S => (read S 1, S.mem ⟨0, 0⟩, S.live)) = some (some 8, 5, [.buf 0]) ∧
    (run 0 (start (fun a => a.rank + 7) (fun _ => 0)) [.make 1 (some ⟨0, 0⟩) false, .make 2 (some ⟨0, 1⟩) false,
      .assign 1 2, .drop 1, .drop 2]).map (fun S => (S.live, S.objs)) = some ([.pin ⟨0, 0⟩], []) := by
  decide +kernel

example : Careful 0 (start (fun _ => 7) (fun _ => 0)) [.make 1 (some ⟨0, 0⟩) false, .make 2 none false, .assign 2 1] :=
  ⟨trivial, fun _ h => by cases h; exact ⟨trivial, fun _ h => by cases h; exact ⟨rfl, fun _ _ => trivial⟩⟩⟩

/-- C109: after a move, into a new object or an existing other one, the object moved from is neither valid
nor remote. -/
theorem C109_moved_from {V : Type} {me : Nat} {S S' : State V} {v w : Nat} (hvw : v ≠ w)
    (h : step me S (.move v w) = some S' ∨ step me S (.assign v w) = some S') :
    valid S' w = false ∧ remote S' w = false := by
  have key : find S'.objs w = some ⟨none, none, false⟩ := by
    rcases h with h | h
    · rw [step] at h
      split_ifs at h
      cases ho : find S.objs w with
      | none => rw [ho] at h; cases h
      | some o =>
        rw [ho] at h
        injection h with h
        subst h
        show find ((v, o) :: put S.objs w .empty) w = _
        rw [find, if_neg hvw]
        exact find_put_self ho _
    · rw [step] at h
      cases hv : find S.objs v with
      | none => rw [hv] at h; cases h
      | some o1 =>
        cases ho : find S.objs w with
        | none => rw [hv, ho] at h; cases h
        | some o =>
          rw [hv, ho] at h
          injection h with h
          subst h
          show find (put (put S.objs v o) w .empty) w = _
          exact find_put_self (o := o) (by rw [find_put_ne hvw.symm]; exact ho) _
  simp [valid, remote, key]

end Dashmm
