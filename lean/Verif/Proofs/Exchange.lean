import Verif.Model.Exchange
import Mathlib.Tactic.Ring
import Mathlib.Tactic.Linarith
import Mathlib.Data.Finset.Prod
import Mathlib.Data.Finset.Card
import Mathlib.Algebra.BigOperators.Ring.Finset
namespace Dashmm
namespace Exch
open Finset

/-- What `distribute_points` and `sort_local_points` guarantee. -/
structure Cfg.Ok (C : Cfg) : Prop where
  owner : ∀ c < C.dim3, C.owner c < C.ranks
  same : C.same = true → C.cnt true = C.cnt false

theorem effect_done (C : Cfg) (s : State) (e : Event) : (effect C s e).done = insert e s.done := rfl

theorem first_le (C : Cfg) (s : State) (e : Event) (t : Bool) (c : Nat) : s.first t c ≤ (effect C s e).first t c := by
  cases e <;> simp only [effect, le_refl] <;> split <;> omega

theorem sets_le (C : Cfg) (s : State) (e : Event) (r : Nat) : s.sets r ≤ (effect C s e).sets r := by
  cases e <;> simp only [effect, le_refl] <;> split <;> omega

theorem enabled_mono (C : Cfg) (s : State) (e e' : Event) (h : Enabled C s e') : Enabled C (effect C s e) e' := by
  have hm : ∀ {x}, x ∈ s.done → x ∈ (effect C s e).done := fun hx => by rw [effect_done]; exact mem_insert_of_mem hx
  cases e' with
  | count r => exact h
  | init r => exact ⟨h.1, fun r' hr => hm (h.2 r' hr)⟩
  | watch r => exact hm h
  | send r r' => exact ⟨hm h.1, h.2⟩
  | recv r r' => exact ⟨hm h.1, hm h.2⟩
  | merge t r r' c => exact ⟨hm h.1, h.2⟩
  | part t c => exact ⟨h.1, h.2.1, Nat.le_trans h.2.2.1 (first_le C s e t c), fun a b => hm (h.2.2.2 a b)⟩
  | sendNode t c => exact ⟨hm h.1, hm h.2⟩
  | recvNode t r c => exact ⟨hm h.1, h.2⟩
  | signal t r c =>
    refine ⟨hm h.1, ?_⟩
    have := h.2
    split at this
    · rw [if_pos (by assumption)]; exact hm this
    · rw [if_neg (by assumption)]; exact hm this
  | finish r => exact ⟨hm h.1, Nat.le_trans h.2 (sets_le C s e r)⟩

/-- Everything that has happened is still enabled. -/
theorem reach_enabled {C : Cfg} {k : Nat} {s : State} (h : Reach C k s) : ∀ e ∈ s.done, Enabled C s e := by
  induction h with
  | init => intro e he; simp [start] at he
  | step h hs ih =>
    obtain ⟨e, hn, he, rfl⟩ := hs
    intro e' he'
    rw [effect_done, mem_insert] at he'
    rcases he' with rfl | he'
    · exact enabled_mono C _ _ _ he
    · exact enabled_mono C _ _ _ (ih e' he')

theorem reach_card {C : Cfg} {k : Nat} {s : State} (h : Reach C k s) : s.done.card = k := by
  induction h with
  | init => rfl
  | step h hs ih =>
    obtain ⟨e, hn, he, rfl⟩ := hs
    rw [effect_done, card_insert_of_notMem hn, ih]

/-- Points of rank `r` that have arrived. -/
def part' (C : Cfg) (s : State) (t : Bool) (c r : Nat) : Nat :=
  if r = C.owner c then (if Event.init r ∈ s.done then C.cnt t r c else 0)
  else if Event.merge t r (C.owner c) c ∈ s.done then C.cnt t r c else 0

theorem first_eq {C : Cfg} (hC : C.Ok) {k : Nat} {s : State} (h : Reach C k s) (t : Bool) (c : Nat) (hc : c < C.dim3) :
    s.first t c = ∑ r ∈ range C.ranks, part' C s t c r := by
  induction h with
  | init => simp [start, part']
  | step h hs ih =>
    rename_i k s s'
    obtain ⟨e, hn, he, rfl⟩ := hs
    have hen := reach_enabled h
    cases e with
    | init r =>
      simp only [effect]
      by_cases ho : C.owner c = r
      · rw [if_pos ho, ih]
        subst ho
        have hr : C.owner c ∈ range C.ranks := mem_range.2 (hC.owner c hc)
        rw [← add_sum_erase _ (part' C s t c) hr]
        refine Eq.trans ?_ (add_sum_erase _ _ hr)
        have h1 : part' C s t c (C.owner c) = 0 := by unfold part'; rw [if_pos rfl, if_neg hn]
        have h2 : ∀ F G, part' C { done := insert (Event.init (C.owner c)) s.done, first := F, sets := G } t c (C.owner c) =
          C.cnt t (C.owner c) c := by intro F G; unfold part'; rw [if_pos rfl, if_pos (mem_insert_self _ _)]
        rw [h1, h2, Nat.zero_add, Nat.add_comm]
        congr 1
        apply sum_congr rfl
        intro r hr
        have := (mem_erase.1 hr).1
        unfold part'
        simp [this]
      · rw [if_neg ho, ih]
        apply sum_congr rfl
        intro r' _
        unfold part'
        by_cases hr : r' = C.owner c
        · have : r' ≠ r := fun h => ho (by rw [← hr, h])
          simp [hr]
          simp [ho]
        · simp [hr]
    | merge t' r r' c' =>
      simp only [effect]
      by_cases ho : t = t' ∧ c = c'
      · obtain ⟨rfl, rfl⟩ := ho
        rw [if_pos ⟨rfl, rfl⟩, ih]
        obtain ⟨g1, g2, g3, g4⟩ := he
        subst g3
        have g5 := hen _ g1
        have g6 := hen _ g5.1
        have g7 := hen _ g6.1
        have hr : r ∈ range C.ranks := mem_range.2 g7.1
        rw [← add_sum_erase _ (part' C s t c) hr]
        refine Eq.trans ?_ (add_sum_erase _ _ hr)
        have h1 : part' C s t c r = 0 := by unfold part'; rw [if_neg g6.2.2, if_neg hn]
        have h2 : ∀ F G, part' C { done := insert (Event.merge t r (C.owner c) c) s.done, first := F, sets := G } t c r =
          C.cnt t r c := by intro F G; unfold part'; rw [if_neg g6.2.2, if_pos (mem_insert_self _ _)]
        rw [h1, h2, Nat.zero_add, Nat.add_comm]
        congr 1
        apply sum_congr rfl
        intro r' hr'
        have := (mem_erase.1 hr').1
        unfold part'
        simp [this]
      · rw [if_neg ho, ih]
        apply sum_congr rfl
        intro r'' _
        unfold part'
        by_cases hr : r'' = C.owner c
        · simp [hr]
        · simp only [if_neg hr, mem_insert, Event.merge.injEq]
          have : ¬ (t = t' ∧ r'' = r ∧ C.owner c = r' ∧ c = c') := fun h => ho ⟨h.1, h.2.2.2⟩
          simp [this]
    | _ => simpa [effect, part'] using ih

/-- Inputs of `dual_tree_complete` of rank `r` for a tree and a cell. -/
def inp (C : Cfg) (s : State) (r : Nat) (p : Bool × Nat) : Nat :=
  if C.total p.1 p.2 = 0 then (if Event.watch r ∈ s.done then 1 else 0)
  else if Event.signal p.1 r p.2 ∈ s.done then 1 else 0

/-- A signal is for a cell with points. -/
theorem signal_part {C : Cfg} {k : Nat} {s : State} (h : Reach C k s) {t : Bool} {r c : Nat} (he : Enabled C s (.signal t r c)) :
    Event.sendNode t c ∈ s.done ∧ Event.part t c ∈ s.done ∧ c < C.dim3 ∧ C.total t c ≠ 0 ∧ C.total t c ≤ s.first t c := by
  have hen := reach_enabled h
  have hsn : Event.sendNode t c ∈ s.done := by
    have := he.2
    split at this
    · exact this
    · exact (hen _ this).1
  have hp := (hen _ hsn).1
  have := hen _ hp
  exact ⟨hsn, hp, this.1, this.2.1, this.2.2.1⟩

theorem sets_eq {C : Cfg} {k : Nat} {s : State} (h : Reach C k s) (r : Nat) :
    s.sets r = ∑ p ∈ univ ×ˢ range C.dim3, inp C s r p := by
  induction h with
  | init => simp [start, inp]
  | step h hs ih =>
    rename_i k s s'
    obtain ⟨e, hn, he, rfl⟩ := hs
    have hen := reach_enabled h
    cases e with
    | watch r' =>
      simp only [effect]
      by_cases hr : r = r'
      · subst hr
        rw [if_pos rfl, ih, empties, card_filter, ← sum_add_distrib]
        apply sum_congr rfl
        intro p _
        unfold inp
        by_cases h0 : C.total p.1 p.2 = 0
        · rw [if_pos h0, if_pos h0, if_pos h0, if_neg hn, if_pos (mem_insert_self _ _)]
        · simp [h0]
      · rw [if_neg hr, ih]
        apply sum_congr rfl
        intro p _
        unfold inp
        simp [hr]
    | signal t r' c =>
      simp only [effect]
      obtain ⟨_, _, hc, h0, _⟩ := signal_part h he
      by_cases hr : r = r'
      · subst hr
        rw [if_pos rfl, ih]
        have hm : (t, c) ∈ univ ×ˢ range C.dim3 := by simp [hc]
        rw [← add_sum_erase _ (inp C s r) hm]
        refine Eq.trans ?_ (add_sum_erase _ _ hm)
        have h1 : inp C s r (t, c) = 0 := by unfold inp; rw [if_neg h0, if_neg hn]
        have h2 : ∀ F G, inp C { done := insert (Event.signal t r c) s.done, first := F, sets := G } r (t, c) = 1 := by
          intro F G; unfold inp; rw [if_neg h0, if_pos (mem_insert_self _ _)]
        rw [h1, h2, Nat.zero_add, Nat.add_comm]
        congr 1
        apply sum_congr rfl
        intro p hp
        have hne := (mem_erase.1 hp).1
        unfold inp
        have : ¬ (p.1 = t ∧ p.2 = c) := fun h => hne (Prod.ext h.1 h.2)
        simp [this]
      · rw [if_neg hr, ih]
        apply sum_congr rfl
        intro p _
        unfold inp
        simp [hr]
    | _ => simpa [effect, inp] using ih

theorem inp_le (C : Cfg) (s : State) (r : Nat) (p : Bool × Nat) : inp C s r p ≤ 1 := by
  unfold inp; split <;> split <;> omega

theorem sum_one (C : Cfg) : ∑ _p ∈ (univ : Finset Bool) ×ˢ range C.dim3, 1 = 2 * C.dim3 := by
  rw [← card_eq_sum_ones, card_product]; simp

theorem sets_bound {C : Cfg} {k : Nat} {s : State} (h : Reach C k s) (r : Nat) : s.sets r ≤ 2 * C.dim3 := by
  rw [sets_eq h, ← sum_one]
  exact sum_le_sum fun p _ => inp_le C s r p

theorem all_inputs {C : Cfg} {k : Nat} {s : State} (h : Reach C k s) (r : Nat) (hr : 2 * C.dim3 ≤ s.sets r)
    (t : Bool) (c : Nat) (hc : c < C.dim3) : inp C s r (t, c) = 1 := by
  have he : s.sets r = 2 * C.dim3 := Nat.le_antisymm (sets_bound h r) hr
  rw [sets_eq h, ← sum_one] at he
  exact (sum_eq_sum_iff_of_le fun p _ => inp_le C s r p).1 he (t, c) (by simp [hc])

theorem part'_le (C : Cfg) (s : State) (t : Bool) (c r : Nat) : part' C s t c r ≤ C.cnt t r c := by
  unfold part'; split <;> split <;> omega

theorem first_bound {C : Cfg} (hC : C.Ok) {k : Nat} {s : State} (h : Reach C k s) (t : Bool) (c : Nat) (hc : c < C.dim3) :
    s.first t c ≤ C.total t c := by
  rw [first_eq hC h t c hc]
  exact sum_le_sum fun r _ => part'_le C s t c r

theorem all_arrived {C : Cfg} (hC : C.Ok) {k : Nat} {s : State} (h : Reach C k s) (t : Bool) (c : Nat) (hc : c < C.dim3)
    (hf : C.total t c ≤ s.first t c) (r : Nat) (hr : r < C.ranks) : part' C s t c r = C.cnt t r c := by
  have he : s.first t c = C.total t c := Nat.le_antisymm (first_bound hC h t c hc) hf
  rw [first_eq hC h t c hc] at he
  exact (sum_eq_sum_iff_of_le fun r _ => part'_le C s t c r).1 he r (mem_range.2 hr)

/-- The points that a finished cell got from another rank were sent. -/
theorem arrived_send {C : Cfg} (hC : C.Ok) {k : Nat} {s : State} (h : Reach C k s) (t : Bool) (c : Nat) (hc : c < C.dim3)
    (hf : C.total t c ≤ s.first t c) (r : Nat) (hr : r < C.ranks) (ho : r ≠ C.owner c) (h0 : C.cnt t r c ≠ 0) :
    Event.merge t r (C.owner c) c ∈ s.done ∧ Event.send r (C.owner c) ∈ s.done := by
  have := all_arrived hC h t c hc hf r hr
  unfold part' at this
  rw [if_neg ho] at this
  have hm : Event.merge t r (C.owner c) c ∈ s.done := by
    by_contra hn
    rw [if_neg hn] at this
    exact h0 this.symm
  have hen := reach_enabled h
  exact ⟨hm, (hen _ (hen _ hm).1).1⟩

/-! ### what can be seen when a rank finishes -/

theorem finish_all {C : Cfg} {k : Nat} {s : State} (h : Reach C k s) (r : Nat) (hf : Event.finish r ∈ s.done)
    (t : Bool) (c : Nat) (hc : c < C.dim3) (h0 : C.total t c ≠ 0) :
    Event.part t c ∈ s.done ∧ Event.sendNode t c ∈ s.done ∧ (r ≠ C.owner c → Event.recvNode t r c ∈ s.done) := by
  have hen := reach_enabled h
  have hi := all_inputs h r (hen _ hf).2 t c hc
  unfold inp at hi
  rw [if_neg h0] at hi
  have hs : Event.signal t r c ∈ s.done := by
    by_contra hn
    rw [if_neg hn] at hi; omega
  have := hen _ hs
  obtain ⟨h1, h2, _⟩ := signal_part h this
  refine ⟨h2, h1, fun hne => ?_⟩
  have h3 := this.2
  rw [if_neg (fun h => hne h.symm)] at h3
  exact h3

/-! ### no deadlock -/

/-- When nothing more can happen but the sends of `B`, which carry no points, all ranks have finished. -/
theorem quiet_finish {C : Cfg} (hC : C.Ok) {k : Nat} {s : State} (h : Reach C k s) (B : Nat → Nat → Prop)
    (hB : ∀ t r c, c < C.dim3 → B r (C.owner c) → C.cnt t r c = 0)
    (hq : ∀ e, (∀ r r', B r r' → e ≠ .send r r') → Enabled C s e → e ∈ s.done) : ∀ r < C.ranks, Event.finish r ∈ s.done := by
  have hcount : ∀ r < C.ranks, Event.count r ∈ s.done := fun r hr => hq _ (by simp) hr
  have hinit : ∀ r < C.ranks, Event.init r ∈ s.done := fun r hr => hq _ (by simp) ⟨hr, hcount⟩
  have hwatch : ∀ r < C.ranks, Event.watch r ∈ s.done := fun r hr => hq _ (by simp) (hinit r hr)
  have hsend : ∀ r < C.ranks, ∀ r' < C.ranks, r ≠ r' → ¬ B r r' → Event.send r r' ∈ s.done := fun r hr r' hr' hne hb =>
    hq _ (by rintro a b hab hh; injection hh with h1 h2; subst h1 h2; exact hb hab) ⟨hinit r hr, hr', hne⟩
  have hrecv : ∀ r < C.ranks, ∀ r' < C.ranks, r ≠ r' → ¬ B r r' → Event.recv r r' ∈ s.done := fun r hr r' hr' hne hb =>
    hq _ (by simp) ⟨hsend r hr r' hr' hne hb, hinit r' hr'⟩
  have hmerge : ∀ t c, c < C.dim3 → ∀ r < C.ranks, r ≠ C.owner c → C.cnt t r c ≠ 0 → Event.merge t r (C.owner c) c ∈ s.done :=
    fun t c hc r hr hne h0 => hq _ (by simp) ⟨hrecv r hr _ (hC.owner c hc) hne (fun hb => h0 (hB t r c hc hb)), hc, rfl, h0⟩
  have hfirst : ∀ t c, c < C.dim3 → C.total t c ≤ s.first t c := by
    intro t c hc
    rw [first_eq hC h t c hc]
    apply sum_le_sum
    intro r hr
    have hr := mem_range.1 hr
    unfold part'
    by_cases ho : r = C.owner c
    · rw [if_pos ho, if_pos (hinit r hr)]
    · rw [if_neg ho]
      by_cases h0 : C.cnt t r c = 0
      · rw [h0]; exact Nat.zero_le _
      · rw [if_pos (hmerge t c hc r hr ho h0)]
  have hpartS : ∀ c, c < C.dim3 → C.total false c ≠ 0 → Event.part false c ∈ s.done := fun c hc h0 =>
    hq _ (by simp) ⟨hc, h0, hfirst false c hc, by simp⟩
  have hpart : ∀ t c, c < C.dim3 → C.total t c ≠ 0 → Event.part t c ∈ s.done := by
    intro t c hc h0
    refine hq _ (by simp) ⟨hc, h0, hfirst t c hc, fun hs ht => hpartS c hc ?_⟩
    subst ht
    unfold Cfg.total at h0 ⊢
    rw [hC.same hs] at h0
    exact h0
  have hsn : ∀ t c, c < C.dim3 → C.total t c ≠ 0 → Event.sendNode t c ∈ s.done := fun t c hc h0 =>
    hq _ (by simp) ⟨hpart t c hc h0, hwatch _ (hC.owner c hc)⟩
  have hsig : ∀ t c, c < C.dim3 → C.total t c ≠ 0 → ∀ r < C.ranks, Event.signal t r c ∈ s.done := by
    intro t c hc h0 r hr
    refine hq _ (by simp) ⟨hwatch r hr, ?_⟩
    by_cases ho : C.owner c = r
    · rw [if_pos ho]; exact hsn t c hc h0
    · rw [if_neg ho]; exact hq _ (by simp) ⟨hsn t c hc h0, hr, fun h => ho h.symm⟩
  intro r hr
  refine hq _ (by simp) ⟨hwatch r hr, ?_⟩
  rw [sets_eq h, ← sum_one]
  apply sum_le_sum
  rintro ⟨t, c⟩ hp
  have hc : c < C.dim3 := by simpa using hp
  unfold inp
  by_cases h0 : C.total t c = 0
  · rw [if_pos h0, if_pos (hwatch r hr)]
  · rw [if_neg h0, if_pos (hsig t c hc h0 r hr)]

/-! ### number of steps -/

/-- All events there can be. -/
def allEvents (C : Cfg) : Finset Event :=
  (range C.ranks).image .count ∪ ((range C.ranks).image .init ∪ ((range C.ranks).image .watch ∪ ((range C.ranks).image .finish ∪
  ((range C.ranks ×ˢ range C.ranks).image (fun p => .send p.1 p.2) ∪ ((range C.ranks ×ˢ range C.ranks).image (fun p => .recv p.1 p.2) ∪
  ((univ ×ˢ (range C.ranks ×ˢ range C.dim3)).image (fun p => .merge p.1 p.2.1 (C.owner p.2.2) p.2.2) ∪
  ((univ ×ˢ range C.dim3).image (fun p => .part p.1 p.2) ∪ ((univ ×ˢ range C.dim3).image (fun p => .sendNode p.1 p.2) ∪
  ((univ ×ˢ (range C.ranks ×ˢ range C.dim3)).image (fun p => .recvNode p.1 p.2.1 p.2.2) ∪
  (univ ×ˢ (range C.ranks ×ˢ range C.dim3)).image (fun p => .signal p.1 p.2.1 p.2.2))))))))))

theorem done_sub {C : Cfg} {k : Nat} {s : State} (h : Reach C k s) : s.done ⊆ allEvents C := by
  have hen := reach_enabled h
  have hinit : ∀ r, Event.init r ∈ s.done → r < C.ranks := fun r hr => (hen _ hr).1
  have hpart : ∀ t c, Event.part t c ∈ s.done → c < C.dim3 := fun t c hr => (hen _ hr).1
  intro e he
  have h1 := hen e he
  unfold allEvents
  simp only [mem_union, mem_image, mem_range, mem_product, mem_univ, true_and, Prod.exists]
  cases e with
  | count r => left; exact ⟨r, h1, rfl⟩
  | init r => right; left; exact ⟨r, h1.1, rfl⟩
  | watch r => right; right; left; exact ⟨r, hinit r h1, rfl⟩
  | finish r => right; right; right; left; exact ⟨r, hinit r (hen _ h1.1), rfl⟩
  | send r r' => right; right; right; right; left; exact ⟨r, r', ⟨hinit r h1.1, h1.2.1⟩, rfl⟩
  | recv r r' =>
    right; right; right; right; right; left
    exact ⟨r, r', ⟨hinit r (hen _ h1.1).1, hinit r' h1.2⟩, rfl⟩
  | merge t r r' c =>
    right; right; right; right; right; right; left
    obtain ⟨g1, g2, rfl, _⟩ := h1
    exact ⟨t, r, c, ⟨hinit r (hen _ (hen _ g1).1).1, g2⟩, rfl⟩
  | part t c => right; right; right; right; right; right; right; left; exact ⟨t, c, h1.1, rfl⟩
  | sendNode t c =>
    right; right; right; right; right; right; right; right; left
    exact ⟨t, c, hpart t c h1.1, rfl⟩
  | recvNode t r c =>
    right; right; right; right; right; right; right; right; right; left
    exact ⟨t, r, c, ⟨h1.2.1, hpart t c (hen _ h1.1).1⟩, rfl⟩
  | signal t r c =>
    right; right; right; right; right; right; right; right; right; right
    exact ⟨t, r, c, ⟨hinit r (hen _ h1.1), (signal_part h h1).2.2.1⟩, rfl⟩

theorem allEvents_card (C : Cfg) : (allEvents C).card ≤
    4 * C.ranks + 2 * C.ranks ^ 2 + 2 * C.dim3 * (3 * C.ranks + 2) := by
  unfold allEvents
  have im : ∀ {α : Type} (s : Finset α) (f : α → Event), (s.image f).card ≤ s.card := fun s f => card_image_le
  refine le_trans (card_union_le _ _) ?_
  refine le_trans (Nat.add_le_add (im _ _) (card_union_le _ _)) ?_
  refine le_trans (Nat.add_le_add_left (Nat.add_le_add (im _ _) (card_union_le _ _)) _) ?_
  refine le_trans (Nat.add_le_add_left (Nat.add_le_add_left (Nat.add_le_add (im _ _) (card_union_le _ _)) _) _) ?_
  refine le_trans (Nat.add_le_add_left (Nat.add_le_add_left (Nat.add_le_add_left (Nat.add_le_add (im _ _) (card_union_le _ _)) _) _) _) ?_
  refine le_trans (Nat.add_le_add_left (Nat.add_le_add_left (Nat.add_le_add_left (Nat.add_le_add_left (Nat.add_le_add (im _ _) (card_union_le _ _)) _) _) _) _) ?_
  refine le_trans (Nat.add_le_add_left (Nat.add_le_add_left (Nat.add_le_add_left (Nat.add_le_add_left (Nat.add_le_add_left (Nat.add_le_add (im _ _) (card_union_le _ _)) _) _) _) _) _) ?_
  refine le_trans (Nat.add_le_add_left (Nat.add_le_add_left (Nat.add_le_add_left (Nat.add_le_add_left (Nat.add_le_add_left (Nat.add_le_add_left (Nat.add_le_add (im _ _) (card_union_le _ _)) _) _) _) _) _) _) ?_
  refine le_trans (Nat.add_le_add_left (Nat.add_le_add_left (Nat.add_le_add_left (Nat.add_le_add_left (Nat.add_le_add_left (Nat.add_le_add_left (Nat.add_le_add_left (Nat.add_le_add (im _ _) (card_union_le _ _)) _) _) _) _) _) _) _) ?_
  refine le_trans (Nat.add_le_add_left (Nat.add_le_add_left (Nat.add_le_add_left (Nat.add_le_add_left (Nat.add_le_add_left (Nat.add_le_add_left (Nat.add_le_add_left (Nat.add_le_add_left (Nat.add_le_add (im _ _) (card_union_le _ _)) _) _) _) _) _) _) _) _) ?_
  refine le_trans (Nat.add_le_add_left (Nat.add_le_add_left (Nat.add_le_add_left (Nat.add_le_add_left (Nat.add_le_add_left (Nat.add_le_add_left (Nat.add_le_add_left (Nat.add_le_add_left (Nat.add_le_add_left (Nat.add_le_add (im _ _) (im _ _)) _) _) _) _) _) _) _) _) _) ?_
  simp only [card_product, card_range, card_univ, Fintype.card_bool]
  apply le_of_eq
  ring

theorem reach_bound {C : Cfg} {k : Nat} {s : State} (h : Reach C k s) :
    k ≤ 4 * C.ranks + 2 * C.ranks ^ 2 + 2 * C.dim3 * (3 * C.ranks + 2) := by
  rw [← reach_card h]
  exact le_trans (card_le_card (done_sub h)) (allEvents_card C)

/-- Everything but one send can happen. -/
theorem run_without {C : Cfg} (a b : Nat) : ∀ n k s, Reach C k s → Event.send a b ∉ s.done →
    4 * C.ranks + 2 * C.ranks ^ 2 + 2 * C.dim3 * (3 * C.ranks + 2) ≤ k + n →
    ∃ k' s', Reach C k' s' ∧ Event.send a b ∉ s'.done ∧ ∀ e, e ≠ .send a b → Enabled C s' e → e ∈ s'.done := by
  intro n
  induction n with
  | zero =>
    intro k s h hn hk
    refine ⟨k, s, h, hn, fun e _ he => ?_⟩
    by_contra hc
    have := reach_bound (h.step ⟨e, hc, he, rfl⟩)
    omega
  | succ n ih =>
    intro k s h hn hk
    by_cases hq : ∀ e, e ≠ .send a b → Enabled C s e → e ∈ s.done
    · exact ⟨k, s, h, hn, hq⟩
    · push Not at hq
      obtain ⟨e, hne, he, hd⟩ := hq
      refine ih (k + 1) _ (h.step ⟨e, hd, he, rfl⟩) ?_ (by omega)
      rw [effect_done, mem_insert]
      rintro (h' | h')
      · exact hne h'.symm
      · exact hn h'

end Exch
end Dashmm
