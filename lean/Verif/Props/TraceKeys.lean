import Verif.Props.TraceDb
import Verif.Props.TraceFile
import Verif.Spec.TraceKeys
import Mathlib.Data.List.Induction

/-!
# C115: the keys of the database of a trace, and its transactions
-/

namespace Dashmm

namespace Trace

/-- The event is of one of the types of the tables. -/
def Known (e : Evt) : Prop := ∃ k ∈ dashmmKinds ++ networkKinds, e.tag = k.2.1 ∧ e.seg = k.2.2.1 ∧ e.starts = k.2.2.2.1 ∧ e.ends = k.2.2.2.2

theorem proto_known {cls evt : List Char} {p : Evt} (h : proto cls evt = some p) : Known p := by
  unfold proto at h
  obtain ⟨k, hk, rfl⟩ := Option.map_eq_some_iff.1 h
  refine ⟨k, ?_, rfl, rfl, rfl, rfl⟩
  have hm := List.mem_of_find?_eq_some hk
  unfold kindsOf at hm
  split_ifs at hm
  · exact List.mem_append_right _ hm
  · exact List.mem_append_left _ hm
  · simp at hm

theorem readRecords_proto {p : Evt} {fuel : Nat} {bytes : List Nat} {l : List Evt} (h : readRecords p fuel bytes = some l) :
    ∀ e ∈ l, ∃ t, e = { p with stamp := t } := by
  induction fuel generalizing bytes l with
  | zero => simp only [readRecords, Option.some.injEq] at h; subst h; simp
  | succ n ih =>
    rw [readRecords] at h
    split_ifs at h with h1 h2
    · simp only [Option.some.injEq] at h; subst h; simp
    · obtain ⟨m, hm, rfl⟩ := Option.map_eq_some_iff.1 h
      intro e he
      rcases List.mem_cons.1 he with rfl | he
      · exact ⟨_, rfl⟩
      · exact ih hm e he

theorem loaded_known {fs : List TFile} (h : Loaded fs) : ∀ f ∈ fs, ∀ e ∈ f.events, Known e := by
  intro f hf e he
  obtain ⟨name, bytes, hl⟩ := h f hf
  unfold load at hl
  cases hi : interpret name with
  | none => rw [hi] at hl; simp at hl
  | some x =>
    cases hk : skipHeader bytes with
    | none => rw [hi, hk] at hl; simp at hl
    | some r =>
      obtain ⟨l, w, p⟩ := x
      rw [hi, hk] at hl
      simp only at hl
      obtain ⟨es, hes, rfl⟩ := Option.map_eq_some_iff.1 hl
      obtain ⟨t, rfl⟩ := readRecords_proto hes e he
      have hp : Known p := by
        unfold interpret at hi
        split at hi
        · split at hi
          · simp only at hi
            split_ifs at hi
            obtain ⟨q, hq, e⟩ := Option.map_eq_some_iff.1 hi
            cases e
            exact proto_known hq
          · cases hi
        · cases hi
      exact hp

theorem known_mk {t u : Nat} {g : String} {i : Nat} {b c : Bool} (h : Known ⟨t, g, i, b, c⟩) : Known ⟨u, g, i, b, c⟩ := h

theorem known_shift {z : Nat} {e : Evt} (h : Known e) : Known (shift z e) := by
  obtain ⟨t, g, i, b, c⟩ := e
  rw [shift]
  exact known_mk h

theorem readsZero_keys {fs : List TFile} {S : St} (h : ReadsZero fs S) :
    (∀ k, k ∈ S.ws.map key ↔ ∃ f ∈ fs, fkey f = k) ∧ S.ws.Pairwise lt := by
  obtain ⟨S0, ws, h0, h1, h2⟩ := h
  have hI : Inv fs S0 := by simpa using Inv.start.adds h0
  unfold resetZero at h1
  split_ifs at h1
  cases h1
  unfold Finalizes at h2
  simp only [hI.open_, Bool.false_eq_true, if_false] at h2
  have hF := h2.2.2.2.2
  refine ⟨fun k => ?_, fin_lt hF ?_⟩
  · rw [fin_keys hF, ← hI.keys k, List.map_map]
    rfl
  · rw [List.pairwise_map]
    exact hI.sorted

theorem readsZero_known {fs : List TFile} {S : St} (h : ReadsZero fs S) (hl : Loaded fs) : ∀ w ∈ S.ws, ∀ e ∈ w.events, Known e := by
  obtain ⟨S0, ws, h0, h1, h2⟩ := h
  have hI : Inv fs S0 := by simpa using Inv.start.adds h0
  unfold resetZero at h1
  split_ifs at h1
  cases h1
  unfold Finalizes at h2
  simp only [hI.open_, Bool.false_eq_true, if_false] at h2
  intro w hw e he
  obtain ⟨w1, hw1, _, _, _, p, _⟩ := fin_mem h2.2.2.2.2 hw
  obtain ⟨w0, hw0, rfl⟩ := List.mem_map.1 hw1
  have he := p.mem_iff.1 he
  simp only at he
  have hall : ∀ x ∈ w0.events, Known x := by
    intro x hx
    rw [hI.records w0 hw0] at hx
    obtain ⟨f, hf, hx⟩ := List.mem_flatMap.1 hx
    exact loaded_known hl f (List.mem_filter.1 hf).1 x hx
  unfold resetWith at he
  split_ifs at he
  · obtain ⟨x, hx, rfl⟩ := List.mem_map.1 he
    exact known_shift (hall x hx)
  · exact hall e he

theorem known_tag {e e' : Evt} (h : Known e) (h' : Known e') (ht : e.tag = e'.tag) : e.seg = e'.seg := by
  obtain ⟨k, hk, a, b, _⟩ := h
  obtain ⟨k', hk', a', b', _⟩ := h'
  have : ∀ k ∈ dashmmKinds ++ networkKinds, ∀ k' ∈ dashmmKinds ++ networkKinds, k.2.1 = k'.2.1 → k.2.2.1 = k'.2.2.1 := by decide +kernel
  rw [b, b']
  exact this k hk k' hk' (by rw [← a, ← a', ht])

theorem known_seg {e : Evt} (h : Known e) : e.seg ≤ 13 := by
  obtain ⟨k, hk, _, b, _⟩ := h
  have : ∀ k ∈ dashmmKinds ++ networkKinds, k.2.2.1 ≤ 13 := by decide
  rw [b]; exact this k hk

theorem segName_inj {i j : Nat} (hi : i ≤ 13) (hj : j ≤ 13) (h : segName i = segName j) : i = j := by
  have : ∀ i < 14, ∀ j < 14, segName i = segName j → i = j := by decide +kernel
  exact this i (by omega) j (by omega) h

theorem known_regular {e : Evt} (h : Known e) : e.seg ≠ 0 → e.starts = !e.ends := by
  obtain ⟨k, hk, _, b, c, d⟩ := h
  have : ∀ k ∈ dashmmKinds ++ networkKinds, k.2.2.1 ≠ 0 → k.2.2.2.1 = !k.2.2.2.2 := by decide
  rw [b, c, d]; exact this k hk

theorem enter_fst {l : List (String × Nat)} {k : String} {v : Nat} : ∀ s, s ∈ (enter l k v).map Prod.fst ↔ s ∈ l.map Prod.fst ∨ s = k := by
  intro s
  unfold enter
  split_ifs with h
  · obtain ⟨x, hx, e⟩ := List.any_eq_true.1 h
    have e := of_decide_eq_true e
    constructor
    · exact Or.inl
    · rintro (h | rfl)
      · exact h
      · exact List.mem_map.2 ⟨x, hx, e⟩
  · simp

theorem enter_nodup {l : List (String × Nat)} {k : String} {v : Nat} (h : (l.map Prod.fst).Nodup) : ((enter l k v).map Prod.fst).Nodup := by
  unfold enter
  split_ifs with hk
  · exact h
  · rw [List.map_append, List.nodup_append]
    refine ⟨h, by simp, ?_⟩
    intro a ha b hb e
    simp only [List.map_cons, List.map_nil, List.mem_singleton] at hb
    subst e; subst hb
    obtain ⟨x, hx, e⟩ := List.mem_map.1 ha
    exact hk (List.any_eq_true.2 ⟨x, hx, by simpa using e⟩)

theorem segRows_spec (l : List Evt) :
    let T := l.foldl (fun l e => enter l (segName e.seg) e.seg) []
    (T.map Prod.fst).Nodup ∧ (∀ x ∈ T, ∃ e ∈ l, x = (segName e.seg, e.seg)) ∧ ∀ e ∈ l, segName e.seg ∈ T.map Prod.fst := by
  induction l using List.reverseRecOn with
  | nil => simp
  | append_singleton l e ih =>
    simp only [List.foldl_append, List.foldl_cons, List.foldl_nil]
    obtain ⟨a, b, c⟩ := ih
    refine ⟨enter_nodup a, ?_, ?_⟩
    · intro x hx
      unfold enter at hx
      split_ifs at hx with hk
      · obtain ⟨y, hy, r⟩ := b x hx
        exact ⟨y, List.mem_append_left _ hy, r⟩
      · rcases List.mem_append.1 hx with hx | hx
        · obtain ⟨y, hy, r⟩ := b x hx
          exact ⟨y, List.mem_append_left _ hy, r⟩
        · exact ⟨e, by simp, by simpa using hx⟩
    · intro y hy
      rw [enter_fst]
      rcases List.mem_append.1 hy with hy | hy
      · exact Or.inl (c y hy)
      · rw [List.mem_singleton] at hy; subst hy; exact Or.inr rfl

theorem clsRows_spec (l : List Evt) :
    let T := l.foldl (fun l e => enter l (className e) l.length) []
    (T.map Prod.fst).Nodup ∧ T.map Prod.snd = List.range T.length ∧ ∀ s, s ∈ T.map Prod.fst ↔ ∃ e ∈ l, className e = s := by
  induction l using List.reverseRecOn with
  | nil => simp
  | append_singleton l e ih =>
    simp only [List.foldl_append, List.foldl_cons, List.foldl_nil]
    obtain ⟨a, b, c⟩ := ih
    refine ⟨enter_nodup a, ?_, ?_⟩
    · rw [enter]
      split_ifs with hk
      · exact b
      · rw [List.map_append, b, List.length_append, List.map_singleton, List.length_singleton, List.range_succ]
    · intro s
      rw [enter_fst, c s]
      constructor
      · rintro (⟨y, hy, r⟩ | rfl)
        · exact ⟨y, List.mem_append_left _ hy, r⟩
        · exact ⟨e, by simp, rfl⟩
      · rintro ⟨y, hy, r⟩
        rcases List.mem_append.1 hy with hy | hy
        · exact Or.inl ⟨y, hy, r⟩
        · rw [List.mem_singleton] at hy; subst hy; exact Or.inr r.symm

/-- The connection after `k` statements of the loop, a transaction with `t` rows being open (none, if `t` is zero). -/
def connAt (s t : Nat) : Conn := ⟨s, if t = 0 then none else some t⟩

theorem tx_ok (n : Nat) : ∀ s t, t < 10000 → execAll (connAt s t) (txLoop t n) = some ⟨s + t + n, none⟩ := by
  induction n with
  | zero =>
    intro s t ht
    rw [txLoop]
    unfold connAt
    by_cases h : t = 0
    · subst h; simp [execAll]
    · simp only [h, if_false]
      rw [if_pos (⟨by omega, ht⟩ : t > 0 ∧ t < 10000)]; simp [execAll, Conn.exec]
  | succ n ih =>
    intro s t ht
    have hrest : execAll ⟨s, some (t + 1)⟩ (if t + 1 = 10000 then .end_ :: txLoop 0 n else txLoop (t + 1) n) = some ⟨s + t + (n + 1), none⟩ := by
      split_ifs with h
      · have := ih (s + (t + 1)) 0 (by omega)
        simp only [execAll, List.foldlM_cons, Conn.exec, connAt, if_true] at this ⊢
        rw [Option.bind_eq_bind, Option.bind_some, this]
        congr 2; omega
      · have := ih s (t + 1) (by omega)
        unfold connAt at this
        rw [if_neg (by omega)] at this
        rw [this]
        congr 2; omega
    rw [txLoop]
    unfold connAt
    by_cases h : t = 0
    · subst h
      simp only [if_true, List.cons_append, List.nil_append]
      simp only [execAll, List.foldlM_cons, Conn.exec, Option.bind_eq_bind, Option.bind_some] at hrest ⊢
      exact hrest
    · simp only [h, if_false, List.nil_append]
      simp only [execAll, List.foldlM_cons, Conn.exec, Option.bind_eq_bind, Option.bind_some] at hrest ⊢
      exact hrest

theorem execAll_cons {c : Conn} {a : Stmt} {l : List Stmt} : execAll c (a :: l) = (c.exec a).bind fun c' => execAll c' l := by
  simp [execAll]

theorem tx_prefix (n : Nat) : ∀ s t, t < 10000 → s % 10000 = 0 → ∀ l r, txLoop t n = l ++ r → r ≠ [] →
    ∃ c, execAll (connAt s t) l = some c ∧ c.stored % 10000 = 0 ∧ c.stored ≤ s + t + n := by
  induction n with
  | zero =>
    intro s t ht hs l r h hr
    unfold txLoop at h
    split_ifs at h with h0
    · cases l with
      | nil => exact ⟨_, rfl, hs, by simp only [connAt]; omega⟩
      | cons a l =>
        simp only [List.cons_append, List.cons.injEq] at h
        have := h.2.symm
        rw [List.append_eq_nil_iff] at this
        exact absurd this.2 hr
    · have := h.symm
      rw [List.append_eq_nil_iff] at this
      exact absurd this.2 hr
  | succ n ih =>
    intro s t ht hs l r h hr
    -- after the row has been inserted
    have hrest : ∀ l r, (if t + 1 = 10000 then .end_ :: txLoop 0 n else txLoop (t + 1) n) = l ++ r → r ≠ [] →
        ∃ c, execAll ⟨s, some (t + 1)⟩ l = some c ∧ c.stored % 10000 = 0 ∧ c.stored ≤ s + t + (n + 1) := by
      intro l r h hr
      split_ifs at h with h1
      · cases l with
        | nil => exact ⟨_, rfl, hs, by simp only; omega⟩
        | cons a l =>
          simp only [List.cons_append, List.cons.injEq] at h
          obtain ⟨rfl, h⟩ := h
          obtain ⟨c, e1, e2, e3⟩ := ih (s + (t + 1)) 0 (by omega) (by omega) l r h hr
          refine ⟨c, ?_, e2, by omega⟩
          rw [execAll_cons]
          exact e1
      · obtain ⟨c, e1, e2, e3⟩ := ih s (t + 1) (by omega) hs l r h hr
        refine ⟨c, ?_, e2, by omega⟩
        unfold connAt at e1
        rw [if_neg (by omega)] at e1
        exact e1
    have hins : ∀ l r, Stmt.insert :: (if t + 1 = 10000 then .end_ :: txLoop 0 n else txLoop (t + 1) n) = l ++ r → r ≠ [] →
        ∃ c, execAll ⟨s, some t⟩ l = some c ∧ c.stored % 10000 = 0 ∧ c.stored ≤ s + t + (n + 1) := by
      intro l r h hr
      cases l with
      | nil => exact ⟨_, rfl, hs, by simp only; omega⟩
      | cons a l =>
        rw [List.cons_append] at h
        injection h with h1 h2
        subst h1
        rw [execAll_cons]
        exact hrest l r h2 hr
    rw [txLoop] at h
    unfold connAt
    by_cases h0 : t = 0
    · subst h0
      simp only [if_true, List.cons_append, List.nil_append] at h
      cases l with
      | nil => exact ⟨_, rfl, hs, by simp only; omega⟩
      | cons a l =>
        rw [List.cons_append] at h
        injection h with h1 h2
        subst h1
        rw [execAll_cons]
        exact hins l r h2 hr
    · simp only [h0, if_false, List.nil_append] at h ⊢
      exact hins l r h hr

theorem txLoop_inserts (n : Nat) : ∀ t, (txLoop t n).count .insert = n := by
  induction n with
  | zero => intro t; unfold txLoop; split_ifs <;> simp
  | succ n ih =>
    intro t
    rw [txLoop]
    by_cases h0 : t = 0 <;> by_cases h1 : t + 1 = 10000 <;> simp [h0, h1, ih] <;> split_ifs <;> simp [ih]

end Trace

open Trace

/-- The table Locality has the localities of the files, each once; negative ones are left out. -/
theorem C115_localities {fs : List TFile} (hfs : fs ≠ []) {S : St} (h : ReadsZero fs S) :
    ∃ L, localityRows S.ws = some L ∧ L.Nodup ∧ ∀ i : Nat, i ∈ L ↔ ∃ f ∈ fs, f.loc = (i : Int) := by
  obtain ⟨hk, hs⟩ := readsZero_keys h
  have hloc : ∀ i : Int, (∃ w ∈ S.ws, w.loc = i) ↔ ∃ f ∈ fs, f.loc = i := by
    intro i
    constructor
    · rintro ⟨w, hw, rfl⟩
      obtain ⟨f, hf, e⟩ := (hk (key w)).1 (List.mem_map_of_mem hw)
      exact ⟨f, hf, congrArg Prod.fst e⟩
    · rintro ⟨f, hf, rfl⟩
      obtain ⟨w, hw, e⟩ := List.mem_map.1 ((hk (fkey f)).2 ⟨f, hf, rfl⟩)
      exact ⟨w, hw, congrArg Prod.fst e⟩
  have hmax : ∀ l : List Wrk, l.Pairwise lt → ∀ x, l.getLast? = some x → ∀ w ∈ l, w.loc ≤ x.loc := by
    intro l hl x hx w hw
    obtain ⟨l', rfl⟩ := List.getLast?_eq_some_iff.1 hx
    rcases List.mem_append.1 hw with hw | hw
    · have := (List.pairwise_append.1 hl).2.2 w hw x (by simp)
      simp only [lt, before, Bool.or_eq_true, Bool.and_eq_true, decide_eq_true_eq] at this
      omega
    · rw [List.mem_singleton] at hw; subst hw; exact le_refl _
  unfold localityRows
  cases hL : S.ws.getLast? with
  | none =>
    rw [List.getLast?_eq_none_iff] at hL
    obtain ⟨f, hf⟩ := List.exists_mem_of_ne_nil fs hfs
    have := (hk (fkey f)).2 ⟨f, hf, rfl⟩
    rw [hL] at this; simp at this
  | some x =>
    refine ⟨_, rfl, List.nodup_range.filter _, fun i => ?_⟩
    rw [List.mem_filter, List.mem_range, ← hloc]
    constructor
    · rintro ⟨_, hi⟩
      obtain ⟨w, hw, e⟩ := List.any_eq_true.1 hi
      exact ⟨w, hw, of_decide_eq_true e⟩
    · rintro ⟨w, hw, e⟩
      have := hmax _ hs x hL w hw
      exact ⟨by omega, List.any_eq_true.2 ⟨w, hw, decide_eq_true e⟩⟩

/-- The table Worker has the workers of the files, each once, with numbers that are different. -/
theorem C115_workers {fs : List TFile} {S : St} (h : ReadsZero fs S) : ((workerRows S.ws).map Prod.fst).Nodup ∧
    ((workerRows S.ws).map Prod.snd).Nodup ∧ ∀ wid loc, (wid, loc) ∈ (workerRows S.ws).map Prod.snd ↔ ∃ f ∈ fs, f.loc = loc ∧ f.wid = wid := by
  obtain ⟨hk, hs⟩ := readsZero_keys h
  refine ⟨?_, ?_, ?_⟩
  · have := readsZero_gids h
    unfold workerRows
    rw [List.map_map]; exact this
  · unfold workerRows
    rw [List.map_map, List.Nodup, List.pairwise_map]
    refine List.Pairwise.imp ?_ hs
    intro a b hab e
    simp only [Function.comp, Prod.mk.injEq] at e
    exact lt_keys hab (by simp [key, e.1, e.2])
  · intro wid loc
    unfold workerRows
    rw [List.map_map]
    constructor
    · intro hm
      obtain ⟨w, hw, e⟩ := List.mem_map.1 hm
      simp only [Function.comp, Prod.mk.injEq] at e
      obtain ⟨f, hf, e'⟩ := (hk (key w)).1 (List.mem_map_of_mem hw)
      simp only [fkey, key, Prod.mk.injEq] at e'
      exact ⟨f, hf, e'.1.trans e.2, e'.2.trans e.1⟩
    · rintro ⟨f, hf, rfl, rfl⟩
      obtain ⟨w, hw, e⟩ := List.mem_map.1 ((hk (fkey f)).2 ⟨f, hf, rfl⟩)
      simp only [fkey, key, Prod.mk.injEq] at e
      exact List.mem_map.2 ⟨w, hw, by simp [e.1, e.2]⟩

/-- The table Segmenttype has the types of segments of the events, each once, with its name. -/
theorem C115_segment_types {fs : List TFile} (hl : Loaded fs) {S : St} (h : ReadsZero fs S) :
    ((segmentTypeRows S.ws).map Prod.snd).Nodup ∧
      ∀ n i, (n, i) ∈ segmentTypeRows S.ws ↔ n = segName i ∧ ∃ w ∈ S.ws, ∃ e ∈ w.events, e.seg = i := by
  have hkn := readsZero_known h hl
  obtain ⟨a, b, c⟩ := segRows_spec (S.ws.flatMap Wrk.events)
  have hfst : ∀ x ∈ segmentTypeRows S.ws, x.1 = segName x.2 := by
    intro x hx
    obtain ⟨e, _, rfl⟩ := b x hx
    rfl
  refine ⟨?_, ?_⟩
  · have h1 : (segmentTypeRows S.ws).map Prod.fst = ((segmentTypeRows S.ws).map Prod.snd).map segName := by
      rw [List.map_map]; exact List.map_congr_left hfst
    have h2 : ((segmentTypeRows S.ws).map Prod.fst).Nodup := a
    rw [h1] at h2
    exact List.Pairwise.imp (fun {a b} hab e => hab (congrArg segName e)) (List.pairwise_map.1 h2)
  · intro n i
    constructor
    · intro hm
      obtain ⟨e, he, r⟩ := b _ hm
      obtain ⟨w, hw, he⟩ := List.mem_flatMap.1 he
      simp only [Prod.mk.injEq] at r
      obtain ⟨rfl, rfl⟩ := r
      exact ⟨rfl, w, hw, e, he, rfl⟩
    · rintro ⟨rfl, w, hw, e, he, rfl⟩
      have he' : e ∈ S.ws.flatMap Wrk.events := List.mem_flatMap.2 ⟨w, hw, he⟩
      obtain ⟨x, hx, r⟩ := List.mem_map.1 (c e he')
      obtain ⟨y, hy, rfl⟩ := b x hx
      obtain ⟨w', hw', hy⟩ := List.mem_flatMap.1 hy
      simp only at r
      have := segName_inj (known_seg (hkn w' hw' y hy)) (known_seg (hkn w hw e he)) r
      rw [this] at hx
      exact hx

/-- The class of an event that is read from a file: `network` for the class NETWORK in the name of the
file and `trace` for all others. -/
theorem C115_class_names {cls evt : List Char} {p : Evt} (h : proto cls evt = some p) (stamp : Nat) :
    className { p with stamp := stamp } = if cls = "NETWORK".toList then "network" else "trace" := by
  have hn : ∀ k ∈ networkKinds, (networkKinds.any fun k' => decide (k'.2.1 = k.2.1)) = true := by decide +kernel
  have hd : ∀ k ∈ dashmmKinds, (networkKinds.any fun k' => decide (k'.2.1 = k.2.1)) = false := by decide +kernel
  unfold proto at h
  cases hf : (kindsOf cls).find? fun k => decide (k.1.toList = evt) with
  | none => rw [hf] at h; cases h
  | some k =>
    rw [hf] at h
    have hk := List.mem_of_find?_eq_some hf
    injection h with h
    subst h
    unfold kindsOf at hk
    simp only [className]
    split_ifs at hk with h1 h2
    · rw [if_pos h1, if_pos (hn k hk)]
    · rw [if_neg h1, hd k hk]; rfl
    · cases hk

/-- The table Eventclass: numbers from 0, names that are different, the classes of the events. -/
theorem C115_classes (S : St) : (eventClassRows S.ws).map Prod.snd = List.range (eventClassRows S.ws).length ∧
    ((eventClassRows S.ws).map Prod.fst).Nodup ∧
      ∀ s, s ∈ (eventClassRows S.ws).map Prod.fst ↔ ∃ w ∈ S.ws, ∃ e ∈ w.events, className e = s := by
  obtain ⟨a, b, c⟩ := clsRows_spec (S.ws.flatMap Wrk.events)
  refine ⟨b, a, fun s => ?_⟩
  refine (c s).trans ?_
  constructor
  · rintro ⟨e, he, r⟩
    obtain ⟨w, hw, he⟩ := List.mem_flatMap.1 he
    exact ⟨w, hw, e, he, r⟩
  · rintro ⟨w, hw, e, he, r⟩
    exact ⟨e, List.mem_flatMap.2 ⟨w, hw, he⟩, r⟩

/-- The table Eventtype has one row for each type of events; its class and its type of segments, which are rows of their tables, are those of each of the
events of the type. -/
theorem C115_types {fs : List TFile} (hl : Loaded fs) {S : St} (h : ReadsZero fs S) :
    (eventTypeRows S.ws).map TypeRow.id = List.range (eventTypeRows S.ws).length ∧ ((eventTypeRows S.ws).map TypeRow.name).Nodup ∧
    (∀ w ∈ S.ws, ∀ e ∈ w.events, ∃ r ∈ eventTypeRows S.ws, r.name = e.tag) ∧
    ∀ r ∈ eventTypeRows S.ws, ∃ c s, r.cls = some c ∧ r.seg = some s ∧ (segName s, s) ∈ segmentTypeRows S.ws ∧
      (∃ w ∈ S.ws, ∃ e ∈ w.events, e.tag = r.name) ∧
      ∀ w ∈ S.ws, ∀ e ∈ w.events, e.tag = r.name → e.seg = s ∧ (className e, c) ∈ eventClassRows S.ws := by
  have hkn := readsZero_known h hl
  obtain ⟨n1, n2⟩ := C113_types S
  have hnames : (eventTypeRows S.ws).map TypeRow.name = typeNames S.ws := by
    unfold eventTypeRows
    rw [List.map_map]
    exact (List.zipIdx_map_fst 0 (typeNames S.ws))
  refine ⟨?_, by rw [hnames]; exact n1, ?_, ?_⟩
  · unfold eventTypeRows
    rw [List.map_map, List.length_map, List.length_zipIdx]
    have : ((fun r : TypeRow => r.id) ∘ fun x : String × Nat =>
        (⟨x.2, (firstOf S.ws x.1).bind fun e => ((eventClassRows S.ws).find? fun c => decide (c.1 = className e)).map Prod.snd, x.1,
          (firstOf S.ws x.1).map Evt.seg⟩ : TypeRow)) = Prod.snd := rfl
    rw [List.range_eq_range']
    exact List.zipIdx_map_snd 0 (typeNames S.ws)
  · intro w hw e he
    have := (n2 e.tag).2 ⟨w, hw, e, he, rfl⟩
    rw [← hnames] at this
    obtain ⟨r, hr, q⟩ := List.mem_map.1 this
    exact ⟨r, hr, q⟩
  · intro r hr
    have hname : r.name ∈ typeNames S.ws := by rw [← hnames]; exact List.mem_map_of_mem hr
    obtain ⟨w0, hw0, e0, he0, ht0⟩ := (n2 r.name).1 hname
    obtain ⟨x, hx, rfl⟩ := List.mem_map.1 hr
    simp only at hname ht0 ⊢
    obtain ⟨f, hf⟩ : ∃ f, firstOf S.ws x.1 = some f := by
      unfold firstOf
      rw [← Option.isSome_iff_exists, List.find?_isSome]
      exact ⟨e0, List.mem_flatMap.2 ⟨w0, hw0, he0⟩, by simpa using ht0⟩
    have hft : f.tag = x.1 := by simpa using List.find?_some hf
    obtain ⟨wf, hwf, hfm⟩ := List.mem_flatMap.1 (List.mem_of_find?_eq_some hf)
    obtain ⟨_, c1, c2⟩ := C115_classes S
    obtain ⟨y, hy⟩ : ∃ y, ((eventClassRows S.ws).find? fun c => decide (c.1 = className f)) = some y := by
      rw [← Option.isSome_iff_exists, List.find?_isSome]
      obtain ⟨z, hz, q⟩ := List.mem_map.1 ((c2 (className f)).2 ⟨wf, hwf, f, hfm, rfl⟩)
      exact ⟨z, hz, by simpa using q⟩
    have hyn : y.1 = className f := by simpa using List.find?_some hy
    refine ⟨y.2, f.seg, by rw [hf]; simp [hy], by rw [hf]; rfl, ((C115_segment_types hl h).2 _ _).2 ⟨rfl, wf, hwf, f, hfm, rfl⟩,
      ⟨w0, hw0, e0, he0, ht0⟩, ?_⟩
    intro w hw e he ht
    have htag : e.tag = f.tag := by rw [ht, hft]
    refine ⟨known_tag (hkn w hw e he) (hkn wf hwf f hfm) htag, ?_⟩
    have : className e = y.1 := by rw [hyn]; unfold className; rw [htag]
    rw [this]
    exact List.mem_of_find?_eq_some hy

/-- In the database of files with localities that are not negative each reference is to a row that exists. -/
theorem C115_references {fs : List TFile} (hl : Loaded fs) (hfs : fs ≠ []) (hpos : ∀ f ∈ fs, 0 ≤ f.loc) {S : St} (h : ReadsZero fs S)
    {rows : List Row} {segs : List Seg} (hd : database S = some (rows, segs)) : ∃ L, localityRows S.ws = some L ∧
    (∀ w ∈ workerRows S.ws, ∃ i ∈ L, w.2.2 = (i : Int)) ∧
    (∀ r ∈ rows, (∃ i ∈ L, r.loc = (i : Int)) ∧ r.gid ∈ (workerRows S.ws).map Prod.fst ∧ ∃ t ∈ eventTypeRows S.ws, r.type = some t.id) ∧
    ∀ s ∈ segs, (∃ i ∈ L, s.loc = (i : Int)) ∧ s.gid ∈ (workerRows S.ws).map Prod.fst ∧ s.kind ∈ (segmentTypeRows S.ws).map Prod.snd ∧
      s.begin_ ∈ rows.map Row.id ∧ s.end_ ∈ rows.map Row.id := by
  obtain ⟨L, hL, _, hLm⟩ := C115_localities hfs h
  obtain ⟨hk, _⟩ := readsZero_keys h
  have hkn := readsZero_known h hl
  have hloc : ∀ w ∈ S.ws, ∃ i ∈ L, w.loc = (i : Int) := by
    intro w hw
    obtain ⟨f, hf, e⟩ := (hk (key w)).1 (List.mem_map_of_mem hw)
    have e : f.loc = w.loc := congrArg Prod.fst e
    have := hpos f hf
    exact ⟨w.loc.toNat, (hLm _).2 ⟨f, hf, by omega⟩, by omega⟩
  have hgid : ∀ w ∈ S.ws, w.gid ∈ (workerRows S.ws).map Prod.fst := by
    intro w hw
    unfold workerRows
    rw [List.map_map]
    exact List.mem_map.2 ⟨w, hw, rfl⟩
  refine ⟨L, hL, ?_, ?_, ?_⟩
  · intro r hr
    obtain ⟨w, hw, rfl⟩ := List.mem_map.1 hr
    exact hloc w hw
  · intro r hr
    obtain ⟨w, hw, hg⟩ := (tables_some hd).2.2.2.1 r hr
    have hF := (C113_events h hd).2 w hw
    have hr' : r ∈ rows.filter fun r => decide (r.gid = w.gid) := List.mem_filter.2 ⟨hr, by simpa using hg⟩
    obtain ⟨i, hi, e⟩ := List.getElem_of_mem hr'
    obtain ⟨he1, he2⟩ := List.forall₂_iff_get.1 hF
    have hR := he2 i hi (by rw [← he1]; exact hi)
    simp only [List.get_eq_getElem] at hR
    rw [e] at hR
    obtain ⟨r1, r2, _, j, r3, r4⟩ := hR
    refine ⟨by rw [r1]; exact hloc w hw, by rw [r2]; exact hgid w hw, ?_⟩
    have hj : j < (typeNames S.ws).length := by
      by_contra hc
      rw [List.getElem?_eq_none (by omega)] at r4
      cases r4
    have hj' : j < (eventTypeRows S.ws).length := by
      unfold eventTypeRows; rw [List.length_map, List.length_zipIdx]; exact hj
    refine ⟨(eventTypeRows S.ws)[j], List.getElem_mem hj', ?_⟩
    rw [r3]
    simp [eventTypeRows]
  · intro s hs
    obtain ⟨hs0, w, hw, hg⟩ := C113_no_others hd s hs
    have hreg : ∀ w ∈ S.ws, Regular w.events := fun w hw e he => known_regular (hkn w hw e he)
    obtain ⟨sg, hsg⟩ := (C113_written hreg).1 (by rw [hd]; rfl) w hw s.kind hs0
    obtain ⟨e1, ⟨e, he, _, _, e2, r, hr, e3, _⟩, _, _, _, _, _, r', hr', e3', _⟩ := (C113_segments h hd hw hs0 hsg).2 s hs hg rfl
    refine ⟨by rw [e1]; exact hloc w hw, by rw [hg]; exact hgid w hw, ?_, List.mem_map.2 ⟨r, hr, e3⟩, List.mem_map.2 ⟨r', hr', e3'⟩⟩
    exact List.mem_map.2 ⟨(segName s.kind, s.kind), ((C115_segment_types hl h).2 _ _).2 ⟨rfl, w, hw, e, he, e2⟩, rfl⟩

/-- Negative localities are accepted in the names of files, and have no row. -/
theorem C115_negative : interpret "-1.0.a.b.TRACE_DASHMM_ZEROREF.log".toList = some (-1, 0, ⟨0, "dashmm zero ref", 0, false, false⟩) ∧
    ∀ {fs : List TFile} (_ : fs ≠ []) {S : St} (_ : ReadsZero fs S) {L : List Nat}, localityRows S.ws = some L →
      ∀ w ∈ S.ws, w.loc < 0 → ¬ ∃ i ∈ L, w.loc = ((i : Nat) : Int) := by
  refine ⟨by decide +kernel, ?_⟩
  rintro fs _ S _ L _ w _ hn ⟨i, _, e⟩
  omega

/-- The rows of the tables Event and Segment are inserted in transactions: no statement fails, at the end all rows are in the database and no transaction
is open. -/
theorem C115_transactions (n : Nat) : execAll ⟨0, none⟩ (txLoop 0 n) = some ⟨n, none⟩ ∧ (txLoop 0 n).count .insert = n := by
  have := tx_ok n 0 0 (by omega)
  simp only [connAt, if_true, Nat.zero_add, Nat.add_zero] at this
  exact ⟨this, txLoop_inserts n 0⟩

/-- When the program ends or throws before the last statement, the rows in the database are the first ones, a multiple of 10000. -/
theorem C115_crash (n : Nat) {l r : List Stmt} (h : txLoop 0 n = l ++ r) (hr : r ≠ []) :
    ∃ c, execAll ⟨0, none⟩ l = some c ∧ c.stored % 10000 = 0 ∧ c.stored ≤ n := by
  obtain ⟨c, a, b, d⟩ := tx_prefix n 0 0 (by omega) rfl l r h hr
  exact ⟨c, a, b, by omega⟩


/-! Two files of a worker that meet all hypotheses. -/

example : ∃ f g S, Loaded [f, g] ∧ f.loc = 0 ∧ g.loc = 0 ∧ ReadsZero [f, g] S ∧ (database S).isSome ∧ localityRows S.ws = some [0] := by
  refine ⟨⟨0, 3, [⟨258, "dashmm stot begin", 2, true, false⟩]⟩, ⟨0, 3, [⟨300, "dashmm stot end", 2, false, true⟩]⟩,
    ⟨true, 2, [⟨0, 3, 0, [⟨258, "dashmm stot begin", 2, true, false⟩, ⟨300, "dashmm stot end", 2, false, true⟩]⟩]⟩, ?_, rfl, rfl, ?_,
    by decide +kernel, by decide +kernel⟩
  · intro f hf
    rcases List.mem_cons.1 hf with rfl | hf
    · exact ⟨"0.3.a.b.TRACE_DASHMM_STOT_BEGIN.log".toList, fileOf [1, 0] [] [258],
        C114_read (p := ⟨0, "dashmm stot begin", 2, true, false⟩) (by decide +kernel) rfl (by decide) (by decide)⟩
    · rcases List.mem_cons.1 hf with rfl | hf
      · exact ⟨"0.3.a.b.TRACE_DASHMM_STOT_END.log".toList, fileOf [1, 0] [] [300],
          C114_read (p := ⟨0, "dashmm stot end", 2, false, true⟩) (by decide +kernel) rfl (by decide) (by decide)⟩
      · simp at hf
  · refine ⟨_, _, rfl, by rfl, ?_⟩
    refine ⟨by decide, by decide, rfl, rfl, List.Forall₂.cons ⟨rfl, rfl, rfl, List.Perm.refl _, ?_⟩ List.Forall₂.nil⟩
    unfold Sorted; simp

example : txLoop 0 2 = [.begin_, .insert, .insert, .end_] := by decide

end Dashmm
