import Verif.Model.PrintEdges
import Verif.Spec.PrintEdges
import Verif.Props.Distro
import Verif.Proofs.Life
import Mathlib.Algebra.BigOperators.Group.List.Basic

/-!
# C108: the report on the edges of the DAG
-/

namespace Dashmm

open Distro

namespace Distro

/-- The entry of a table. -/
def EdgeTable.entry (T : EdgeTable) (i j k : Nat) : Nat := ((T.getD i []).getD j []).getD k 0

/-- A table of the size made for `n` ranks. -/
def EdgeTable.Fits (n : Nat) (T : EdgeTable) : Prop := T.length = 12 ∧ ∀ A ∈ T, A.length = n ∧ ∀ B ∈ A, B.length = n

theorem atPos_some {α : Type} {l : List α} {i : Nat} (h : i < l.length) (f : α → Option α) :
    atPos l (i : Int) f = (f l[i]).map fun y => l.set i y := by
  unfold atPos
  rw [if_neg (by omega), Int.toNat_natCast, List.getElem?_eq_getElem h]

theorem atPos_none {α : Type} {l : List α} {i : Int} (h : i < 0 ∨ (l.length : Int) ≤ i) (f : α → Option α) : atPos l i f = none := by
  unfold atPos
  split_ifs with hn
  · rfl
  · rw [List.getElem?_eq_none (by omega)]

theorem mem_set_cases {α : Type} {l : List α} {i : Nat} {x y : α} (h : x ∈ l.set i y) : x ∈ l ∨ x = y :=
  List.mem_or_eq_of_mem_set h

/-- One edge is counted. -/
theorem bump_ok {n : Nat} {T : EdgeTable} (hT : T.Fits n) {o j k : Nat} (ho : o < 12) (hj : j < n) (hk : k < n) :
    ∃ T', bump T o (j : Int) (k : Int) = some T' ∧ T'.Fits n ∧
      ∀ a b c, T'.entry a b c = T.entry a b c + if a = o ∧ b = j ∧ c = k then 1 else 0 := by
  have hoT : o < T.length := by rw [hT.1]; exact ho
  have hA := hT.2 _ (List.getElem_mem hoT)
  have hjA : j < T[o].length := by rw [hA.1]; exact hj
  have hB := hA.2 _ (List.getElem_mem hjA)
  have hkB : k < T[o][j].length := by rw [hB]; exact hk
  refine ⟨T.set o (T[o].set j (T[o][j].set k (T[o][j][k] + 1))), ?_, ?_, ?_⟩
  · unfold bump
    rw [atPos_some hoT, atPos_some hjA, atPos_some hkB]; rfl
  · refine ⟨by rw [List.length_set]; exact hT.1, fun A hAm => ?_⟩
    rcases mem_set_cases hAm with h | rfl
    · exact hT.2 A h
    · refine ⟨by rw [List.length_set]; exact hA.1, fun B hBm => ?_⟩
      rcases mem_set_cases hBm with h | rfl
      · exact hA.2 B h
      · rw [List.length_set]; exact hB
  · intro a b c
    unfold EdgeTable.entry
    by_cases h1 : a = o
    · subst h1
      rw [List.getD_eq_getElem?_getD (l := T.set _ _), List.getElem?_set_self hoT, Option.getD_some,
        List.getD_eq_getElem?_getD (l := T), List.getElem?_eq_getElem hoT, Option.getD_some]
      by_cases h2 : b = j
      · subst h2
        rw [List.getD_eq_getElem?_getD (l := List.set _ _ _), List.getElem?_set_self hjA, Option.getD_some,
          List.getD_eq_getElem?_getD (l := T[a]), List.getElem?_eq_getElem hjA, Option.getD_some]
        by_cases h3 : c = k
        · subst h3
          rw [List.getD_eq_getElem?_getD (l := List.set _ _ _), List.getElem?_set_self hkB, Option.getD_some,
            List.getD_eq_getElem?_getD (l := T[a][b]), List.getElem?_eq_getElem hkB, Option.getD_some]
          simp
        · rw [List.getD_eq_getElem?_getD (l := List.set _ _ _), List.getElem?_set_ne (Ne.symm h3),
            List.getD_eq_getElem?_getD (l := T[a][b])]
          simp [h3]
      · rw [List.getD_eq_getElem?_getD (l := List.set _ _ _), List.getElem?_set_ne (Ne.symm h2), List.getD_eq_getElem?_getD (l := T[a])]
        simp [h2]
    · rw [List.getD_eq_getElem?_getD (l := T.set _ _), List.getElem?_set_ne (Ne.symm h1), List.getD_eq_getElem?_getD (l := T)]
      simp [h1]

theorem optoint_lt (o : Op) : optoint o < 12 := by cases o <;> decide

theorem opNumber_optoint (o : Op) (i : Nat) : some o = opNumber i ↔ i = optoint o := by
  constructor
  · intro h
    unfold opNumber at h
    split at h <;> cases h <;> rfl
  · rintro rfl; cases o <;> rfl

/-- The edges of one node. -/
theorem bumps_ok {n : Nat} {loc : Ref → Int} (r : Ref) (hr : 0 ≤ loc r ∧ loc r < n) (l : List Edge)
    (hl : ∀ e ∈ l, e.src = r ∧ 0 ≤ loc e.dst ∧ loc e.dst < n) {T : EdgeTable} (hT : T.Fits n) :
    ∃ T', l.foldlM (fun T e => bump T (optoint e.op) (loc r) (loc e.dst)) T = some T' ∧ T'.Fits n ∧
      ∀ a b c, T'.entry a b c = T.entry a b c + edgeCount l loc a b c := by
  induction l generalizing T with
  | nil => exact ⟨T, rfl, hT, by simp [edgeCount]⟩
  | cons e l ih =>
    obtain ⟨hs, h0, h1⟩ := hl e (List.mem_cons_self ..)
    obtain ⟨j, hj⟩ := Int.eq_ofNat_of_zero_le hr.1
    obtain ⟨k, hk⟩ := Int.eq_ofNat_of_zero_le h0
    obtain ⟨T1, e1, f1, c1⟩ := bump_ok hT (optoint_lt e.op) (j := j) (k := k) (by omega) (by omega)
    obtain ⟨T2, e2, f2, c2⟩ := ih (fun x hx => hl x (List.mem_cons_of_mem _ hx)) f1
    refine ⟨T2, ?_, f2, ?_⟩
    · rw [List.foldlM_cons, hj, hk, e1]; rw [hj] at e2; exact e2
    · intro a b c
      rw [c2, c1, edgeCount, edgeCount, List.countP_cons, add_assoc]
      refine congrArg (T.entry a b c + ·) ((add_comm _ _).trans (congrArg (fun z => List.countP _ l + z) ?_))
      simp only [opNumber_optoint, hs, hj, hk, decide_eq_true_eq]
      congr 1
      simp only [eq_iff_iff]
      constructor
      · rintro ⟨rfl, rfl, rfl⟩; exact ⟨rfl, rfl, rfl⟩
      · rintro ⟨h1, h2, h3⟩; exact ⟨h1, by omega, by omega⟩

/-- The edges of a list of nodes. -/
theorem collectEdges_ok {n : Nat} {loc : Ref → Int} {out : Ref → List Edge} (nodes : List Ref)
    (h : ∀ r ∈ nodes, (0 ≤ loc r ∧ loc r < n) ∧ ∀ e ∈ out r, e.src = r ∧ 0 ≤ loc e.dst ∧ loc e.dst < n)
    {T : EdgeTable} (hT : T.Fits n) :
    ∃ T', collectEdges loc out T nodes = some T' ∧ T'.Fits n ∧
      ∀ a b c, T'.entry a b c = T.entry a b c + edgeCount (nodes.flatMap out) loc a b c := by
  induction nodes generalizing T with
  | nil => exact ⟨T, rfl, hT, by simp [edgeCount]⟩
  | cons r l ih =>
    obtain ⟨hr, ho⟩ := h r (List.mem_cons_self ..)
    obtain ⟨T1, e1, f1, c1⟩ := bumps_ok r hr (out r) ho hT
    obtain ⟨T2, e2, f2, c2⟩ := ih (fun x hx => h x (List.mem_cons_of_mem _ hx)) f1
    refine ⟨T2, ?_, f2, ?_⟩
    · unfold collectEdges at e2 ⊢
      rw [List.foldlM_cons, e1]; exact e2
    · intro a b c
      rw [c2, c1, add_assoc]
      unfold edgeCount
      rw [List.flatMap_cons, List.countP_append]

theorem zeroTable_fits (n : Nat) : (zeroTable n).Fits n := by
  unfold zeroTable
  refine ⟨List.length_replicate, fun A hA => ?_⟩
  rw [(List.mem_replicate.1 hA).2]
  refine ⟨List.length_replicate, fun B hB => ?_⟩
  rw [(List.mem_replicate.1 hB).2, List.length_replicate]

theorem zeroTable_entry (n a b c : Nat) : (zeroTable n).entry a b c = 0 := by
  have key : ∀ {α : Type} (m i : Nat) (x d : α), (List.replicate m x).getD i d = if i < m then x else d := by
    intro α m i x d
    rw [List.getD_eq_getElem?_getD, List.getElem?_replicate]; split_ifs <;> rfl
  unfold EdgeTable.entry zeroTable
  rw [key]
  split_ifs
  · rw [key]
    split_ifs
    · rw [key]; split_ifs <;> rfl
    · rfl
  · rfl

/-- The report on lists of nodes. -/
theorem printEdges_ok {n : Nat} {loc : Ref → Int} {out : Ref → List Edge} (sl sn tn : List Ref)
    (h : ∀ r ∈ sl ++ sn ++ tn, (0 ≤ loc r ∧ loc r < n) ∧ ∀ e ∈ out r, e.src = r ∧ 0 ≤ loc e.dst ∧ loc e.dst < n) :
    printEdges loc out sl sn tn n = some (report n (edgeCount ((sl ++ sn ++ tn).flatMap out) loc)) := by
  obtain ⟨T1, e1, f1, c1⟩ := collectEdges_ok sl (fun r hr => h r (by simp [hr])) (zeroTable_fits n)
  obtain ⟨T2, e2, f2, c2⟩ := collectEdges_ok sn (fun r hr => h r (by simp [hr])) f1
  obtain ⟨T3, e3, f3, c3⟩ := collectEdges_ok tn (fun r hr => h r (by simp [hr])) f2
  unfold printEdges
  rw [e1]
  show (collectEdges loc out T1 sn).bind _ = _
  rw [e2]
  show (collectEdges loc out T2 tn).bind _ = _
  rw [e3]
  show some _ = some _
  have hc : ∀ a b c, ((T3.getD a []).getD b []).getD c 0 = edgeCount ((sl ++ sn ++ tn).flatMap out) loc a b c := by
    intro a b c
    have := c3 a b c
    rw [c2, c1, zeroTable_entry] at this
    refine this.trans ?_
    unfold edgeCount
    rw [List.flatMap_append, List.flatMap_append, List.countP_append, List.countP_append]
    omega
  unfold report
  simp only [hc]

/-- A counter outside of the table. -/
theorem bump_none {n : Nat} {T : EdgeTable} (hT : T.Fits n) {o : Nat} {j k : Int} (ho : o < 12)
    (h : ¬ ((0 ≤ j ∧ j < n) ∧ 0 ≤ k ∧ k < n)) : bump T o j k = none := by
  have hoT : o < T.length := by rw [hT.1]; exact ho
  have hA := hT.2 _ (List.getElem_mem hoT)
  unfold bump
  rw [atPos_some hoT]
  by_cases hj : 0 ≤ j ∧ j < n
  · obtain ⟨j, rfl⟩ := Int.eq_ofNat_of_zero_le hj.1
    have hjA : j < T[o].length := by rw [hA.1]; omega
    have hB := hA.2 _ (List.getElem_mem hjA)
    rw [atPos_some hjA, atPos_none (l := T[o][j]) (by rw [hB]; omega)]; rfl
  · rw [atPos_none (l := T[o]) (by rw [hA.1]; omega)]; rfl

theorem bump_fits {n : Nat} {T T' : EdgeTable} (hT : T.Fits n) {o : Nat} {j k : Int} (ho : o < 12) (h : bump T o j k = some T') :
    T'.Fits n := by
  by_cases hc : (0 ≤ j ∧ j < n) ∧ 0 ≤ k ∧ k < n
  · obtain ⟨j, rfl⟩ := Int.eq_ofNat_of_zero_le hc.1.1
    obtain ⟨k, rfl⟩ := Int.eq_ofNat_of_zero_le hc.2.1
    obtain ⟨T1, e1, f1, _⟩ := bump_ok hT ho (j := j) (k := k) (by omega) (by omega)
    rw [e1] at h; cases h; exact f1
  · rw [bump_none hT ho hc] at h; cases h

/-- A loop whose invariant holds as long as it goes on, and which cannot go on at one element. -/
theorem foldlM_none {α β : Type} {P : β → Prop} {f : β → α → Option β} (hP : ∀ x a y, P x → f x a = some y → P y) {l : List α}
    {a : α} (ha : a ∈ l) (hn : ∀ x, P x → f x a = none) {x : β} (hx : P x) : l.foldlM f x = none := by
  induction l generalizing x with
  | nil => cases ha
  | cons b l ih =>
    rw [List.foldlM_cons]
    cases hb : f x b with
    | none => rfl
    | some y =>
      rcases List.mem_cons.1 ha with rfl | h
      · rw [hn x hx] at hb; cases hb
      · exact ih h (hP _ _ _ hx hb)

theorem foldlM_inv {α β : Type} {P : β → Prop} {f : β → α → Option β} (hP : ∀ x a y, P x → f x a = some y → P y) {l : List α}
    {x y : β} (hx : P x) (h : l.foldlM f x = some y) : P y := by
  induction l generalizing x with
  | nil => cases h; exact hx
  | cons b l ih =>
    rw [List.foldlM_cons] at h
    cases hb : f x b with
    | none => rw [hb] at h; cases h
    | some z => rw [hb] at h; exact ih (hP _ _ _ hx hb) h

theorem collectEdges_fits {n : Nat} {loc : Ref → Int} {out : Ref → List Edge} {nodes : List Ref} {T T' : EdgeTable} (hT : T.Fits n)
    (h : collectEdges loc out T nodes = some T') : T'.Fits n :=
  foldlM_inv (P := EdgeTable.Fits n) (fun _ _ _ hx hy => foldlM_inv (P := EdgeTable.Fits n)
    (fun _ e _ hx hy => bump_fits hx (optoint_lt e.op) hy) hx hy) hT h

theorem collectEdges_none {n : Nat} {loc : Ref → Int} {out : Ref → List Edge} {nodes : List Ref} {r : Ref} (hr : r ∈ nodes) {e : Edge}
    (he : e ∈ out r) (h : ¬ ((0 ≤ loc r ∧ loc r < n) ∧ 0 ≤ loc e.dst ∧ loc e.dst < n)) {T : EdgeTable} (hT : T.Fits n) :
    collectEdges loc out T nodes = none :=
  foldlM_none (P := EdgeTable.Fits n) (fun _ _ _ hx hy => foldlM_inv (P := EdgeTable.Fits n)
    (fun _ e _ hx hy => bump_fits hx (optoint_lt e.op) hy) hx hy) hr
    (fun _ hx => foldlM_none (P := EdgeTable.Fits n) (fun _ e _ hx hy => bump_fits hx (optoint_lt e.op) hy) he
      (fun _ hx => bump_none hx (optoint_lt e.op) h) hx) hT

theorem printEdges_none {n : Nat} {loc : Ref → Int} {out : Ref → List Edge} {sl sn tn : List Ref} {r : Ref} (hr : r ∈ sl ++ sn ++ tn)
    {e : Edge} (he : e ∈ out r) (h : ¬ ((0 ≤ loc r ∧ loc r < n) ∧ 0 ≤ loc e.dst ∧ loc e.dst < n)) :
    printEdges loc out sl sn tn n = none := by
  unfold printEdges
  cases h1 : collectEdges loc out (zeroTable n) sl with
  | none => rfl
  | some T1 =>
    have f1 := collectEdges_fits (zeroTable_fits n) h1
    show (collectEdges loc out T1 sn).bind _ = _
    cases h2 : collectEdges loc out T1 sn with
    | none => rfl
    | some T2 =>
      have f2 := collectEdges_fits f1 h2
      show (collectEdges loc out T2 tn).bind _ = _
      cases h3 : collectEdges loc out T2 tn with
      | none => rfl
      | some T3 =>
        rcases List.mem_append.1 hr with hr | hr
        · rcases List.mem_append.1 hr with hr | hr
          · rw [collectEdges_none hr he h (zeroTable_fits n)] at h1; cases h1
          · rw [collectEdges_none hr he h f1] at h2; cases h2
        · rw [collectEdges_none hr he h f2] at h3; cases h3

/-- The edges are those that leave the nodes. -/
theorem count_by_source (es : List Edge) (P : Edge → Bool) {l : List Ref} (hn : l.Nodup) {out : Ref → List Edge}
    (ho : ∀ r, (out r).Perm (es.filter fun e => e.src = r)) :
    (l.flatMap out).countP P = es.countP fun e => P e && decide (e.src ∈ l) := by
  induction l with
  | nil => simp
  | cons r l ih =>
    obtain ⟨hr, hn⟩ := List.nodup_cons.1 hn
    rw [List.flatMap_cons, List.countP_append, ih hn, (ho r).countP_eq, List.countP_filter]
    clear ho ih
    induction es with
    | nil => rfl
    | cons e es ih =>
      simp only [List.countP_cons] at ih ⊢
      by_cases h1 : e.src = r
      · have h2 : e.src ∉ l := h1 ▸ hr
        cases hP : P e <;> simp [h1, hr] <;> simp at ih <;> omega
      · cases hP : P e <;> by_cases h2 : e.src ∈ l <;> simp [h1, h2] <;> simp at ih <;> omega

/-- The sum of all the counts. -/
theorem sum_counts {es : List Edge} {loc : Ref → Int} {n : Nat}
    (h : ∀ e ∈ es, (0 ≤ loc e.src ∧ loc e.src < n) ∧ 0 ≤ loc e.dst ∧ loc e.dst < n) :
    ∑ i ∈ Finset.range 12, ∑ j ∈ Finset.range n, ∑ k ∈ Finset.range n, edgeCount es loc i j k = es.length := by
  induction es with
  | nil => simp [edgeCount]
  | cons e es ih =>
    have ih := ih fun x hx => h x (List.mem_cons_of_mem _ hx)
    obtain ⟨⟨a, b⟩, c, d⟩ := h e (List.mem_cons_self ..)
    obtain ⟨j0, hj0⟩ := Int.eq_ofNat_of_zero_le a
    obtain ⟨k0, hk0⟩ := Int.eq_ofNat_of_zero_le c
    have hc : ∀ i j k, edgeCount (e :: es) loc i j k = edgeCount es loc i j k +
        (if i = optoint e.op then if j = j0 then if k = k0 then 1 else 0 else 0 else 0) := by
      intro i j k
      unfold edgeCount
      rw [List.countP_cons]
      refine congrArg (fun z => List.countP _ es + z) ?_
      rw [hj0, hk0]
      simp only [opNumber_optoint, decide_eq_true_eq, ← ite_and]
      congr 1
      simp only [eq_iff_iff]
      constructor
      · rintro ⟨h1, h2, h3⟩; exact ⟨h1, by omega, by omega⟩
      · rintro ⟨h1, h2, h3⟩; exact ⟨h1, by omega, by omega⟩
    simp only [hc, Finset.sum_add_distrib, ih]
    rw [List.length_cons]
    refine congrArg (es.length + ·) ?_
    rw [Finset.sum_eq_single_of_mem (optoint e.op) (Finset.mem_range.2 (optoint_lt _)) (fun i _ hi => by simp [hi])]
    simp only [if_true]
    rw [Finset.sum_eq_single_of_mem j0 (Finset.mem_range.2 (by omega)) (fun i _ hi => by simp [hi])]
    simp only [if_true]
    rw [Finset.sum_eq_single_of_mem k0 (Finset.mem_range.2 (by omega)) (fun i _ hi => by simp [hi]), if_pos rfl]

end Distro

section
variable {m : Method} (hm : Builtin m) {unif : Nat} {same : Bool} {s t : Fin 8 → Oct} {acts : List Act}
  (hrun : Runs (createProg m unif same s t) acts)
  -- the edges out of a node and the nodes of the DAG, in any order
  {out : Ref → List Edge} (hout : ∀ r, (out r).Perm ((edgesOf acts).filter fun e => e.src = r)) {sl sn tn : List Ref}
  (hsl : sl.Perm (collectDag acts s t).sourceLeaves) (hsn : sn.Perm (collectDag acts s t).sourceNodes)
  (htn : tn.Perm (collectDag acts s t).targetNodes)
include hm hrun hout hsl hsn htn

omit hout in
theorem Distro.sources_of_edges : (sl ++ sn ++ tn).Nodup ∧ (∀ r ∈ sl ++ sn ++ tn, r ∈ nodesOf acts) ∧
    ∀ e ∈ edgesOf acts, e.src ∈ sl ++ sn ++ tn := by
  have sh := hm.shape hrun
  have hmem : ∀ r, r ∈ sl ++ sn ++ tn ↔ r ∈ nodesOf acts ∧ (r.side = .src ∨ r.kind ≠ .parts) := by
    intro r
    have hL : r ∈ (collectDag acts s t).sourceLeaves ↔ r ∈ nodesOf acts ∧ r.side = .src ∧ r.kind = .parts := by
      have := collect_mem (ownTerminals (nodesOf acts) .src) (rootNode s) r
      rw [show (collectDag acts s t).sourceLeaves = collect (ownTerminals (nodesOf acts) .src) (rootNode s).ix
        (.node (rootNode s).c) from rfl, this]
      constructor
      · rintro ⟨n, _, h⟩
        obtain ⟨h1, h2, _, h3⟩ := ownTerminals_mem.1 h
        exact ⟨h1, h2, h3⟩
      · rintro ⟨h1, h2, h3⟩
        obtain ⟨n, hu, hx, _⟩ := sh.src r h1 h2
        exact ⟨n, hu, ownTerminals_mem.2 ⟨h1, h2, hx, h3⟩⟩
    rw [List.mem_append, List.mem_append, hsl.mem_iff, hsn.mem_iff, htn.mem_iff, hL, sh.mem_src, sh.mem_tgt]
    cases hs : r.side <;> by_cases hk : r.kind = .parts <;> simp [hk]
  refine ⟨?_, fun r hr => ((hmem r).1 hr).1, fun e he => (hmem _).2 ⟨(sh.ends e he).1, ?_⟩⟩
  · have n1 : sl.Nodup := hsl.nodup_iff.2 (Life.collect_nodup (fun ix r h => (ownTerminals_mem.1 h).2.2.1)
      (fun ix => by unfold ownTerminals; split <;> simp) (rootNode s))
    have n2 : sn.Nodup := hsn.nodup_iff.2 (Life.collect_nodup (fun ix r h => (ownInternals_mem.1 h).2.2.1)
      (fun ix => by unfold ownInternals; split <;> split <;> simp) (rootNode s))
    have n3 : tn.Nodup := htn.nodup_iff.2 (Life.collect_nodup (fun ix r h => (ownInternals_mem.1 h).2.2.1)
      (fun ix => by unfold ownInternals; split <;> split <;> simp) (rootNode t))
    have m1 : ∀ r ∈ sl, r.kind = .parts := fun r h => by
      obtain ⟨n, _, h⟩ := (collect_mem (ownTerminals (nodesOf acts) .src) (rootNode s) r).1 (hsl.mem_iff.1 h)
      exact (ownTerminals_mem.1 h).2.2.2
    have m2 : ∀ r ∈ sn, r.side = .src ∧ r.kind ≠ .parts := fun r h => (sh.mem_src.1 (hsn.mem_iff.1 h)).2
    have m3 : ∀ r ∈ tn, r.side = .tgt ∧ r.kind ≠ .parts := fun r h => (sh.mem_tgt.1 (htn.mem_iff.1 h)).2
    refine List.Nodup.append (List.Nodup.append n1 n2 fun r h1 h2 => (m2 r h2).2 (m1 r h1)) n3 fun r h1 h3 => ?_
    rcases List.mem_append.1 h1 with h | h
    · exact (m3 r h3).2 (m1 r h)
    · have := (m2 r h).1
      rw [(m3 r h3).1] at this; cases this
  · cases sh.edge e he with
    | cross hs => exact .inl hs
    | StoM => exact .inl rfl
    | MtoM => exact .inl rfl
    | MtoI => exact .inl rfl
    | LtoL => exact .inr (fun h => by cases h)
    | LtoT => exact .inr (fun h => by cases h)
    | ItoL => exact .inr (fun h => by cases h)

/-- Once the nodes are placed on the ranks, the report is written, and the number for an operation and two ranks is the number of edges of
the DAG with this operation between nodes of these ranks. -/
theorem C108_report {ranks : Nat} {loc : Ref → Int} (hloc : ∀ r ∈ nodesOf acts, 0 ≤ loc r ∧ loc r < ranks) :
    printEdges loc out sl sn tn ranks = some (report ranks (edgeCount (edgesOf acts) loc)) := by
  obtain ⟨hn, hm1, hm2⟩ := Distro.sources_of_edges hm hrun hsl hsn htn
  have sh := hm.shape hrun
  rw [printEdges_ok sl sn tn]
  · refine congrArg some (congrArg (report ranks) ?_)
    funext i j k
    unfold edgeCount
    rw [count_by_source (edgesOf acts) _ hn hout]
    refine List.countP_congr fun e he => ?_
    rw [decide_eq_true (hm2 e he), Bool.and_true]
  · intro r hr
    refine ⟨hloc r (hm1 r hr), fun e he => ?_⟩
    have := List.mem_filter.1 ((hout r).mem_iff.1 he)
    exact ⟨by simpa using this.2, hloc _ (sh.ends e this.1).2⟩

/-- The numbers of the report add up to the number of edges. -/
theorem C108_total {ranks : Nat} {loc : Ref → Int} (hloc : ∀ r ∈ nodesOf acts, 0 ≤ loc r ∧ loc r < ranks) :
    ∃ count : Nat → Nat → Nat → Nat, printEdges loc out sl sn tn ranks = some (report ranks count) ∧
      ∑ i ∈ Finset.range 12, ∑ j ∈ Finset.range ranks, ∑ k ∈ Finset.range ranks, count i j k = (edgesOf acts).length :=
  ⟨_, C108_report hm hrun hout hsl hsn htn hloc, sum_counts fun e he =>
    ⟨hloc _ ((hm.shape hrun).ends e he).1, hloc _ ((hm.shape hrun).ends e he).2⟩⟩

/-- A report for fewer ranks than there are, or before the nodes are placed (they are on rank -1 then), reaches outside of the table as soon as
there is an edge with an end that is not on one of the first `n` ranks. -/
theorem C108_out_of_range {n : Nat} {loc : Ref → Int} {e : Edge} (he : e ∈ edgesOf acts)
    (h : ¬ ((0 ≤ loc e.src ∧ loc e.src < n) ∧ 0 ≤ loc e.dst ∧ loc e.dst < n)) : printEdges loc out sl sn tn n = none := by
  obtain ⟨_, _, hm2⟩ := Distro.sources_of_edges hm hrun hsl hsn htn
  exact printEdges_none (hm2 e he) ((hout e.src).mem_iff.2 (List.mem_filter.2 ⟨he, by simp⟩)) h

end

/-- A placement of the nodes of the example trees on two ranks: the report, with twelve edges, two of them from multipole to local expansions; and no report before
the nodes are placed. -/
example :
    let acts := createDag FMM 2 false exA exB
    let D := collectDag acts exA exB
    let out := fun r => (edgesOf acts).filter fun e => e.src = r
    let loc : Ref → Int := fun r => if r.side = .src then 0 else 1
    printEdges loc out D.sourceLeaves D.sourceNodes D.targetNodes 2 = some (report 2 (edgeCount (edgesOf acts) loc)) ∧
      edgeCount (edgesOf acts) loc (optoint .MtoL) 0 1 = 2 ∧ (edgesOf acts).length = 12 ∧
      printEdges (fun _ => -1) out D.sourceLeaves D.sourceNodes D.targetNodes 2 = none := by
  intro acts D out loc
  refine ⟨C108_report .fmm (createDag_runs _ _ _ _ _) (fun _ => .refl _) (.refl _) (.refl _) (.refl _) (fun r _ => ?_), by decide +kernel,
    by decide +kernel, ?_⟩
  · show 0 ≤ (if _ then _ else _ : Int) ∧ (if _ then _ else _ : Int) < 2
    split_ifs <;> omega
  · obtain ⟨e, he⟩ : ∃ e, e ∈ edgesOf acts := List.exists_mem_of_ne_nil _ (by decide +kernel)
    exact C108_out_of_range .fmm (createDag_runs _ _ _ _ _) (fun _ => .refl _) (.refl _) (.refl _) (.refl _) he (by simp)

end Dashmm
