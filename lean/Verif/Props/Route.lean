import Verif.Spec.Route
import Verif.Proofs.Route
import Verif.Proofs.EndTree
import Verif.Props.Branch
import Verif.Props.Life
import Verif.Props.Exec
import Verif.Props.Kernels
/-
C93: the work of every out edge reaches the LCO it is meant for, on the rank where that is, with the data of the node the edge starts from.
-/
namespace Dashmm
open Route Branch
open Distro (GoodPlacement)

namespace Route

/-! ### The target is found -/

/-- The kinds of the ends of an edge. -/
theorem ends_of {e : Edge} (h : Distro.EdgeShape e) : e.dst.side = sideOf e.op ∧ e.dst.kind = memberOf e.op ∧
    (e.src.side = .src ∧ e.src.kind = .parts ↔ e.op = .StoM ∨ e.op = .StoL ∨ e.op = .StoT) := by
  cases h with
  | cross hs hd ho hk =>
    obtain ⟨op, sr, ds⟩ := e
    dsimp only at hs hd ho hk ⊢
    simp only [List.mem_cons, Prod.mk.injEq, List.not_mem_nil, or_false] at hk
    rcases hk with ⟨rfl, h1, h2⟩ | ⟨rfl, h1, h2⟩ | ⟨rfl, h1, h2⟩ | ⟨rfl, h1, h2⟩ | ⟨rfl, h1, h2⟩ <;> simp [hs, hd, h1, h2, sideOf, memberOf]
  | _ => simp [sideOf, memberOf]

section
variable {m : Method} (hm : Builtin m) {unif : Nat} {same : Bool} {s t : Fin 8 → Oct} {acts : List Act}
  (hr : Runs (createProg m unif same s t) acts) {loc : Ref → Int}

theorem nodes_iff {acts' : List Act} (hr : Runs (createProg m unif same s t) acts) (hr' : Runs (createProg m unif same s t) acts') (r : Ref) :
    r ∈ nodesOf acts ↔ r ∈ nodesOf acts' := by
  rw [mem_nodesOf, mem_nodesOf, (runs_perm hr).mem_iff, (runs_perm hr').mem_iff]

include hm hr in
/-- The objects of a rank. -/
theorem deref_ready {k : Nat} {R : Rank} (h : Ready m unif same s t loc k R) {r : Ref} (hn : r ∈ nodesOf acts) :
    ∃ l, Life.deref R.dag r = some (r, l) ∧ (l.isSome ↔ Life.NeedsLco r ∧ loc r = k) ∧ ∀ i, l = some i → Life.Serves R.dag r i := by
  obtain ⟨acts', h₀, d, hr', hb, hc⟩ := h.dag
  obtain ⟨hi, -⟩ := Life.created_inv (hm.shape hr') (hm.safe hr') hb hc
  have hn' := (nodes_iff hr hr' r).1 hn
  obtain ⟨x, hx⟩ := Option.isSome_iff_exists.1 ((hi.ptr r).2 hn')
  obtain ⟨l, hl, hs⟩ := hi.at_ _ _ hx
  refine ⟨l, by simp [Life.deref, hx, hl], hs, ?_⟩
  rintro i rfl
  exact ⟨x, hx, hl, (hi.live i).2 ⟨x, r, hl⟩⟩

theorem serves_inj {h : Life.Mem} {r : Ref} {i j : Nat} (h1 : Life.Serves h r i) (h2 : Life.Serves h r j) : i = j := by
  obtain ⟨a, e1, e2, _⟩ := h1
  obtain ⟨b, e3, e4, _⟩ := h2
  rw [e1] at e3
  obtain rfl := Option.some.inj e3
  rw [e2] at e4
  simpa using e4

include hm hr in
theorem exists_address {W : Nat → Rank} {ranks : Nat} (hW : ∀ k < ranks, Ready m unif same s t loc k (W k))
    (hl : ∀ r ∈ nodesOf acts, 0 ≤ loc r ∧ loc r < ranks) (g : Nat → Nat → Addr) : ∃ A, LcoAddress W g loc (nodesOf acts) A := by
  have : ∀ r, ∃ a : Addr, r ∈ nodesOf acts → Life.NeedsLco r → ∃ i, Life.Serves (W (loc r).toNat).dag r i ∧ a = g (loc r).toNat i := by
    intro r
    by_cases h : r ∈ nodesOf acts ∧ Life.NeedsLco r
    · obtain ⟨h1, h2⟩ := hl r h.1
      obtain ⟨l, _, h3, h4⟩ := deref_ready hm hr (hW (loc r).toNat (by omega)) h.1
      obtain ⟨i, hi⟩ := Option.isSome_iff_exists.1 (h3.2 ⟨h.2, by omega⟩)
      exact ⟨_, fun _ _ => ⟨i, h4 i hi, rfl⟩⟩
    · exact ⟨0, fun h1 h2 => absurd ⟨h1, h2⟩ h⟩
  choose A hA using this
  exact ⟨A, fun r h1 h2 => hA r h1 h2⟩

include hm hr in
/-- The record of an edge: the address is known iff the target is on this rank. -/
theorem recordOf_ready {W : Nat → Rank} {k : Nat} (h : Ready m unif same s t loc k (W k)) {g : Nat → Nat → Addr} {A : Ref → Addr}
    (hA : LcoAddress W g loc (nodesOf acts) A) {e : Edge} (he : e.dst ∈ nodesOf acts) (hn : Life.NeedsLco e.dst) (h0 : 0 ≤ loc e.dst) :
    recordOf (W k).dag (g k) e = some ⟨e.op, if (loc e.dst).toNat = k then A e.dst else 0, e.dst.ix⟩ := by
  obtain ⟨l, h1, h2, h3⟩ := deref_ready hm hr h he
  unfold recordOf
  rw [h1, Option.map_some]
  congr 2
  by_cases hk : (loc e.dst).toNat = k
  · rw [if_pos hk]
    obtain ⟨i, hi⟩ := Option.isSome_iff_exists.1 (h2.2 ⟨hn, by omega⟩)
    obtain ⟨j, h4, h5⟩ := hA _ he hn
    rw [hk] at h4 h5
    rw [hi, h5, serves_inj h4 (h3 i hi)]
  · rw [if_neg hk]
    cases l with
    | none => rfl
    | some i => exact absurd (h2.1 rfl).2 (by omega)

include hm hr in
/-- A node of the DAG is in the tree. -/
theorem in_tree {r : Ref} (hn : r ∈ nodesOf acts) : ∃ n, Under (rootNode (match r.side with | .src => s | .tgt => t)) n ∧ r.ix = n.ix := by
  cases hs : r.side with
  | src =>
    obtain ⟨n, h1, h2, _⟩ := (hm.shape hr).src r hn hs
    exact ⟨n, h1, h2⟩
  | tgt =>
    obtain ⟨n, p, c, h1, h2, _⟩ := (hm.shape hr).tgt r hn hs
    exact ⟨n, h1.under, h2⟩

theorem lookup_copy {H : Heap} {a : Nat} {s : Fin 8 → Oct} (h : Copy H a (rootNode s)) {n : TNode} (hn : Under (rootNode s) n) :
    ∃ b, Branch.lookup H a n.ix = some b ∧ (H b).idx = n.ix := by
  obtain ⟨p, hp⟩ := under_tpath hn
  obtain ⟨b, hb, hc⟩ := (copy_path h).2.1 p n hp
  have := (copy_path hc).1
  exact ⟨b, by rw [← this]; exact C26_lookup hb, this⟩

include hm hr in
theorem lookup_ready {W : Nat → Rank} {r : Ref} (hn : r ∈ nodesOf acts) (hl : Life.NeedsLco r) (h0 : 0 ≤ loc r)
    (h : Ready m unif same s t loc (loc r).toNat (W (loc r).toNat)) {g : Nat → Nat → Addr} {A : Ref → Addr}
    (hA : LcoAddress W g loc (nodesOf acts) A) {op : Op} (ho : memberOf op = r.kind) :
    (W (loc r).toNat).lookup (g (loc r).toNat) r.side r.ix op = some (A r) := by
  generalize hk : (loc r).toNat = k at *
  obtain ⟨l, h1, h2, h3⟩ := deref_ready hm hr h hn
  obtain ⟨n, hu, hix⟩ := in_tree hm hr hn
  obtain ⟨i, hi⟩ := Option.isSome_iff_exists.1 (h2.2 ⟨hl, by omega⟩)
  obtain ⟨j, h4, h5⟩ := hA _ hn hl
  rw [hk] at h4 h5
  obtain ⟨sd, ix, kd⟩ := r
  dsimp only at hu hix ho ⊢
  subst hix
  subst hi
  unfold Rank.lookup
  rw [ho]
  cases sd with
  | src =>
    obtain ⟨b, hb, hb'⟩ := lookup_copy h.src hu
    simp only [hb, Option.bind_eq_bind, Option.bind_some, hb', h1, h5, serves_inj h4 (h3 i rfl)]
  | tgt =>
    obtain ⟨b, hb, hb'⟩ := lookup_copy h.tgt hu
    simp only [hb, Option.bind_eq_bind, Option.bind_some, hb', h1, h5, serves_inj h4 (h3 i rfl)]

theorem resolve_map {R : Rank} {g : Nat → Addr} {side : Op → Side} {A : Ref → Addr} : ∀ {es : List Edge}
    (_ : ∀ e ∈ es, R.lookup g (side e.op) e.dst.ix e.op = some (A e.dst)),
    R.resolve g side (es.map fun e => ⟨e.op, 0, e.dst.ix⟩) = some (es.map fun e => ⟨e.op, A e.dst, e.dst.ix⟩)
  | [], _ => rfl
  | e :: es, h => by
    rw [List.map_cons, Rank.resolve, resolve_map fun e' he => h e' (by simp [he])]
    simp only [if_true, h e (by simp), Option.bind_eq_bind, Option.bind_some, List.map_cons]

theorem mapM_some {α β : Type} {f : α → Option β} {g : α → β} : ∀ {l : List α} (_ : ∀ x ∈ l, f x = some (g x)), l.mapM f = some (l.map g)
  | [], _ => rfl
  | x :: l, h => by
    rw [List.mapM_cons, h x (by simp), mapM_some fun y hy => h y (by simp [hy])]
    rfl

theorem instigWork_all : ∀ {rs : List Rec} (_ : ∀ r ∈ rs, r.op = .StoM ∨ r.op = .StoL ∨ r.op = .StoT), instigWork rs = some rs
  | [], _ => rfl
  | r :: rs, h => by
    unfold instigWork
    rw [instigWork_all fun r' hr => h r' (by simp [hr])]
    rcases h r (by simp) with h | h | h <;> rw [h] <;> rfl

theorem outWork_all : ∀ {rs : List Rec} (_ : ∀ r ∈ rs, ¬ (r.op = .StoM ∨ r.op = .StoL ∨ r.op = .StoT)), outWork rs = some rs
  | [], _ => rfl
  | r :: rs, h => by
    unfold outWork
    rw [outWork_all fun r' hr => h r' (by simp [hr])]
    have := h r (by simp)
    cases ho : r.op <;> simp_all

end

/-- The runs of the sorted edges, with the records as the rank `me` has them. -/
def recRuns (loc : Ref → Int) (A : Ref → Addr) (me : Nat) (sorted : List Edge) : List (Nat × List Rec) :=
  (edgeRuns (fun e => (loc e.dst).toNat) sorted).map fun r => (r.1, r.2.map fun e => ⟨e.op, if (loc e.dst).toNat = me then A e.dst else 0, e.dst.ix⟩)

theorem recordsOf_eq {h : Life.Mem} {g : Nat → Addr} {loc : Ref → Int} {A : Ref → Addr} {me : Nat} {sorted : List Edge}
    (hrec : ∀ e ∈ sorted, recordOf h g e = some ⟨e.op, if (loc e.dst).toNat = me then A e.dst else 0, e.dst.ix⟩) :
    recordsOf h g loc sorted = some (recRuns loc A me sorted) := by
  unfold recordsOf recRuns
  refine mapM_some fun r hr => ?_
  have hmem : ∀ e ∈ r.2, e ∈ sorted := by
    intro e he
    rw [← edgeRuns_flatten (fun e : Edge => (loc e.dst).toNat) sorted]
    exact List.mem_flatMap.2 ⟨r, hr, he⟩
  rw [mapM_some fun e he => hrec e (hmem e he)]
  rfl

theorem run_mem {loc : Ref → Int} {sorted : List Edge} {r : Nat × List Edge} (hr : r ∈ edgeRuns (fun e : Edge => (loc e.dst).toNat) sorted) :
    (∀ e ∈ r.2, e ∈ sorted ∧ (loc e.dst).toNat = r.1) ∧ r.2.length ≤ sorted.length := by
  have hfl := edgeRuns_flatten (fun e : Edge => (loc e.dst).toNat) sorted
  refine ⟨fun e he => ⟨?_, (edgeRuns_mem (fun e : Edge => (loc e.dst).toNat) sorted r hr).2 e he⟩, ?_⟩
  · rw [← hfl]
    exact List.mem_flatMap.2 ⟨r, hr, he⟩
  · rw [← hfl]
    obtain ⟨u, v, e⟩ := List.append_of_mem hr
    rw [e]; simp; omega

/-- The calls of all the runs together. -/
theorem runs_calls {loc : Ref → Int} (A : Ref → Addr) (sorted : List Edge) :
    ((edgeRuns (fun e : Edge => (loc e.dst).toNat) sorted).flatMap fun r => (r.2.map fun e => (⟨e.op, A e.dst, e.dst.ix⟩ : Call)).map fun c => (r.1, c)) =
      wanted loc A sorted := by
  have hfl := edgeRuns_flatten (fun e : Edge => (loc e.dst).toNat) sorted
  unfold wanted
  conv_rhs => rw [← hfl]
  rw [List.map_flatMap]
  refine List.flatMap_congr fun r hr => ?_
  rw [List.map_map]
  refine List.map_congr_left fun e he => ?_
  show (r.1, _) = _
  rw [((run_mem hr).1 e he).2]

end Route

section
variable {m : Method} (hm : Builtin m) {unif : Nat} {same : Bool} {s t : Fin 8 → Oct} {acts : List Act}
  -- some schedule of the tasks of `create_DAG` (the ranks may have had others)
  (hr : Runs (createProg m unif same s t) acts)
  -- the placement, as every distribution policy makes it (property C47)
  {ranks : Nat} {home : Index → Option Int} {before loc : Ref → Int} (hp : GoodPlacement ranks (nodesOf acts) (edgesOf acts) home before loc)
  -- the ranks after `create_DAG`
  {W : Nat → Rank} (hW : ∀ k < ranks, Ready m unif same s t loc k (W k))
  {g : Nat → Nat → Addr} (hg : GoodAddresses g) {A : Ref → Addr} (hA : LcoAddress W g loc (nodesOf acts) A)
  -- one of the ranks
  {me : Nat} (hme : me < ranks)
  -- some of the edges that start there, and the order `std::sort` leaves them in
  {es sorted : List Edge} (hes : ∀ e ∈ es, e ∈ edgesOf acts) (hsort : SortedByLocality (fun e : Edge => (loc e.dst).toNat) es sorted)
  (hsmall : ∀ e ∈ es, SmallIndex e.dst.ix)

/-- There is such an assignment of addresses. -/
theorem C93_addresses_exist (hm : Builtin m) (hr : Runs (createProg m unif same s t) acts) (hp : GoodPlacement ranks (nodesOf acts) (edgesOf acts) home before loc)
    (hW : ∀ k < ranks, Ready m unif same s t loc k (W k)) (g : Nat → Nat → Addr) : ∃ A, LcoAddress W g loc (nodesOf acts) A :=
  exists_address hm hr hW hp.exists_ g

include hm hr hp hW hA in
/-- C93. A rank that asks its trees, with the index and the operation alone, for the target of an edge whose target is placed there gets the address of the LCO that serves the target. -/
theorem C93_lookup {e : Edge} (he : e ∈ edgesOf acts) :
    (W (loc e.dst).toNat).lookup (g (loc e.dst).toNat) (sideOf e.op) e.dst.ix e.op = some (A e.dst) := by
  have hs := ends_of ((hm.shape hr).edge e he)
  have hn := ((hm.shape hr).ends e he).2
  have h0 := hp.exists_ _ hn
  rw [← hs.1]
  refine lookup_ready hm hr hn ?_ h0.1 (hW _ (by omega)) hA hs.2.1.symm
  rintro ⟨h1, h2⟩
  rw [hs.1] at h1; rw [hs.2.1] at h2
  revert h1 h2
  cases e.op <;> simp [sideOf, memberOf]

include hm hr hp hW hg hA hme hes hsort hsmall in
theorem Route.records_ready : recordsOf (W me).dag (g me) loc sorted = some (recRuns loc A me sorted) ∧
    ∀ r ∈ recRuns loc A me sorted, r.2.length ≤ es.length ∧ ∀ x ∈ r.2, Fits x := by
  have hmem : ∀ e ∈ sorted, e ∈ es := fun e he => hsort.1.mem_iff.1 he
  have hlco : ∀ e ∈ es, Life.NeedsLco e.dst := by
    intro e he
    have hs := ends_of ((hm.shape hr).edge e (hes e he))
    rintro ⟨h1, h2⟩
    rw [hs.1] at h1; rw [hs.2.1] at h2
    revert h1 h2
    cases e.op <;> simp [sideOf, memberOf]
  refine ⟨recordsOf_eq fun e he => ?_, ?_⟩
  · have hn := ((hm.shape hr).ends e (hes e (hmem e he))).2
    exact recordOf_ready hm hr (hW me hme) hA hn (hlco e (hmem e he)) (hp.exists_ _ hn).1
  · intro r hr'
    obtain ⟨q, hq, rfl⟩ := List.mem_map.1 hr'
    obtain ⟨h1, h2⟩ := run_mem hq
    refine ⟨by simpa [hsort.1.length_eq] using h2, ?_⟩
    intro x hx
    obtain ⟨e, he, rfl⟩ := List.mem_map.1 hx
    have he' := hmem e (h1 e he).1
    refine ⟨?_, hsmall e he'⟩
    dsimp only
    split
    · obtain ⟨i, _, h3⟩ := hA e.dst ((hm.shape hr).ends e (hes e he')).2 (hlco e he')
      rw [h3]; exact (hg _ _).2
    · exact Nat.two_pow_pos 64

include hm hr hp hW hg hA hme hes hsort hsmall in
/-- C93. The work of the edges out of a source leaf is done once for each edge, on the rank where the target is, with the sources of the leaf, and the result goes to the LCO that serves the
target there: for every serializer, whatever the scratch space and the memory around it held, whatever the order of edges to the same rank; and nothing but the scratch space is written. -/
theorem C93_leaf_edges {r : Ref} (hsrc : r.side = .src ∧ r.kind = .parts) (hfrom : ∀ e ∈ es, e.src = r) (hat : loc r = me)
    {S : Type} {ser : Arr.Serializer S} (hser : ser.Ok) {rw' : Addr} (hrw : rw' < 2 ^ 64) {srcs : List S} (hn : srcs.length < 2 ^ 64) (hne : es.length < 2 ^ 64)
    (p : Nat) (mem : Mem) :
    ∃ outs mem' done, (W me).fromLeaf (g me) loc ser rw' srcs me p sorted mem = some (outs, mem') ∧
      List.Forall₂ (LeafDone W g ser me srcs) outs done ∧
      (∀ x ∈ done, x.2.1 = srcs) ∧
      (done.flatMap fun x => x.2.2.map fun c => (x.1, c)).Perm (wanted loc A es) ∧
      Only p (scratchSize ser srcs es.length) mem mem' := by
  obtain ⟨hrec, hfit⟩ := records_ready hm hr hp hW hg hA hme hes hsort hsmall
  have hop : ∀ e ∈ es, e.op = .StoM ∨ e.op = .StoL ∨ e.op = .StoT := by
    intro e he
    have := (ends_of ((hm.shape hr).edge e (hes e he))).2.2
    rw [hfrom e he] at this
    exact this.1 hsrc
  have hmem : ∀ e ∈ sorted, e ∈ es := fun e he => hsort.1.mem_iff.1 he
  have hloop := instigLoop_good hser hrw hn me p es.length hne (recRuns loc A me sorted) hfit
    (putHeader ser rw' srcs p mem) (putHeader_load hser rw' srcs p mem)
  refine ⟨_, _, (edgeRuns (fun e : Edge => (loc e.dst).toNat) sorted).map fun q => (q.1, srcs, q.2.map fun e => ⟨e.op, A e.dst, e.dst.ix⟩),
    by unfold Rank.fromLeaf; rw [hrec]; rfl, ?_, ?_, ?_, ?_⟩
  · have h1 := hloop.1
    unfold recRuns at h1
    rw [List.forall₂_map_left_iff] at h1
    rw [List.forall₂_map_right_iff]
    have h2 := (List.forall₂_and_left (p := fun q => q ∈ edgeRuns (fun e : Edge => (loc e.dst).toNat) sorted) _ _).2 ⟨fun q hq => hq, h1⟩
    refine List.Forall₂.flip (h2.imp ?_)
    rintro q o ⟨hq, ho⟩
    obtain ⟨hq1, _⟩ := run_mem hq
    show LeafDone W g ser me srcs o _
    cases o with
    | work c =>
      obtain ⟨hk, rfl⟩ := ho
      dsimp only at hk
      refine ⟨hk, rfl, ?_⟩
      rw [instigWork_all]
      · congr 1
        refine List.map_congr_left fun e he => ?_
        rw [if_pos ((hq1 e he).2.trans hk)]
      · intro x hx
        obtain ⟨e, he, rfl⟩ := List.mem_map.1 hx
        exact hop e (hmem e (hq1 e he).1)
    | parcel k b =>
      obtain ⟨rfl, hk, ho⟩ := ho
      refine ⟨rfl, ?_⟩
      dsimp only at hk ho ⊢
      unfold Rank.instigRemote
      rw [ho]
      simp only [Option.bind_eq_bind, Option.bind_some]
      have e1 : (q.2.map fun e : Edge => (⟨e.op, if (loc e.dst).toNat = me then A e.dst else 0, e.dst.ix⟩ : Rec)) =
          q.2.map fun e : Edge => ⟨e.op, 0, e.dst.ix⟩ := by
        refine List.map_congr_left fun e he => ?_
        rw [if_neg (by rw [(hq1 e he).2]; exact hk)]
      rw [e1, resolve_map (A := A)]
      · simp only [Option.bind_some]
        rw [instigWork_all]
        · rfl
        · intro x hx
          obtain ⟨e, he, rfl⟩ := List.mem_map.1 hx
          exact hop e (hmem e (hq1 e he).1)
      · intro e he
        have he' := hes e (hmem e (hq1 e he).1)
        have h3 := C93_lookup hm hr hp hW hA he'
        have hside : sideOf e.op = .tgt := by
          rcases hop e (hmem e (hq1 e he).1) with h | h | h
          · exfalso
            have h4 := hp.local_ e he' h
            rw [hfrom e (hmem e (hq1 e he).1), hat] at h4
            apply hk
            rw [← (hq1 e he).2, ← h4]; simp
          · rw [h]; rfl
          · rw [h]; rfl
        rw [hside, (hq1 e he).2] at h3
        exact h3
  · intro x hx
    obtain ⟨q, _, rfl⟩ := List.mem_map.1 hx
    rfl
  · rw [List.flatMap_map]
    rw [show (fun a : Nat × List Edge => List.map (fun c => ((a.1, srcs, List.map (fun e : Edge => (⟨e.op, A e.dst, e.dst.ix⟩ : Rec)) a.2).1, c))
      (a.1, srcs, List.map (fun e : Edge => (⟨e.op, A e.dst, e.dst.ix⟩ : Rec)) a.2).2.2) =
      (fun r : Nat × List Edge => (r.2.map fun e => (⟨e.op, A e.dst, e.dst.ix⟩ : Call)).map fun c => (r.1, c)) from rfl, runs_calls]
    exact hsort.1.map _
  · have h1 := (putHeader_same hser rw' srcs p mem).mono (q := p) (k := scratchSize ser srcs es.length) (Nat.le_refl _) (by unfold scratchSize; omega)
    exact h1.trans hloop.2

include hm hr hp hW hg hA hme hes hsort hsmall in
/-- C93. The work of the edges out of an expansion is done once for each edge, on the rank where the target is, with the header and the views of the expansion, and the result goes to the LCO
that serves the target there: whatever the memory held and wherever the parcels are put; and nothing but the two arrays is written. (The views must not end in an empty one, see C07, and
there must be fewer than `2 ^ 31 / 40` edges, see `C93_count_overflow`.) -/
theorem C93_expansion_edges {r : Ref} (hsrc : ¬ (r.side = .src ∧ r.kind = .parts)) (hfrom : ∀ e ∈ es, e.src = r)
    {d : Head} (hd : SmallHead d) {views : ViewSet} (hv : views.Representable) (he : ¬ views.EndsEmpty) (hb : views.bytes < 2 ^ 64)
    (hne : outSize * es.length < 2 ^ 31) {a p : Nat}
    -- `out_edges` and `temp` do not overlap
    (hdis : a + outSize * es.length ≤ p ∨ p + (headSize + views.bytes + outSize * es.length) ≤ a) (mem : Mem) :
    ∃ outs mem' done, (W me).fromExpansion (g me) loc ranks me a p d views.bytes views sorted mem = some (outs, mem') ∧
      List.Forall₂ (ExpansionDone W g me d views) outs done ∧
      (∀ x ∈ done, x.2.1 = d ∧ x.2.2.1 = views) ∧
      (done.flatMap fun x => x.2.2.2.map fun c => (x.1, c)).Perm (wanted loc A es) ∧
      ∀ x, (x < a ∨ a + outSize * es.length ≤ x) → (x < p ∨ p + (headSize + views.bytes + outSize * es.length) ≤ x) → mem' x = mem x := by
  obtain ⟨hrec, hfit⟩ := records_ready hm hr hp hW hg hA hme hes hsort hsmall
  have hop : ∀ e ∈ es, ¬ (e.op = .StoM ∨ e.op = .StoL ∨ e.op = .StoT) := by
    intro e he
    have := (ends_of ((hm.shape hr).edge e (hes e he))).2.2
    rw [hfrom e he] at this
    exact fun h => hsrc (this.2 h)
  have hmem : ∀ e ∈ sorted, e ∈ es := fun e he => hsort.1.mem_iff.1 he
  have hlen := hsort.1.length_eq
  unfold Rank.fromExpansion
  rw [hrec]
  simp only [Option.bind_eq_bind, Option.bind_some]
  generalize hruns : ((recRuns loc A me sorted).map fun r => (r.1, r.2.map fun x => (⟨x, r.1⟩ : OutRec))) = runs
  have hflat : (runs.flatMap Prod.snd).map OutRec.r =
      sorted.map fun e => ⟨e.op, if (loc e.dst).toNat = me then A e.dst else 0, e.dst.ix⟩ := by
    rw [← hruns, List.flatMap_map, List.map_flatMap]
    unfold recRuns
    rw [List.flatMap_map]
    conv_rhs => rw [← edgeRuns_flatten (fun e : Edge => (loc e.dst).toNat) sorted, List.map_flatMap]
    refine List.flatMap_congr fun q _ => ?_
    simp [Function.comp_def]
  have hcount : (runs.flatMap Prod.snd).length = es.length := by
    have := congrArg List.length hflat
    simpa [hlen] using this
  have hfit' : ∀ x ∈ runs.flatMap Prod.snd, Fits x.r := by
    intro x hx
    obtain ⟨q, hq, hx⟩ := List.mem_flatMap.1 hx
    rw [← hruns] at hq
    obtain ⟨q', hq', rfl⟩ := List.mem_map.1 hq
    obtain ⟨y, hy, rfl⟩ := List.mem_map.1 hx
    exact (hfit q' hq').2 y hy
  have hput := putOuts_load (runs.flatMap Prod.snd) hfit' a mem
  have hput' := putOuts_same (runs.flatMap Prod.snd) a mem
  rw [hcount] at hput hput'
  have hfull : ∀ q ∈ edgeRuns (fun e : Edge => (loc e.dst).toNat) sorted, ∀ x ∈ q.2.map (fun e : Edge => (⟨e.op, A e.dst, e.dst.ix⟩ : Rec)),
      ¬ (x.op = .StoM ∨ x.op = .StoL ∨ x.op = .StoT) := by
    intro q hq x hx
    obtain ⟨e, he, rfl⟩ := List.mem_map.1 hx
    exact hop e (hmem e ((run_mem hq).1 e he).1)
  unfold spawnOut
  dsimp only
  by_cases h1 : ranks = 1
  · rw [if_pos h1]
    have hme0 : me = 0 := by omega
    have hall : ∀ e ∈ sorted, (loc e.dst).toNat = me := by
      intro e he
      have := hp.exists_ _ ((hm.shape hr).ends e (hes e (hmem e he))).2
      omega
    refine ⟨_, _, [(me, d, views, sorted.map fun e => ⟨e.op, A e.dst, e.dst.ix⟩)], rfl, ?_, ?_, ?_, ?_⟩
    · refine .cons ⟨rfl, rfl, rfl, ?_⟩ .nil
      have := hput.read []
      rw [List.append_nil, List.length_map, hcount, hflat] at this
      rw [hcount, show outSize = 40 from rfl, this, Option.bind_some, outWork_all]
      · congr 1
        refine List.map_congr_left fun e he => ?_
        rw [if_pos (hall e he)]
      · intro x hx
        obtain ⟨e, he, rfl⟩ := List.mem_map.1 hx
        exact hop e (hmem e he)
    · simp
    · simp only [List.flatMap_cons, List.flatMap_nil, List.append_nil, List.map_map]
      refine List.Perm.trans (List.Perm.of_eq ?_) (hsort.1.map fun e => ((loc e.dst).toNat, (⟨e.op, A e.dst, e.dst.ix⟩ : Call)))
      refine List.map_congr_left fun e he => ?_
      show (me, _) = _
      rw [hall e he]
    · intro x hx _
      exact hput' x hx
  · rw [if_neg h1]
    generalize hm1 : putOuts (runs.flatMap Prod.snd) a mem = m1 at *
    generalize hm2 : m1.store p (headBytes d views.bytes) = m2
    have s2 : SameBut p 88 m1 m2 := by
      have := sameBut_store m1 p (headBytes d views.bytes)
      rwa [headBytes_length, hm2] at this
    rw [views.serialize_some m2 (p + headSize) views.bytes (Nat.le_refl _) (.inr he)]
    rw [show headSize = 88 from rfl, show outSize = 40 from rfl] at hdis; rw [show outSize = 40 from rfl] at hne
    simp only [Option.bind_eq_bind, Option.bind_some]
    have hcl := ViewSet.chunks_flatten_length views
    generalize hm3 : (ViewSet.after (m2, Buffer.new (p + headSize) views.bytes) (ViewSet.chunks views)).1 = m3
    have s3 : SameBut (p + 88) views.bytes m2 m3 := by
      rw [← hm3, ← hcl]; exact sameBut_store _ _ _
    have l3 : m3.load p (88 + views.bytes) = headBytes d views.bytes ++ (ViewSet.chunks views).flatten := by
      rw [Mem.load_add, s3.load (by left; omega)]
      congr 1
      · rw [← hm2]
        have := Mem.load_store_same m1 p (headBytes d views.bytes)
        rwa [headBytes_length] at this
      · rw [← hm3]
        have := Mem.load_store_same m2 (p + headSize) (ViewSet.chunks views).flatten
        rwa [hcl] at this
    have l4 : m3.load a (40 * es.length) = m1.load a (40 * es.length) := by
      rw [s3.load (by omega), s2.load (by omega)]
    have hloop := outLoop_good hd hv he hb me a p es.length runs (by
      intro q hq
      rw [← hruns] at hq
      obtain ⟨q', hq', rfl⟩ := List.mem_map.1 hq
      have := (hfit q' hq').1
      simp only [List.length_map]
      omega) 0 m3 l3 (by rw [hcount, Nat.mul_zero, Nat.add_zero, l4]; exact hput) (by rw [hcount]; omega)
    refine ⟨_, _, (edgeRuns (fun e : Edge => (loc e.dst).toNat) sorted).map fun q => (q.1, d, views, q.2.map fun e => ⟨e.op, A e.dst, e.dst.ix⟩),
      rfl, ?_, ?_, ?_, ?_⟩
    · have h2 := hloop.1
      rw [show headSize = 88 from rfl]
      generalize (outLoop me (88 + views.bytes) a p (runs.map fun r => (r.1, r.2.length)) 0 m3).1 = os at h2 ⊢
      rw [← hruns] at h2
      unfold recRuns at h2
      rw [List.map_map, List.forall₂_map_left_iff] at h2
      rw [List.forall₂_map_right_iff]
      have h3 := (List.forall₂_and_left (p := fun q => q ∈ edgeRuns (fun e : Edge => (loc e.dst).toNat) sorted) _ _).2 ⟨fun q hq => hq, h2⟩
      refine List.Forall₂.flip (h3.imp ?_)
      rintro q o ⟨hq, ho⟩
      obtain ⟨hq1, _⟩ := run_mem hq
      show ExpansionDone W g me d views o _
      cases o with
      | work c =>
        obtain ⟨hk, rfl⟩ := ho
        dsimp only [Function.comp_apply] at hk
        refine ⟨hk, rfl, rfl, ?_⟩
        have e1 : (((fun r : Nat × List Rec => (r.1, r.2.map fun x => (⟨x, r.1⟩ : OutRec))) ∘ fun r : Nat × List Edge =>
            (r.1, r.2.map fun e : Edge => (⟨e.op, if (loc e.dst).toNat = me then A e.dst else 0, e.dst.ix⟩ : Rec))) q).2.map OutRec.r =
            q.2.map fun e : Edge => (⟨e.op, A e.dst, e.dst.ix⟩ : Rec) := by
          simp only [Function.comp_apply, List.map_map]
          refine List.map_congr_left fun e he => ?_
          simp only [Function.comp_apply]
          rw [if_pos ((hq1 e he).2.trans hk)]
        rw [e1]
        exact outWork_all (hfull q hq)
      | parcel k b =>
        obtain ⟨rfl, hk, ho⟩ := ho
        refine ⟨rfl, ?_⟩
        intro m4 q4 hb4
        dsimp only [Function.comp_apply] at hk
        have e1 : (((fun r : Nat × List Rec => (r.1, r.2.map fun x => (⟨x, r.1⟩ : OutRec))) ∘ fun r : Nat × List Edge =>
            (r.1, r.2.map fun e : Edge => (⟨e.op, if (loc e.dst).toNat = me then A e.dst else 0, e.dst.ix⟩ : Rec))) q).2.map OutRec.r =
            q.2.map fun e : Edge => (⟨e.op, 0, e.dst.ix⟩ : Rec) := by
          simp only [Function.comp_apply, List.map_map]
          refine List.map_congr_left fun e he => ?_
          simp only [Function.comp_apply]
          rw [if_neg (by rw [(hq1 e he).2]; exact hk)]
        unfold Rank.outRemote
        rw [ho m4 q4 hb4, e1]
        simp only [Option.bind_eq_bind, Option.bind_some]
        rw [resolve_map (A := A)]
        · simp only [Option.bind_some]
          rw [outWork_all (hfull q hq)]
          rfl
        · intro e he
          have h3 := C93_lookup hm hr hp hW hA (hes e (hmem e (hq1 e he).1))
          rw [(hq1 e he).2] at h3
          exact h3
    · intro x hx
      obtain ⟨q, _, rfl⟩ := List.mem_map.1 hx
      exact ⟨rfl, rfl⟩
    · rw [List.flatMap_map]
      rw [show (fun a : Nat × List Edge => List.map (fun c => ((a.1, d, views, List.map (fun e : Edge => (⟨e.op, A e.dst, e.dst.ix⟩ : Rec)) a.2).1, c))
        (a.1, d, views, List.map (fun e : Edge => (⟨e.op, A e.dst, e.dst.ix⟩ : Rec)) a.2).2.2.2) =
        (fun r : Nat × List Edge => (r.2.map fun e => (⟨e.op, A e.dst, e.dst.ix⟩ : Call)).map fun c => (r.1, c)) from rfl, runs_calls]
      exact hsort.1.map _
    · intro x hx1 hx2
      simp only [outSize, headSize] at hx1 hx2
      have h5 := hloop.2 x (by omega)
      rw [show headSize = 88 from rfl, h5, s3 x (by omega), s2 x (by omega), hput' x hx1]

end

/-! ### What is needed -/

/-- With 53687092 edges to one rank, `2 ^ 31` bytes and more, the receiver computes another number of records: the limit in `C93_expansion_edges` is not far from the best. -/
theorem C93_count_overflow : outSize * 53687091 < 2 ^ 31 ∧ outCount (outSize * 53687091) = 53687091 ∧ outCount (outSize * 53687092) ≠ 53687092 := by
  decide +kernel

namespace Route

theorem walk_idx {H : Heap} {idx : Index} : ∀ {fuel a b : Nat}, walk H idx fuel a = some b → (H b).idx = idx := by
  intro fuel
  induction fuel with
  | zero =>
    intro a b h
    unfold walk at h
    dsimp only at h
    split at h
    · cases h
    · split at h
      · split at h
        · rename_i hi; cases h; exact hi
        · cases h
      · split at h <;> cases h
  | succ fuel ih =>
    intro a b h
    unfold walk at h
    dsimp only at h
    split at h
    · cases h
    · split at h
      · split at h
        · rename_i hi; cases h; exact hi
        · cases h
      · split at h
        · cases h
        · split at h
          · cases h
          · exact ih h

theorem resolve_mem {R : Rank} {g : Nat → Addr} {side : Op → Side} : ∀ {rs out : List Rec}, R.resolve g side rs = some out →
    ∀ c ∈ out, ∃ r ∈ rs, c.op = r.op ∧ c.idx = r.idx ∧ (r.target = 0 → R.lookup g (side r.op) r.idx r.op = some c.target)
  | [], out, h => by cases h; simp
  | r :: rs, out, h => by
    rw [Rank.resolve] at h
    by_cases h0 : r.target = 0
    · simp only [if_pos h0, Option.bind_eq_bind, Option.bind_eq_some_iff] at h
      obtain ⟨t, ht, rs', hrs, h⟩ := h
      cases h
      intro c hc
      rcases List.mem_cons.1 hc with rfl | hc
      · exact ⟨r, by simp, rfl, rfl, fun _ => ht⟩
      · obtain ⟨r', h1, h2⟩ := resolve_mem hrs c hc
        exact ⟨r', by simp [h1], h2⟩
    · simp only [if_neg h0, Option.bind_eq_bind, Option.bind_some, Option.bind_eq_some_iff] at h
      obtain ⟨rs', hrs, h⟩ := h
      cases h
      intro c hc
      rcases List.mem_cons.1 hc with rfl | hc
      · exact ⟨r, by simp, rfl, rfl, fun h => absurd h h0⟩
      · obtain ⟨r', h1, h2⟩ := resolve_mem hrs c hc
        exact ⟨r', by simp [h1], h2⟩

theorem instigWork_eq : ∀ {rs out : List Rec}, instigWork rs = some out → out = rs
  | [], out, h => by cases h; rfl
  | r :: rs, out, h => by
    unfold instigWork at h
    split at h <;> first | cases h; done | skip
    all_goals
      obtain ⟨o, ho, rfl⟩ := Option.map_eq_some_iff.1 h
      rw [instigWork_eq ho]

end Route

/-- C93. That `S->M` edges do not leave their rank, which the distribution policies see to (C47), is needed: a rank that gets such an edge from another rank looks for its target in the tree of
the targets, and gives the multipole expansion, if to anything, to the local expansion of the target node with the same index. -/
theorem C93_StoM_needs_locality (R : Rank) (g : Nat → Addr) {S : Type} (ser : Arr.Serializer S) {msg : List Byte} {rw' : Addr} {srcs srcs' : List S} {recs calls : List Rec}
    (hread : instigRead ser msg = some (rw', srcs, recs)) (h : R.instigRemote g ser msg = some (srcs', calls)) :
    ∀ c ∈ calls, c.op = .StoM → (∃ r ∈ recs, r.op = .StoM ∧ r.idx = c.idx ∧ r.target ≠ 0) ∨
      ∃ x : Ref × Option Nat, Life.deref R.dag ⟨.tgt, c.idx, .normal⟩ = some x ∧ c.target = (x.2.map g).getD 0 := by
  intro c hc ho
  unfold Rank.instigRemote at h
  rw [hread] at h
  simp only [Option.bind_eq_bind, Option.bind_some, Option.bind_eq_some_iff] at h
  obtain ⟨out, h1, out', h2, h3⟩ := h
  obtain rfl := instigWork_eq h2
  cases h3
  obtain ⟨r, hr, h4, h5, h6⟩ := resolve_mem h1 c hc
  by_cases h0 : r.target = 0
  · right
    have h7 := h6 h0
    unfold Rank.lookup at h7
    simp only [Option.bind_eq_bind, Option.bind_eq_some_iff] at h7
    obtain ⟨b, hb, x, hx, h8⟩ := h7
    have hi := walk_idx hb
    rw [← h4, ho, hi, ← h5] at hx
    refine ⟨x, hx, ?_⟩
    rw [← Option.some.inj h8]
    cases x.2 <;> rfl
  · exact .inl ⟨r, hr, h4 ▸ ho, h5.symm, h0⟩

/-! ### The setting exists -/

namespace Route

/-- A place for the node that the path leads to. -/
def placeAt (p : List Nat) : Nat := Encodable.encode p

/-- The tree below a path. -/
def below : Oct → List Nat → Oct
  | o, [] => o
  | .nil, _ :: _ => .nil
  | .node c, j :: p => if h : j < 8 then below (c ⟨j, h⟩) p else .nil

/-- A memory that holds the tree. -/
def heapOf (s : Fin 8 → Oct) : Heap := fun a =>
  match (Encodable.decode a : Option (List Nat)) with
  | none => HNode.fresh
  | some p =>
    { idx := p.foldl Index.child Index.root
      dagIdx := p.foldl Index.child Index.root
      parent := if p = [] then none else some (placeAt p.dropLast)
      child := fun j => match below (.node s) (p ++ [j]) with
        | .nil => none
        | .node _ => some (placeAt (p ++ [j])) }

theorem below_nil (o : Oct) : below o [] = o := by cases o <;> rfl

theorem below_append : ∀ (p q : List Nat) (o : Oct), below o (p ++ q) = below (below o p) q
  | [], q, o => by cases o <;> rfl
  | j :: p, q, .nil => by
    show Oct.nil = below .nil q
    cases q <;> rfl
  | j :: p, q, .node c => by
    show (if h : j < 8 then below (c ⟨j, h⟩) (p ++ q) else .nil) = below (if h : j < 8 then below (c ⟨j, h⟩) p else .nil) q
    split
    · exact below_append p q _
    · cases q <;> rfl

theorem heapOf_at (s : Fin 8 → Oct) (p : List Nat) : heapOf s (placeAt p) =
    { idx := p.foldl Index.child Index.root
      dagIdx := p.foldl Index.child Index.root
      parent := if p = [] then none else some (placeAt p.dropLast)
      child := fun j => match below (.node s) (p ++ [j]) with
        | .nil => none
        | .node _ => some (placeAt (p ++ [j])) } := by
  unfold heapOf placeAt
  rw [Encodable.encodek]

theorem heapOf_copy (s : Fin 8 → Oct) (o : Oct) : ∀ (p : List Nat) (c : Fin 8 → Oct), o = .node c → below (.node s) p = .node c →
    Copy (heapOf s) (placeAt p) ⟨p.foldl Index.child Index.root, c⟩ := by
  induction o with
  | nil => intro p c h; cases h
  | node c' ih =>
    intro p c h hb
    obtain rfl : c = c' := (Oct.node.inj h).symm
    have hk : ∀ j : Fin 8, below (.node s) (p ++ [j.val]) = c j := by
      intro j
      rw [below_append, hb]
      show (if h : j.val < 8 then below (c ⟨j.val, h⟩) [] else .nil) = _
      rw [dif_pos j.isLt]; exact below_nil _
    have hf : ∀ j : Fin 8, (p ++ [j.val]).foldl Index.child Index.root = (p.foldl Index.child Index.root).child j := by
      intro j; rw [List.foldl_append]; rfl
    refine Copy.mk _ _ (fun j => placeAt (p ++ [j.val])) (by rw [heapOf_at]) ?_ ?_ ?_ ?_ ?_
    · intro j hj
      have hj : c j = .nil := hj
      rw [heapOf_at]
      simp only [hk, hj]
    · intro j c2 hj
      have hj : c j = .node c2 := hj
      rw [heapOf_at]
      simp only [hk, hj]
    · intro j c2 hj
      rw [heapOf_at]
      simp
    · intro j c2 hj
      rw [heapOf_at]
      exact hf j
    · intro j c2 hj
      have := ih j (p ++ [j.val]) c2 hj (by rw [hk]; exact hj)
      rwa [hf] at this

end Route

/-- The setting of the theorems exists for every method, every pair of trees and every placement. -/
theorem C93_setting_exists {m : Method} (hm : Builtin m) (unif : Nat) (same : Bool) (s t : Fin 8 → Oct) (loc : Ref → Int) :
    ∃ W : Nat → Rank, ∀ k, Route.Ready m unif same s t loc k (W k) := by
  have : ∀ k : Nat, ∃ R : Rank, Route.Ready m unif same s t loc k R := by
    intro k
    have hr := createDag_runs m unif same s t
    have hb : Life.Blank Life.Mem.clean := ⟨⟨fun _ => rfl, fun _ => rfl⟩, fun _ => rfl⟩
    obtain ⟨h₁, _, h2⟩ := C83_create_succeeds hm hr hb (k : Int) loc
    obtain ⟨h', _, hc⟩ := h2 _ (List.Perm.refl _)
    exact ⟨⟨heapOf s, placeAt [], heapOf t, placeAt [], h'⟩, heapOf_copy s (.node s) [] s rfl rfl, heapOf_copy t (.node t) [] t rfl rfl,
      _, _, _, hr, hb, hc⟩
  choose W hW using this
  exact ⟨W, hW⟩

/-- Addresses that are not null. -/
example : GoodAddresses fun k i => 1 + (k * 1000 + i) % 1000000 := fun k i => ⟨by show 1 + (k * 1000 + i) % 1000000 ≠ 0; omega, by
  have := Nat.mod_lt (k * 1000 + i) (show 0 < 1000000 by omega)
  show 1 + (k * 1000 + i) % 1000000 < 2 ^ 64
  omega⟩

/-- A placement by the octant of the domain. -/
def exHome (i : Index) : Int := match (i.parent (i.level - 1)).whichChild with | 7 => 1 | 3 => 2 | _ => 0

/-- The hypotheses of the two theorems are met with trees of several levels and three ranks: in this placement there is a source leaf whose edges go to all three ranks, and an expansion of rank 0
with edges to ranks 1 and 2. -/
example : Runs (createProg FMM 1 false opSrc opTgt) (createDag FMM 1 false opSrc opTgt) ∧
    GoodPlacement 3 (nodesOf (createDag FMM 1 false opSrc opTgt)) (edgesOf (createDag FMM 1 false opSrc opTgt)) (fun i => some (exHome i)) (fun _ => -1) (fun r => exHome r.ix) ∧
    (∃ r, (r.side = .src ∧ r.kind = .parts) ∧ ∀ k ∈ [0, 1, 2], ∃ e ∈ edgesOf (createDag FMM 1 false opSrc opTgt), e.src = r ∧ exHome e.dst.ix = k) ∧
    (∃ r, ¬ (r.side = .src ∧ r.kind = .parts) ∧ exHome r.ix = 0 ∧
      ∀ k ∈ [1, 2], ∃ e ∈ edgesOf (createDag FMM 1 false opSrc opTgt), e.src = r ∧ exHome e.dst.ix = k) ∧
    ∀ e ∈ edgesOf (createDag FMM 1 false opSrc opTgt), SmallIndex e.dst.ix := by
  refine ⟨createDag_runs .., ⟨?_, ?_, ?_, ?_⟩, ?_, ?_, ?_⟩
  · decide +kernel
  · intro r h; omega
  · intro r _ _; rfl
  · decide +kernel
  · refine ⟨⟨.src, Index.root.child 7, .parts⟩, by simp, ?_⟩
    decide +kernel
  · refine ⟨⟨.src, (Index.root.child 0).child 0, .normal⟩, by simp, ?_, ?_⟩ <;> decide +kernel
  · unfold SmallIndex; decide +kernel

/-- A header and views that meet the conditions of `C93_expansion_edges`. -/
example : SmallHead ⟨4096, 17, ⟨3, 5, 6, 3⟩, (1, 2, 3), 4, 8192, 1⟩ ∧ (⟨[⟨0, [1, 2, 3]⟩, ⟨1, [4]⟩], 1, 1, 2, 3, 4⟩ : ViewSet).Representable ∧
    ¬ (⟨[⟨0, [1, 2, 3]⟩, ⟨1, [4]⟩], 1, 1, 2, 3, 4⟩ : ViewSet).EndsEmpty :=
  ⟨by unfold SmallHead SmallIndex; decide, by decide, by simp [ViewSet.EndsEmpty]⟩

end Dashmm
