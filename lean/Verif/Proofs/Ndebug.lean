import Verif.Model.Ndebug
import Verif.Proofs.Acyclic

namespace Dashmm

theorem srcActs_of_own {m : Method} {a n : TNode} (h : Under a n) {x : Act} (hx : x ∈ ownSrc m n) :
    x ∈ srcActs m a := by
  induction h with
  | refl a => rw [srcActs_eq]; exact List.mem_append.2 (.inr hx)
  | @down a k b hk hb ih =>
    rw [srcActs_eq, Under.not_leaf hk]
    exact List.mem_append.2 (.inl (List.mem_flatMap.2 ⟨k, hk, ih hx⟩))

theorem leaf_node {i : Index} : ∀ n : TNode, i ∈ n.leaves →
    ∃ b, Under n b ∧ b.isLeaf = true ∧ b.ix = i := by
  intro n
  induction n using tnode_induction with
  | h n ih =>
    intro hi
    cases hl : n.isLeaf with
    | true =>
      rw [TNode.leaves_of_leaf hl] at hi
      exact ⟨n, .refl n, hl, (List.mem_singleton.1 hi).symm⟩
    | false =>
      rw [TNode.leaves_of_not_leaf hl] at hi
      obtain ⟨k, hk, hi⟩ := List.mem_flatMap.1 hi
      obtain ⟨b, h1, h2, h3⟩ := ih k hk hi
      exact ⟨b, .down hk h1, h2, h3⟩

theorem link_of_leaf {m : Method} {unif : Nat} {same : Bool} {s t : Fin 8 → Oct} {acts : List Act}
    (hr : Runs (createProg m unif same s t) acts) {i : Index}
    (hi : i ∈ leaves Index.root (.node s)) {e : Edge}
    (he : ∀ n : TNode, n.ix = i → Act.link e ∈ m.generate n) : e ∈ edgesOf acts := by
  obtain ⟨b, h1, h2, h3⟩ := leaf_node (rootNode s) hi
  have : Act.link e ∈ createDag m unif same s t := by
    rw [createDag_eq, List.mem_append]
    left
    apply srcActs_of_own h1
    rw [ownSrc, h2]; exact he b h3
  rw [← (runs_perm hr).mem_iff] at this
  exact List.mem_filterMap.2 ⟨_, this, rfl⟩

theorem ndebug_parts {m : Method} {unif : Nat} {same : Bool} {s t : Fin 8 → Oct} {acts : List Act}
    (hr : Runs (createProg m.ndebug unif same s t) acts) : ∀ r ∈ nodesOf acts, r.kind = .parts := by
  intro r hrn
  obtain ⟨a, ha, har⟩ := List.mem_filterMap.1 hrn
  have key : a.inAssert = false := by
    rw [(runs_perm hr).mem_iff] at ha
    rcases createDag_mem ha with ⟨n, _, h⟩ | ⟨n, p, c, _, h⟩
    · unfold ownSrc at h
      split at h <;> simpa using (List.mem_filter.1 h).2
    · simp only [theVisit, Dashmm.visit, List.mem_append, Method.ndebug] at h
      rcases h with h | h <;> simpa using (List.mem_filter.1 h).2
  cases a with
  | link e => simp at har
  | add r' =>
    simp at har; subst har
    simpa [Act.inAssert] using key

theorem Direct_ndebug : Direct.ndebug = Direct := by
  have hpass : ∀ (curr : TNode) (leaf : Bool) (c : List TNode),
      ∀ a ∈ (directPass curr leaf c).1, a.inAssert = false := by
    intro curr leaf c
    induction c with
    | nil => intro a ha; simp [directPass] at ha
    | cons i c ih =>
      intro a ha
      simp only [directPass] at ha
      split at ha
      · split at ha
        · rcases List.mem_cons.1 ha with rfl | ha
          · rfl
          · exact ih a ha
        · exact ih a ha
      · exact ih a ha
  have hloop : ∀ (curr : TNode) (leaf : Bool) (fuel : Nat) (c : List TNode),
      ∀ a ∈ (doWhile (directPass curr leaf) leaf fuel c).1, a.inAssert = false := by
    intro curr leaf fuel
    induction fuel with
    | zero => intro c a ha; simp [doWhile] at ha; try exact hpass curr leaf c a ha
    | succ f ih =>
      intro c a ha
      simp only [doWhile] at ha
      split at ha
      · rcases List.mem_append.1 ha with ha | ha
        · exact hpass curr leaf c a ha
        · exact ih _ a ha
      · exact hpass curr leaf c a ha
  unfold Method.ndebug Direct
  congr 1
  · funext n p leaf
    cases leaf <;> simp [Act.inAssert, Act.addParts]
  · funext n c leaf
    apply Prod.ext
    · simp only
      rw [List.filter_eq_self]
      intro a ha
      simpa using hloop n leaf _ c a ha
    · rfl

end Dashmm
