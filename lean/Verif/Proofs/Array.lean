import Verif.Proofs.Reduce
import Verif.Model.Array
import Mathlib.Data.List.FinRange
import Mathlib.Algebra.BigOperators.Fin
import Mathlib.Algebra.Order.BigOperators.Group.Finset
namespace Dashmm
namespace Arr
variable {T : Type}

theorem sum_finRange {n : Nat} (f : Fin n → Nat) : ((List.finRange n).map f).sum = ∑ r, f r := by
  rw [Fin.sum_univ_def]

/-- The codes the local parts contribute are `0` or positive. -/
theorem retcode_spec {n : Nat} {order : List (Fin n)} (ho : order.Perm (List.finRange n))
    {codes : Fin n → Int} (hc : ∀ r, intMin ≤ codes r) (hn : 0 < n) :
    (∀ r, codes r ≤ retcode order codes) ∧ ∃ r, retcode order codes = codes r := by
  have hcomb : Reduce.Combined Reduce.intMaxIdent Reduce.intMaxOp
      (order.map fun r => fun _ : Fin 1 => codes r)
      (Reduce.lco Reduce.intMaxIdent Reduce.intMaxOp (order.map fun r => fun _ : Fin 1 => codes r)) :=
    Reduce.lco_combined (List.Perm.refl _)
  have hne : (order.map fun r => fun _ : Fin 1 => codes r) ≠ [] := by
    intro h
    have h2 := congrArg List.length h
    have := ho.length_eq
    simp at h2 this
    subst h2
    simp at this
    omega
  obtain ⟨h1, h2⟩ := Reduce.intMax_nonempty hcomb (by
    intro x hx i
    obtain ⟨r, _, rfl⟩ := List.mem_map.1 hx
    exact hc r) hne 0
  constructor
  · intro r
    exact h1 _ (List.mem_map.2 ⟨r, ho.mem_iff.2 (List.mem_finRange r), rfl⟩)
  · obtain ⟨x, hx, h⟩ := h2
    obtain ⟨r, _, rfl⟩ := List.mem_map.1 hx
    exact ⟨r, h⟩

theorem sums_spec {n : Nat} (hn : 0 < n) {order : List (Fin n)} (ho : order.Perm (List.finRange n))
    (c : Fin n → Nat) (hc : ∑ r, c r < sizeMod) :
    Reduce.lco Reduce.sizeSumIdent Reduce.sizeSumOp (order.map fun r => contrib r (c r))
      ⟨n - 1, by omega⟩ = ∑ r, c r := by
  have hcomb : Reduce.Combined Reduce.sizeSumIdent Reduce.sizeSumOp
      ((List.finRange n).map fun r => contrib r (c r))
      (Reduce.lco Reduce.sizeSumIdent Reduce.sizeSumOp (order.map fun r => contrib r (c r))) :=
    Reduce.lco_combined (ho.map _)
  have hle : ∀ r, c r ≤ ∑ r, c r := fun r =>
    Finset.single_le_sum (f := c) (fun _ _ => Nat.zero_le _) (Finset.mem_univ r)
  rw [Reduce.sizeSum hcomb]
  · rw [List.map_map]
    have : ((fun x => x (⟨n - 1, by omega⟩ : Fin n)) ∘ fun r => contrib r (c r)) = c := by
      funext r
      simp only [Function.comp, contrib]
      rw [if_pos]
      show r.1 ≤ n - 1
      omega
    rw [this, sum_finRange, Nat.mod_eq_of_lt hc]
  · intro x hx i
    obtain ⟨r, _, rfl⟩ := List.mem_map.1 hx
    have := hle r
    simp only [contrib]
    split <;> omega

/-! ### collect -/

section collect
variable {n : Nat} {s : Serializer T} {l : Fin n → Local T}

/-- The bytes encoding some records. -/
def enc (s : Serializer T) (xs : List T) : List Byte := (xs.map s.serialize).flatten

theorem deserialize_enc (hs : s.Ok) (x : T) (xs : List T) :
    s.deserialize (enc s (x :: xs)) = some (x, enc s xs) := by
  simpa [enc] using hs.roundtrip x (enc s xs)

theorem subsingleton_of_empty (hs : s.Ok) {x : T} (hx : s.serialize x = []) (y : T) : y = x := by
  have h1 := hs.roundtrip x (s.serialize y)
  have h2 := hs.roundtrip y []
  rw [hx, List.nil_append] at h1
  rw [List.append_nil, h1] at h2
  simpa using (congrArg Prod.fst (Option.some.inj h2)).symm

theorem enc_nil_subsingleton (hs : s.Ok) {xs : List T} (h : enc s xs = []) (hne : xs ≠ []) :
    ∀ y z : T, y = z := by
  cases xs with
  | nil => exact absurd rfl hne
  | cons x xs =>
    have : s.serialize x = [] := by
      simp [enc] at h; exact h.1
    intro y z
    rw [subsingleton_of_empty hs this y, subsingleton_of_empty hs this z]

/-- The segment of a rank holds its records. -/
def Holds (l : Local T) (recs : List T) : Prop :=
  l.localCount = recs.length ∧ (l.data = some recs ∨ (l.data = none ∧ recs = []))

theorem payload_holds (hs : s.Ok) {l : Local T} {recs : List T} (h : Holds l recs) (pad : List Byte) :
    payload s l pad = some (enc s recs) := by
  obtain ⟨h1, h2⟩ := h
  unfold payload
  split
  · have : recs = [] := List.length_eq_zero_iff.1 (by omega)
    simp [this, enc]
  · rcases h2 with h2 | ⟨_, h2⟩
    · rw [h2]
      have hsz : (recs.map s.size).sum = ((recs.map s.serialize).flatten).length := by
        rw [List.length_flatten, List.map_map]
        congr 1
        apply List.map_congr_left
        intro x _
        exact hs.size_eq x
      simp [h1, enc, hsz]
    · subst h2; simp at h1; omega

/-- The records a pending task still has to store. -/
def taskRecs (recs : Fin n → List T) (s : Serializer T) : CTask n → List T → Nat → Prop
  | .request r loc, xs, k => xs = recs r ∧ k = loc
  | .receive bytes loc, xs, k => bytes = enc s xs ∧ k = loc

/-- The records `xs` are those of `full` from position `k` on. -/
def At (full xs : List T) (k : Nat) : Prop :=
  k + xs.length ≤ full.length ∧ ∀ j, (h : j < xs.length) → full[k + j]? = some xs[j]

structure CInv (recs : Fin n → List T) (s : Serializer T) (full : List T) (c : CState T n)
    (w : List (List T × Nat)) : Prop where
  two : List.Forall₂ (fun t p => taskRecs recs s t p.1 p.2) c.tasks w
  at_ : ∀ p ∈ w, At full p.1 p.2
  len : c.mem.length = full.length
  rest : ∀ i, (∀ p ∈ w, ¬ (p.2 ≤ i ∧ i < p.2 + p.1.length)) → c.mem[i]? = full[i]?
  cnt : c.done + c.tasks.length = n

theorem forall₂_split {α β : Type} {R : α → β → Prop} {a : List α} {t : α} {b : List α} {w : List β}
    (h : List.Forall₂ R (a ++ t :: b) w) :
    ∃ wa p wb, w = wa ++ p :: wb ∧ List.Forall₂ R a wa ∧ R t p ∧ List.Forall₂ R b wb := by
  induction a generalizing w with
  | nil =>
    cases h with
    | cons h1 h2 => exact ⟨[], _, _, rfl, .nil, h1, h2⟩
  | cons x a ih =>
    cases h with
    | cons h1 h2 =>
      obtain ⟨wa, p, wb, rfl, h3, h4, h5⟩ := ih h2
      exact ⟨_ :: wa, p, wb, rfl, .cons h1 h3, h4, h5⟩

/-- Number of steps a task needs besides storing records. -/
def taskWeight : CTask n → Nat
  | .request .. => 2
  | .receive .. => 1

/-- Work left. -/
def cmeas (w : List (List T × Nat)) (c : CState T n) : Nat :=
  (w.map fun p => p.1.length).sum + (c.tasks.map taskWeight).sum

theorem CInv.step (hs : s.Ok) {recs : Fin n → List T} (hl : ∀ r, Holds (l r) (recs r))
    {full : List T} {c c' : CState T n} {w} (hi : CInv recs s full c w) (hst : CStep s l c c') :
    ∃ w', CInv recs s full c' w' ∧ cmeas w' c' < cmeas w c := by
  obtain ⟨two, hat, len, rest, cnt⟩ := hi
  cases hst with
  | @request mem done a b r loc pad bytes hp =>
    rw [payload_holds hs (hl r)] at hp
    cases hp
    refine ⟨w, ⟨?_, hat, len, rest, by simpa using cnt⟩, by simp [cmeas, taskWeight]⟩
    simp only at two ⊢
    rw [List.forall₂_iff_get] at two ⊢
    obtain ⟨hlen, h2⟩ := two
    simp only [List.length_append, List.length_cons] at hlen h2 ⊢
    refine ⟨hlen, ?_⟩
    intro i h1 h3
    have := h2 i h1 h3
    simp only [List.get_eq_getElem] at this ⊢
    rw [List.getElem_append] at this ⊢
    split
    · rename_i hlt
      rw [dif_pos hlt] at this
      exact this
    · rename_i hlt
      rw [dif_neg hlt] at this
      rw [List.getElem_cons] at this ⊢
      split
      · rename_i h0
        rw [dif_pos h0] at this
        obtain ⟨e1, e2⟩ := this
        exact ⟨by rw [e1], e2⟩
      · rename_i h0
        rw [dif_neg h0] at this
        exact this
  | @record mem done a b bytes loc x rst hne hd hlt =>
    obtain ⟨wa, p, wb, rfl, hwa, hp, hwb⟩ := forall₂_split two
    · obtain ⟨xs, k⟩ := p
      obtain ⟨e1, e2⟩ := hp
      simp only at e1 e2
      subst e1 e2
      cases xs with
      | nil => exact absurd rfl hne
      | cons y xs =>
        rw [deserialize_enc hs] at hd
        cases hd
        have hk := hat (x :: xs, k) (by simp)
        obtain ⟨hk1, hk2⟩ := hk
        simp only [List.length_cons] at hk1
        refine ⟨wa ++ (xs, k + 1) :: wb, ⟨?_, ?_, by simpa using len, ?_, by simpa using cnt⟩,
          by simp [cmeas, taskWeight]⟩
        · exact List.rel_append hwa (List.Forall₂.cons ⟨rfl, rfl⟩ hwb)
        · intro p hp
          rcases List.mem_append.1 hp with hp | hp
          · exact hat p (by simp [hp])
          · rcases List.mem_cons.1 hp with hp | hp
            · subst hp
              refine ⟨by simp only; omega, ?_⟩
              intro j hj
              have := hk2 (j + 1) (by simp; simpa using hj)
              simpa [Nat.add_assoc, Nat.add_comm 1 j] using this
            · exact hat p (by simp [hp])
        · intro i hi
          simp only at hi ⊢
          by_cases hik : k = i
          · subst hik
            have := hk2 0 (by simp)
            simp only [Nat.add_zero, List.getElem_cons_zero] at this
            rw [this, List.getElem?_set_self hlt]
          · rw [List.getElem?_set_ne hik]
            apply rest i
            intro p hp
            rcases List.mem_append.1 hp with hp | hp
            · exact hi p (by simp [hp])
            · rcases List.mem_cons.1 hp with hp | hp
              · subst hp
                have := hi (xs, k + 1) (by simp)
                simp only [List.length_cons] at this ⊢
                omega
              · exact hi p (by simp [hp])
  | @finish mem done a b loc =>
    obtain ⟨wa, p, wb, rfl, hwa, hp, hwb⟩ := forall₂_split two
    · obtain ⟨xs, k⟩ := p
      obtain ⟨e1, e2⟩ := hp
      simp only at e1 e2
      subst e2
      refine ⟨wa ++ wb, ⟨List.rel_append hwa hwb, ?_, len, ?_, by simp at cnt ⊢; omega⟩,
        by simp [cmeas, taskWeight]; omega⟩
      · intro p hp
        exact hat p (by
          rcases List.mem_append.1 hp with hp | hp <;> simp [hp])
      · intro i hi
        by_cases hxs : xs = []
        · subst hxs
          apply rest i
          intro p hp
          rcases List.mem_append.1 hp with hp | hp
          · exact hi p (by simp [hp])
          · rcases List.mem_cons.1 hp with hp | hp
            · subst hp; simp only [List.length_nil]; omega
            · exact hi p (by simp [hp])
        · have hsub := enc_nil_subsingleton hs e1.symm hxs
          simp only at len ⊢
          by_cases hil : i < full.length
          · rw [List.getElem?_eq_getElem hil, List.getElem?_eq_getElem (len ▸ hil)]
            exact congrArg some (hsub _ _)
          · rw [List.getElem?_eq_none (by omega), List.getElem?_eq_none (by omega)]

theorem at_flatten {m : Nat} (recs : Fin m → List T) (r : Fin m) :
    At ((List.finRange m).map recs).flatten (recs r)
      (((List.finRange m).take r).map fun q => (recs q).length).sum := by
  have hsplit : List.finRange m = (List.finRange m).take r ++ r :: (List.finRange m).drop (r + 1) := by
    conv_lhs => rw [← List.take_append_drop r.1 (List.finRange m)]
    congr 1
    rw [List.drop_eq_getElem_cons (by simp)]
    simp
  have hlen : ((((List.finRange m).take r).map recs).flatten).length
      = (((List.finRange m).take r).map fun q => (recs q).length).sum := by
    rw [List.length_flatten, List.map_map]; rfl
  rw [← hlen]
  have hf : ((List.finRange m).map recs).flatten
      = (((List.finRange m).take r).map recs).flatten ++
        (recs r ++ (((List.finRange m).drop (r + 1)).map recs).flatten) := by
    conv_lhs => rw [hsplit]
    simp
  rw [hf]
  constructor
  · simp
  · intro j hj
    rw [List.getElem?_append_right (by omega)]
    rw [Nat.add_sub_cancel_left, List.getElem?_append_left hj, List.getElem?_eq_getElem hj]

theorem CInv.start {recs : Fin n → List T} (hl : ∀ r, Holds (l r) (recs r))
    {mem : List T} (hm : mem.length = (((List.finRange n).map recs).flatten).length) :
    ∃ w, CInv recs s ((List.finRange n).map recs).flatten (collectStart l mem) w := by
  refine ⟨(List.finRange n).map fun r => (recs r, offset l r), ⟨?_, ?_, hm, ?_, by
    simp [collectStart]⟩⟩
  · simp only [collectStart]
    rw [List.forall₂_map_left_iff, List.forall₂_map_right_iff]
    apply List.forall₂_same.2
    intro r _
    exact ⟨rfl, rfl⟩
  · intro p hp
    obtain ⟨r, _, rfl⟩ := List.mem_map.1 hp
    have := at_flatten recs r
    have he : offset l r = (((List.finRange n).take r).map fun q => (recs q).length).sum := by
      unfold offset
      congr 1
      apply List.map_congr_left
      intro q _
      exact (hl q).1
    simpa [he] using this
  · intro i hi
    simp only [collectStart]
    by_cases hil : i < mem.length
    · exfalso
      -- some rank's records cover position `i`
      have key : ∀ (L : List (Fin n)) (i : Nat), i < ((L.map recs).flatten).length →
          ∃ a r b, L = a ++ r :: b ∧ (a.map fun q => (recs q).length).sum ≤ i ∧
            i < (a.map fun q => (recs q).length).sum + (recs r).length := by
        intro L
        induction L with
        | nil => intro i h; simp at h
        | cons q L ih =>
          intro i h
          by_cases hq : i < (recs q).length
          · exact ⟨[], q, L, rfl, by simp, by simpa using hq⟩
          · have h' : i - (recs q).length < ((L.map recs).flatten).length := by
              simp only [List.map_cons, List.flatten_cons, List.length_append] at h
              omega
            obtain ⟨a, r, b, e, h1, h2⟩ := ih _ h'
            refine ⟨q :: a, r, b, by rw [e]; rfl, ?_, ?_⟩
            · simp only [List.map_cons, List.sum_cons]; omega
            · simp only [List.map_cons, List.sum_cons]; omega
      obtain ⟨a, r, b, e, h1, h2⟩ := key _ i (hm ▸ hil)
      have hr : r.1 = a.length := by
        have h3 : (List.finRange n)[a.length]? = some r := by rw [e]; simp
        rw [List.getElem?_eq_some_iff] at h3
        obtain ⟨h4, h5⟩ := h3
        rw [List.getElem_finRange] at h5
        rw [← h5]
        rfl
      have ha : (List.finRange n).take r = a := by
        rw [e, hr]; simp
      have he : offset l r = (a.map fun q => (recs q).length).sum := by
        unfold offset
        rw [ha]
        congr 1
        apply List.map_congr_left
        intro q _
        exact (hl q).1
      apply hi (recs r, offset l r) (List.mem_map.2 ⟨r, List.mem_finRange r, rfl⟩)
      simp only [he]
      exact ⟨h1, h2⟩
    · rw [List.getElem?_eq_none (by omega), List.getElem?_eq_none (by omega)]

theorem creach_inv (hs : s.Ok) {recs : Fin n → List T} (hl : ∀ r, Holds (l r) (recs r))
    {mem : List T} (hm : mem.length = (((List.finRange n).map recs).flatten).length)
    {c : CState T n} (h : CReach s l mem c) :
    ∃ w, CInv recs s ((List.finRange n).map recs).flatten c w := by
  induction h with
  | start => exact CInv.start hl hm
  | step _ hst ih =>
    obtain ⟨w, hw⟩ := ih
    exact (hw.step hs hl hst).imp fun _ h => h.1

/-- No schedule gets stuck before all tasks are finished. -/
theorem CInv.progress (hs : s.Ok) {recs : Fin n → List T} (hl : ∀ r, Holds (l r) (recs r))
    {full : List T} {c : CState T n} {w} (hi : CInv recs s full c w) (hne : c.tasks ≠ []) :
    ∃ c', CStep s l c c' := by
  obtain ⟨mem, tasks, done⟩ := c
  cases tasks with
  | nil => exact absurd rfl hne
  | cons t ts =>
    cases t with
    | request r loc =>
      exact ⟨_, CStep.request (a := []) (payload_holds hs (hl r) [])⟩
    | receive bytes loc =>
      cases w with
      | nil => exact absurd hi.two (by simp)
      | cons p w =>
        have h := hi.two
        simp only [List.forall₂_cons] at h
        obtain ⟨⟨e1, e2⟩, _⟩ := h
        by_cases hb : bytes = []
        · subst hb
          exact ⟨_, CStep.finish (a := [])⟩
        · obtain ⟨xs, k⟩ := p
          simp only at e1 e2
          subst e1 e2
          cases xs with
          | nil => exact absurd rfl hb
          | cons x xs =>
            have hk := hi.at_ (x :: xs, k) (by simp)
            have hlen := hi.len
            simp only at hlen
            refine ⟨_, CStep.record (a := []) hb (deserialize_enc hs x xs) ?_⟩
            have := hk.1
            simp at this
            omega

end collect
end Arr
end Dashmm
