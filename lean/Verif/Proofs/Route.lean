import Verif.Model.Route
import Verif.Proofs.Points
import Verif.Props.ViewSet
/-
Lemmas about the messages of the out edges.
-/
namespace Dashmm.Route
open Arr (Serializer)

/-! ### bytes -/

theorem opOf_opCode (o : Op) : opOf (opCode o) = some o := by cases o <;> rfl

theorem opCode_lt (o : Op) : opCode o < 256 ^ 4 := by cases o <;> decide

/-- An index whose members are `int`s. -/
def FitsIx (i : Index) : Prop := i.x < 2 ^ 31 ∧ i.y < 2 ^ 31 ∧ i.z < 2 ^ 31 ∧ i.level < 2 ^ 31

theorem idxBytes_length (i : Index) : (idxBytes i).length = 16 := by simp [idxBytes, leBytes_length]

theorem intOf_le {n : Nat} (h : n < 2 ^ 31) : intOf (leBytes 4 n) = some n := by
  unfold intOf
  rw [ofLe_leBytes 4 n (by omega), if_pos h]

theorem take_app {α : Type} {a b : List α} {n : Nat} (h : a.length = n) : (a ++ b).take n = a := by subst h; simp
theorem drop_app {α : Type} {a b : List α} {n : Nat} (h : a.length = n) : (a ++ b).drop n = b := by subst h; simp

theorem idxOf_bytes {i : Index} (h : FitsIx i) : idxOf (idxBytes i) = some i := by
  obtain ⟨h1, h2, h3, h4⟩ := h
  unfold idxOf idxBytes
  have e1 : (leBytes 4 i.x ++ leBytes 4 i.y ++ leBytes 4 i.z ++ leBytes 4 i.level).take 4 = leBytes 4 i.x := by
    rw [List.append_assoc, List.append_assoc]; exact take_app (leBytes_length _ _)
  have e2 : ((leBytes 4 i.x ++ leBytes 4 i.y ++ leBytes 4 i.z ++ leBytes 4 i.level).drop 4).take 4 = leBytes 4 i.y := by
    rw [List.append_assoc, List.append_assoc, drop_app (leBytes_length _ _)]; exact take_app (leBytes_length _ _)
  have e3 : ((leBytes 4 i.x ++ leBytes 4 i.y ++ leBytes 4 i.z ++ leBytes 4 i.level).drop 8).take 4 = leBytes 4 i.z := by
    rw [List.append_assoc, drop_app (by simp [leBytes_length])]; exact take_app (leBytes_length _ _)
  have e4 : ((leBytes 4 i.x ++ leBytes 4 i.y ++ leBytes 4 i.z ++ leBytes 4 i.level).drop 12).take 4 = leBytes 4 i.level := by
    rw [drop_app (by simp [leBytes_length])]; exact List.take_of_length_le (by simp [leBytes_length])
  rw [e1, e2, e3, e4, intOf_le h1, intOf_le h2, intOf_le h3, intOf_le h4]
  rfl

/-- A record that the members can hold. -/
def Fits (r : Rec) : Prop := r.target < 2 ^ 64 ∧ FitsIx r.idx

theorem recOf_bytes {r : Rec} (h : Fits r) {j : List Byte} (hj : j.length = 4) (tail : List Byte) :
    recOf (leBytes 4 (opCode r.op) ++ j ++ leBytes 8 r.target ++ idxBytes r.idx ++ tail) = some r := by
  unfold recOf
  have e1 : (leBytes 4 (opCode r.op) ++ j ++ leBytes 8 r.target ++ idxBytes r.idx ++ tail).take 4 = leBytes 4 (opCode r.op) := by
    simp only [List.append_assoc]; exact take_app (leBytes_length _ _)
  have e2 : ((leBytes 4 (opCode r.op) ++ j ++ leBytes 8 r.target ++ idxBytes r.idx ++ tail).drop 8).take 8 = leBytes 8 r.target := by
    rw [List.append_assoc, List.append_assoc, drop_app (by simp [leBytes_length, hj])]
    exact take_app (leBytes_length _ _)
  have e3 : ((leBytes 4 (opCode r.op) ++ j ++ leBytes 8 r.target ++ idxBytes r.idx ++ tail).drop 16).take 16 = idxBytes r.idx := by
    rw [List.append_assoc, drop_app (by simp [leBytes_length, hj])]
    exact take_app (idxBytes_length _)
  rw [e1, e2, e3, ofLe_leBytes 4 _ (opCode_lt _), opOf_opCode, idxOf_bytes h.2, ofLe_leBytes 8 _ (by have := h.1; omega)]
  rfl

/-- The bytes hold the records, each in `size` bytes. -/
def Enc (size : Nat) : List Rec → List Byte → Prop
  | [], b => b = []
  | r :: rs, b => ∃ c b', b = c ++ b' ∧ c.length = size ∧ (∀ tail, recOf (c ++ tail) = some r) ∧ Enc size rs b'

theorem Enc.length {size : Nat} : ∀ {rs : List Rec} {b : List Byte}, Enc size rs b → b.length = size * rs.length
  | [], b, h => by rw [show b = [] from h]; simp
  | r :: rs, b, h => by
    obtain ⟨c, b', rfl, h1, _, h2⟩ := h
    rw [List.length_append, h1, h2.length, List.length_cons, Nat.mul_add]; omega

theorem Enc.read {size : Nat} : ∀ {rs : List Rec} {b : List Byte}, Enc size rs b → ∀ tail, recsOf size rs.length (b ++ tail) = some rs
  | [], b, h, tail => rfl
  | r :: rs, b, h, tail => by
    obtain ⟨c, b', rfl, h1, h3, h2⟩ := h
    rw [List.length_cons, recsOf, if_neg (by simp; omega), List.append_assoc, h3, drop_app h1]
    show (recsOf size rs.length (b' ++ tail)).bind _ = _
    rw [h2.read]
    rfl

theorem Enc.split {size : Nat} : ∀ {xs ys : List Rec} {b : List Byte}, Enc size (xs ++ ys) b → ∃ b1 b2, b = b1 ++ b2 ∧ Enc size xs b1 ∧ Enc size ys b2
  | [], ys, b, h => ⟨[], b, rfl, rfl, h⟩
  | x :: xs, ys, b, h => by
    obtain ⟨c, b', rfl, h1, h3, h2⟩ := h
    obtain ⟨b1, b2, rfl, h4, h5⟩ := h2.split
    exact ⟨c ++ b1, b2, by simp, ⟨c, b1, rfl, h1, h3, h4⟩, h5⟩

/-! ### memory -/

/-- Outside of the `n` bytes at `p` the memories agree. -/
def SameBut (p n : Nat) (m m' : Mem) : Prop := ∀ a, (a < p ∨ p + n ≤ a) → m' a = m a

theorem SameBut.refl (p n : Nat) (m : Mem) : SameBut p n m m := fun _ _ => rfl

theorem SameBut.trans {p n : Nat} {m m' m'' : Mem} (h : SameBut p n m m') (h' : SameBut p n m' m'') : SameBut p n m m'' :=
  fun a ha => (h' a ha).trans (h a ha)

theorem SameBut.mono {p n q k : Nat} {m m' : Mem} (h : SameBut p n m m') (h1 : q ≤ p) (h2 : p + n ≤ q + k) : SameBut q k m m' :=
  fun a ha => h a (by omega)

theorem sameBut_store (m : Mem) (p : Nat) (d : List Byte) : SameBut p d.length m (m.store p d) :=
  fun a ha => Mem.store_out m p d a ha

theorem SameBut.load {p n : Nat} {m m' : Mem} (h : SameBut p n m m') {a k : Nat} (ha : a + k ≤ p ∨ p + n ≤ a) : m'.load a k = m.load a k := by
  unfold Mem.load
  refine List.map_congr_left fun i hi => h _ ?_
  rw [List.mem_range] at hi
  omega

theorem putRec_same (r : Rec) (p : Nat) (m : Mem) : SameBut p 32 m (putRec r p m) := by
  unfold putRec
  refine (((sameBut_store m p _).mono ?_ ?_).trans ((sameBut_store _ (p + 8) _).mono ?_ ?_)).trans ((sameBut_store _ (p + 16) _).mono ?_ ?_) <;>
    (try simp only [leBytes_length, idxBytes_length]) <;> omega

theorem putRec_load (r : Rec) (p : Nat) (m : Mem) : ∃ j : List Byte, j.length = 4 ∧
    (putRec r p m).load p 32 = leBytes 4 (opCode r.op) ++ j ++ leBytes 8 r.target ++ idxBytes r.idx := by
  refine ⟨(putRec r p m).load (p + 4) 4, Mem.load_length _ _ _, ?_⟩
  rw [show (32 : Nat) = 4 + 4 + 8 + 16 from rfl, Mem.load_add, Mem.load_add, Mem.load_add]
  have h1 : (putRec r p m).load p 4 = leBytes 4 (opCode r.op) := by
    unfold putRec
    rw [(sameBut_store _ (p + 16) _).load (by left; omega), (sameBut_store _ (p + 8) _).load (by left; omega)]
    have := Mem.load_store_same m p (leBytes 4 (opCode r.op))
    rwa [leBytes_length] at this
  have h2 : (putRec r p m).load (p + (4 + 4)) 8 = leBytes 8 r.target := by
    unfold putRec
    rw [(sameBut_store _ (p + 16) _).load (by left; omega)]
    have := Mem.load_store_same (m.store p (leBytes 4 (opCode r.op))) (p + 8) (leBytes 8 r.target)
    rwa [leBytes_length] at this
  have h3 : (putRec r p m).load (p + (4 + 4 + 8)) 16 = idxBytes r.idx := by
    have := Mem.load_store_same ((m.store p (leBytes 4 (opCode r.op))).store (p + 8) (leBytes 8 r.target)) (p + 16) (idxBytes r.idx)
    rwa [idxBytes_length] at this
  rw [h1, h2, h3]

theorem putRecs_same : ∀ (rs : List Rec) (p : Nat) (m : Mem), SameBut p (32 * rs.length) m (putRecs rs p m)
  | [], p, m => SameBut.refl _ _ _
  | r :: rs, p, m => by
    unfold putRecs
    refine ((putRec_same r p m).mono (Nat.le_refl _) ?_).trans ((putRecs_same rs _ _).mono ?_ ?_) <;>
      simp only [instigSize, List.length_cons] <;> omega

theorem putRecs_load : ∀ (rs : List Rec) (_ : ∀ r ∈ rs, Fits r) (p : Nat) (m : Mem), Enc 32 rs ((putRecs rs p m).load p (32 * rs.length))
  | [], _, p, m => rfl
  | r :: rs, hf, p, m => by
    rw [List.length_cons, show 32 * (rs.length + 1) = 32 + 32 * rs.length by omega, Mem.load_add]
    refine ⟨_, _, rfl, Mem.load_length _ _ _, ?_, ?_⟩
    · unfold putRecs
      rw [(putRecs_same rs _ _).load (by left; simp only [instigSize]; omega)]
      obtain ⟨j, hj, e⟩ := putRec_load r p m
      rw [e]
      exact fun tail => recOf_bytes (hf r (by simp)) hj tail
    · exact putRecs_load rs (fun r' h => hf r' (by simp [h])) _ _

theorem putOut_same (e : OutRec) (p : Nat) (m : Mem) : SameBut p 40 m (putOut e p m) := by
  unfold putOut
  refine ((putRec_same e.r p m).mono ?_ ?_).trans ((sameBut_store _ (p + 32) _).mono ?_ ?_) <;>
    (try simp only [leBytes_length]) <;> omega

theorem putOuts_same : ∀ (es : List OutRec) (p : Nat) (m : Mem), SameBut p (40 * es.length) m (putOuts es p m)
  | [], p, m => SameBut.refl _ _ _
  | e :: es, p, m => by
    unfold putOuts
    refine ((putOut_same e p m).mono (Nat.le_refl _) ?_).trans ((putOuts_same es _ _).mono ?_ ?_) <;>
      simp only [outSize, List.length_cons] <;> omega

theorem putOuts_load : ∀ (es : List OutRec) (_ : ∀ e ∈ es, Fits e.r) (p : Nat) (m : Mem),
    Enc 40 (es.map OutRec.r) ((putOuts es p m).load p (40 * es.length))
  | [], _, p, m => rfl
  | e :: es, hf, p, m => by
    rw [List.length_cons, show 40 * (es.length + 1) = 40 + 40 * es.length by omega, Mem.load_add]
    refine ⟨_, _, rfl, Mem.load_length _ _ _, ?_, ?_⟩
    · unfold putOuts
      rw [(putOuts_same es _ _).load (by left; simp only [outSize]; omega)]
      rw [show (40 : Nat) = 32 + 8 from rfl, Mem.load_add]
      unfold putOut
      rw [(sameBut_store _ (p + 32) _).load (by left; omega)]
      obtain ⟨j, hj, e'⟩ := putRec_load e.r p m
      rw [e']
      intro tail
      rw [List.append_assoc _ _ tail]
      exact recOf_bytes (hf e (by simp)) hj _
    · exact putOuts_load es (fun r' h => hf r' (by simp [h])) _ _

/-! ### the message of a source leaf -/

section
variable {S : Type} {ser : Serializer S}

theorem headerSize_eq (hs : ser.Ok) (srcs : List S) : headerSize ser srcs = 16 + ((srcs.map ser.serialize).flatten).length := by
  unfold headerSize
  rw [Points.foldl_size, Points.flatten_size hs]; omega

theorem putSources_same : ∀ (xs : List S) (p : Nat) (m : Mem), SameBut p ((xs.map ser.serialize).flatten).length m (putSources ser xs p m)
  | [], p, m => SameBut.refl _ _ _
  | x :: xs, p, m => by
    unfold putSources
    refine ((sameBut_store m p _).mono (Nat.le_refl _) ?_).trans ((putSources_same xs _ _).mono ?_ ?_) <;>
      (try simp only [List.map_cons, List.flatten_cons, List.length_append]) <;> omega

theorem putSources_load : ∀ (xs : List S) (p : Nat) (m : Mem),
    (putSources ser xs p m).load p ((xs.map ser.serialize).flatten).length = (xs.map ser.serialize).flatten
  | [], p, m => rfl
  | x :: xs, p, m => by
    unfold putSources
    rw [List.map_cons, List.flatten_cons, List.length_append, Mem.load_add, putSources_load xs,
      (putSources_same xs _ _).load (by left; omega), Mem.load_store_same]

theorem putHeader_same (hs : ser.Ok) (rw' : Addr) (srcs : List S) (p : Nat) (m : Mem) :
    SameBut p (headerSize ser srcs) m (putHeader ser rw' srcs p m) := by
  rw [headerSize_eq hs]
  unfold putHeader
  refine (((sameBut_store m p _).mono ?_ ?_).trans ((sameBut_store _ (p + 8) _).mono ?_ ?_)).trans
    ((putSources_same srcs (p + 8 + 8) _).mono ?_ ?_) <;> (try simp only [leBytes_length]) <;> omega

theorem putHeader_load (hs : ser.Ok) (rw' : Addr) (srcs : List S) (p : Nat) (m : Mem) :
    (putHeader ser rw' srcs p m).load p (headerSize ser srcs) =
      leBytes 8 rw' ++ leBytes 8 srcs.length ++ (srcs.map ser.serialize).flatten := by
  rw [headerSize_eq hs, show (16 : Nat) = 8 + 8 from rfl, Mem.load_add, Mem.load_add]
  unfold putHeader
  rw [show p + (8 + 8) = p + 8 + 8 by omega, putSources_load, (putSources_same srcs _ _).load (by left; omega),
    (putSources_same srcs _ _).load (by left; omega), (sameBut_store _ (p + 8) _).load (by left; omega)]
  have h1 := Mem.load_store_same m p (leBytes 8 rw')
  have h2 := Mem.load_store_same (m.store p (leBytes 8 rw')) (p + 8) (leBytes 8 srcs.length)
  rw [leBytes_length] at h1 h2
  rw [h1, h2]

/-- The bytes of a message. -/
theorem instigRead_bytes (hs : ser.Ok) {rw' : Addr} (hrw : rw' < 2 ^ 64) {srcs : List S} (hn : srcs.length < 2 ^ 64) {rs : List Rec} (hrs : rs.length < 2 ^ 64)
    {b : List Byte} (hb : Enc 32 rs b) :
    instigRead ser (leBytes 8 rw' ++ leBytes 8 srcs.length ++ (srcs.map ser.serialize).flatten ++ (leBytes 8 rs.length ++ b)) =
      some (rw', srcs, rs) := by
  unfold instigRead
  rw [if_neg (by simp [leBytes_length]; omega)]
  have e1 : ((leBytes 8 rw' ++ leBytes 8 srcs.length ++ (srcs.map ser.serialize).flatten ++ (leBytes 8 rs.length ++ b)).drop 8).take 8 =
      leBytes 8 srcs.length := by
    simp only [List.append_assoc]
    rw [drop_app (leBytes_length _ _)]; exact take_app (leBytes_length _ _)
  have e2 : (leBytes 8 rw' ++ leBytes 8 srcs.length ++ (srcs.map ser.serialize).flatten ++ (leBytes 8 rs.length ++ b)).drop 16 =
      (srcs.map ser.serialize).flatten ++ (leBytes 8 rs.length ++ b) := by
    rw [List.append_assoc _ (List.flatten _), drop_app (by simp [leBytes_length])]
  have e3 : (leBytes 8 rw' ++ leBytes 8 srcs.length ++ (srcs.map ser.serialize).flatten ++ (leBytes 8 rs.length ++ b)).take 8 = leBytes 8 rw' := by
    simp only [List.append_assoc]
    exact take_app (leBytes_length _ _)
  rw [e1, e2, e3, ofLe_leBytes 8 _ (by omega), ofLe_leBytes 8 _ (by omega), Points.deserialize_all hs]
  simp only [Option.bind_eq_bind, Option.bind_some]
  rw [if_neg (by simp [leBytes_length]), take_app (leBytes_length _ _), drop_app (leBytes_length _ _), ofLe_leBytes 8 _ (by omega)]
  have := hb.read []
  rw [List.append_nil] at this
  show (recsOf 32 _ _).bind _ = _
  rw [this]
  rfl

/-- What is to come of a run of edges from a source leaf. -/
def InstigGood (ser : Serializer S) (rw' : Addr) (srcs : List S) (me : Nat) (run : Nat × List Rec) : Out → Prop
  | .work c => run.1 = me ∧ c = instigWork run.2
  | .parcel k b => k = run.1 ∧ k ≠ me ∧ instigRead ser b = some (rw', srcs, run.2)

theorem instigLoop_good (hs : ser.Ok) {rw' : Addr} (hrw : rw' < 2 ^ 64) {srcs : List S} (hn : srcs.length < 2 ^ 64) (me p N : Nat) (hN : N < 2 ^ 64) :
    ∀ (runs : List (Nat × List Rec)) (_ : ∀ r ∈ runs, r.2.length ≤ N ∧ ∀ x ∈ r.2, Fits x) (m : Mem)
      (_ : m.load p (headerSize ser srcs) = leBytes 8 rw' ++ leBytes 8 srcs.length ++ (srcs.map ser.serialize).flatten),
      List.Forall₂ (InstigGood ser rw' srcs me) runs (instigLoop me (headerSize ser srcs) p runs m).1 ∧
      SameBut p (headerSize ser srcs + 8 + N * 32) m (instigLoop me (headerSize ser srcs) p runs m).2
  | [], _, m, _ => ⟨.nil, SameBut.refl _ _ _⟩
  | (k, es) :: rest, hf, m, hm => by
    obtain ⟨hl, hfit⟩ := hf (k, es) (by simp)
    generalize hh : headerSize ser srcs = h at *
    generalize hm1 : m.store (p + h) (leBytes 8 es.length) = m1
    generalize hm2 : putRecs es (p + h + 8) m1 = m2
    have s1 : SameBut (p + h) 8 m m1 := by
      have := sameBut_store m (p + h) (leBytes 8 es.length)
      rwa [leBytes_length, hm1] at this
    have s2 : SameBut (p + h + 8) (32 * es.length) m1 m2 := by rw [← hm2]; exact putRecs_same es _ _
    have c1 : m2.load (p + h) 8 = leBytes 8 es.length := by
      rw [s2.load (by left; omega), ← hm1]
      have := Mem.load_store_same m (p + h) (leBytes 8 es.length)
      rwa [leBytes_length] at this
    have c2 : ofLe (m2.load (p + h) 8) = es.length := by rw [c1, ofLe_leBytes 8 _ (by dsimp only at hl; omega)]
    have c3 : Enc 32 es (m2.load (p + h + 8) (32 * es.length)) := by rw [← hm2]; exact putRecs_load es hfit _ _
    have c4 : m2.load p h = leBytes 8 rw' ++ leBytes 8 srcs.length ++ (srcs.map ser.serialize).flatten := by
      rw [s2.load (by left; omega), s1.load (by left; omega), hm]
    have ih := instigLoop_good hs hrw hn me p N hN rest (fun r hr => hf r (by simp [hr])) m2 (by rw [hh]; exact c4)
    rw [hh] at ih
    dsimp only at hl
    have ss : SameBut p (h + 8 + N * 32) m m2 := (s1.mono (by omega) (by omega)).trans (s2.mono (by omega) (by omega))
    unfold instigLoop
    simp only [hm1, hm2, c2]
    refine ⟨.cons ?_ ih.1, ss.trans ih.2⟩
    by_cases hk : k = me
    · rw [if_pos hk]
      refine ⟨hk, ?_⟩
      have := c3.read []
      rw [List.append_nil] at this
      show (recsOf 32 _ _).bind _ = _
      rw [show instigSize = 32 from rfl, this]; rfl
    · rw [if_neg hk]
      refine ⟨rfl, hk, ?_⟩
      rw [show instigSize = 32 from rfl, Nat.add_assoc h, Mem.load_add, Mem.load_add, c4, c1]
      exact instigRead_bytes hs hrw hn (by omega) c3

end

/-! ### the message of an expansion -/

theorem headBytes_length (d : Head) (n : Nat) : (headBytes d n).length = 88 := by simp [headBytes, leBytes_length, idxBytes_length]

/-- A header that the members can hold. -/
def FitsHead (d : Head) : Prop := d.node < 2 ^ 64 ∧ d.rwaddr < 2 ^ 64 ∧ d.data < 2 ^ 64 ∧ FitsIx d.index

theorem cut {α : Type} {l a b c : List α} {n k : Nat} (h : l = a ++ (b ++ c)) (ha : a.length = n) (hb : b.length = k) : (l.drop n).take k = b := by
  subst h; rw [drop_app ha, take_app hb]

theorem headOf_bytes {d : Head} (h : FitsHead d) (n : Nat) (tail : List Byte) : headOf (headBytes d n ++ tail) = some d := by
  obtain ⟨h1, h2, h3, h4⟩ := h
  unfold headOf
  have e0 : (headBytes d n ++ tail).take 8 = leBytes 8 d.node := by
    have := cut (l := headBytes d n ++ tail) (a := []) (b := leBytes 8 d.node) (n := 0) (k := 8) (by unfold headBytes; simp only [List.append_assoc, List.nil_append]; rfl) rfl (leBytes_length _ _)
    simpa using this
  have e1 : ((headBytes d n ++ tail).drop 16).take 8 = leBytes 8 d.rwaddr :=
    cut (a := leBytes 8 d.node ++ leBytes 8 n) (by unfold headBytes; simp only [List.append_assoc]; rfl) (by simp [leBytes_length]) (leBytes_length _ _)
  have e2 : ((headBytes d n ++ tail).drop 24).take 16 = idxBytes d.index :=
    cut (a := leBytes 8 d.node ++ leBytes 8 n ++ leBytes 8 d.rwaddr) (by unfold headBytes; simp only [List.append_assoc]; rfl) (by simp [leBytes_length]) (idxBytes_length _)
  have e3 : ((headBytes d n ++ tail).drop 40).take 8 = leBytes 8 d.center.1.toNat :=
    cut (a := leBytes 8 d.node ++ leBytes 8 n ++ leBytes 8 d.rwaddr ++ idxBytes d.index) (by unfold headBytes; simp only [List.append_assoc]; rfl)
      (by simp [leBytes_length, idxBytes_length]) (leBytes_length _ _)
  have e4 : ((headBytes d n ++ tail).drop 48).take 8 = leBytes 8 d.center.2.1.toNat :=
    cut (a := leBytes 8 d.node ++ leBytes 8 n ++ leBytes 8 d.rwaddr ++ idxBytes d.index ++ leBytes 8 d.center.1.toNat)
      (by unfold headBytes; simp only [List.append_assoc]; rfl) (by simp [leBytes_length, idxBytes_length]) (leBytes_length _ _)
  have e5 : ((headBytes d n ++ tail).drop 56).take 8 = leBytes 8 d.center.2.2.toNat :=
    cut (a := leBytes 8 d.node ++ leBytes 8 n ++ leBytes 8 d.rwaddr ++ idxBytes d.index ++ leBytes 8 d.center.1.toNat ++ leBytes 8 d.center.2.1.toNat)
      (by unfold headBytes; simp only [List.append_assoc]; rfl) (by simp [leBytes_length, idxBytes_length]) (leBytes_length _ _)
  have e6 : ((headBytes d n ++ tail).drop 64).take 8 = leBytes 8 d.scale.toNat :=
    cut (a := leBytes 8 d.node ++ leBytes 8 n ++ leBytes 8 d.rwaddr ++ idxBytes d.index ++ leBytes 8 d.center.1.toNat ++ leBytes 8 d.center.2.1.toNat ++
      leBytes 8 d.center.2.2.toNat) (by unfold headBytes; simp only [List.append_assoc]; rfl) (by simp [leBytes_length, idxBytes_length]) (leBytes_length _ _)
  have e7 : ((headBytes d n ++ tail).drop 72).take 8 = leBytes 8 d.data :=
    cut (a := leBytes 8 d.node ++ leBytes 8 n ++ leBytes 8 d.rwaddr ++ idxBytes d.index ++ leBytes 8 d.center.1.toNat ++ leBytes 8 d.center.2.1.toNat ++
      leBytes 8 d.center.2.2.toNat ++ leBytes 8 d.scale.toNat) (by unfold headBytes; simp only [List.append_assoc]; rfl)
      (by simp [leBytes_length, idxBytes_length]) (leBytes_length _ _)
  have e8 : ((headBytes d n ++ tail).drop 80).take 4 = leBytes 4 d.role.toNat :=
    cut (a := leBytes 8 d.node ++ leBytes 8 n ++ leBytes 8 d.rwaddr ++ idxBytes d.index ++ leBytes 8 d.center.1.toNat ++ leBytes 8 d.center.2.1.toNat ++
      leBytes 8 d.center.2.2.toNat ++ leBytes 8 d.scale.toNat ++ leBytes 8 d.data) (by unfold headBytes; simp only [List.append_assoc]; rfl)
      (by simp [leBytes_length, idxBytes_length]) (leBytes_length _ _)
  have b64 : ∀ v : BitVec 64, BitVec.ofNat 64 (ofLe (leBytes 8 v.toNat)) = v := by
    intro v
    rw [ofLe_leBytes 8 _ (by have := v.isLt; omega), BitVec.ofNat_toNat, BitVec.setWidth_eq]
  have b32 : BitVec.ofNat 32 (ofLe (leBytes 4 d.role.toNat)) = d.role := by
    rw [ofLe_leBytes 4 _ (by have := d.role.isLt; omega), BitVec.ofNat_toNat, BitVec.setWidth_eq]
  rw [e0, e1, e2, e3, e4, e5, e6, e7, e8, idxOf_bytes h4, b64, b64, b64, b64, b32, ofLe_leBytes 8 d.node (by omega), ofLe_leBytes 8 d.rwaddr (by omega), ofLe_leBytes 8 d.data (by omega)]
  rfl

theorem outCount_eq {n : Nat} (h : 40 * n < 2 ^ 31) : outCount (40 * n) = n := by
  unfold outCount outSize
  have e1 : 40 * n % 2 ^ 32 = 40 * n := Nat.mod_eq_of_lt (by omega)
  simp only [e1]
  rw [if_pos h]
  have e2 : 40 * n / 40 = n := by omega
  rw [e2, Nat.mod_eq_of_lt (by omega), if_pos (by omega)]

/-- What is to come of a run of edges from an expansion: the message, wherever it is put on the other rank, is read as it was meant. -/
def OutGood (d : Head) (views : ViewSet) (me : Nat) (run : Nat × List OutRec) : Out → Prop
  | .work c => run.1 = me ∧ c = outWork (run.2.map OutRec.r)
  | .parcel k b => k = run.1 ∧ k ≠ me ∧ ∀ (m : Mem) (q : Nat), m.load q b.length = b → outRead m q b.length = some (d, views, run.2.map OutRec.r)

theorem outRead_bytes {d : Head} (hd : FitsHead d) {views : ViewSet} (hv : views.Representable) (he : ¬ views.EndsEmpty) (hb : views.bytes < 2 ^ 64)
    {rs : List Rec} (hrs : 40 * rs.length < 2 ^ 31) {b : List Byte} (henc : Enc 40 rs b) {m : Mem} {q : Nat}
    (hm : m.load q (88 + views.bytes + 40 * rs.length) = headBytes d views.bytes ++ (ViewSet.chunks views).flatten ++ b) :
    outRead m q (88 + views.bytes + 40 * rs.length) = some (d, views, rs) := by
  unfold outRead
  have hl := ViewSet.chunks_flatten_length views
  have hh : ViewSet.Holds m (q + 88) (ViewSet.chunks views).flatten := by
    unfold ViewSet.Holds
    rw [Nat.add_assoc, Mem.load_add, List.append_assoc] at hm
    have h1 := (List.append_inj hm (by rw [Mem.load_length, headBytes_length])).2
    rw [Mem.load_add] at h1
    rw [hl]
    exact (List.append_inj h1 (by rw [Mem.load_length, hl])).1
  rw [if_neg (by simp only [headSize]; omega)]
  simp only [hm]
  rw [List.append_assoc, headOf_bytes hd, ← List.append_assoc]
  have e1 : ((headBytes d views.bytes ++ (ViewSet.chunks views).flatten ++ b).drop 8).take 8 = leBytes 8 views.bytes :=
    cut (a := leBytes 8 d.node) (by unfold headBytes; simp only [List.append_assoc]; rfl) (leBytes_length _ _) (leBytes_length _ _)
  rw [e1, ofLe_leBytes 8 _ (by omega)]
  simp only [Option.bind_eq_bind, Option.bind_some]
  rw [if_neg (by simp only [headSize]; omega)]
  rw [show headSize = 88 from rfl, views.interpret_holds hv (Nat.le_refl _) (.inr he) hh]
  simp only [Option.bind_some]
  rw [show 88 + views.bytes + 40 * rs.length - 88 - views.bytes = 40 * rs.length by omega, outCount_eq hrs,
    drop_app (by rw [List.length_append, headBytes_length, hl])]
  have := henc.read []
  rw [List.append_nil] at this
  rw [show outSize = 40 from rfl, this]
  rfl

theorem outLoop_good {d : Head} (hd : FitsHead d) {views : ViewSet} (hv : views.Representable) (he : ¬ views.EndsEmpty) (hb : views.bytes < 2 ^ 64)
    (me a p N : Nat) :
    ∀ (runs : List (Nat × List OutRec)) (_ : ∀ r ∈ runs, 40 * r.2.length < 2 ^ 31 ∧ r.2.length ≤ N) (begin : Nat) (m : Mem)
      (_ : m.load p (88 + views.bytes) = headBytes d views.bytes ++ (ViewSet.chunks views).flatten)
      (_ : Enc 40 ((runs.flatMap Prod.snd).map OutRec.r) (m.load (a + 40 * begin) (40 * (runs.flatMap Prod.snd).length)))
      (_ : a + 40 * (begin + (runs.flatMap Prod.snd).length) ≤ p ∨ p + (88 + views.bytes + N * 40) ≤ a),
      List.Forall₂ (OutGood d views me) runs (outLoop me (88 + views.bytes) a p (runs.map fun r => (r.1, r.2.length)) begin m).1 ∧
      SameBut p (88 + views.bytes + N * 40) m (outLoop me (88 + views.bytes) a p (runs.map fun r => (r.1, r.2.length)) begin m).2
  | [], _, begin, m, _, _, _ => ⟨.nil, SameBut.refl _ _ _⟩
  | (k, es) :: rest, hf, begin, m, hm, henc, hdis => by
    obtain ⟨hl, hlN⟩ := hf (k, es) (by simp)
    dsimp only at hl hlN
    simp only [List.flatMap_cons, List.map_append, List.length_append] at henc hdis
    rw [Nat.mul_add, Mem.load_add] at henc
    obtain ⟨b1, b2, hbb, henc1, henc2⟩ := henc.split
    have hb1 := henc1.length
    have hb2 := henc2.length
    rw [List.length_map] at hb1 hb2
    obtain ⟨hc1, hc2⟩ := List.append_inj hbb (by rw [Mem.load_length, hb1])
    rw [← hc1] at henc1
    rw [← hc2] at henc2
    simp only [List.map_cons]
    unfold outLoop
    have hrec : recsOf 40 es.length (m.load (a + 40 * begin) (40 * es.length)) = some (es.map OutRec.r) := by
      have := henc1.read []
      rwa [List.append_nil, List.length_map] at this
    by_cases hk : k = me
    · simp only [if_pos hk, show outSize = 40 from rfl]
      have ih := outLoop_good hd hv he hb me a p N rest (fun r hr => hf r (by simp [hr])) (begin + es.length) m hm
        (by rw [show a + 40 * (begin + es.length) = a + 40 * begin + 40 * es.length by omega]; exact henc2)
        (by rcases hdis with h | h
            · left; omega
            · right; exact h)
      refine ⟨.cons ⟨hk, ?_⟩ ih.1, ih.2⟩
      rw [hrec]; rfl
    · simp only [if_neg hk, show outSize = 40 from rfl]
      generalize hch : m.load (a + 40 * begin) (40 * es.length) = chunk at *
      have hcl : chunk.length = 40 * es.length := by rw [← hch, Mem.load_length]
      generalize hm' : m.store (p + (88 + views.bytes)) chunk = m'
      have s1 : SameBut (p + (88 + views.bytes)) (40 * es.length) m m' := by
        rw [← hm', ← hcl]; exact sameBut_store _ _ _
      have l1 : m'.load p (88 + views.bytes) = headBytes d views.bytes ++ (ViewSet.chunks views).flatten := by
        rw [s1.load (by left; omega), hm]
      have l2 : m'.load (p + (88 + views.bytes)) (40 * es.length) = chunk := by
        rw [← hm', ← hcl]; exact Mem.load_store_same _ _ _
      have ih := outLoop_good hd hv he hb me a p N rest (fun r hr => hf r (by simp [hr])) (begin + es.length) m' l1
        (by
          rw [show a + 40 * (begin + es.length) = a + 40 * begin + 40 * es.length by omega, s1.load]
          · exact henc2
          · rcases hdis with h | h
            · left; omega
            · right; omega)
        (by rcases hdis with h | h
            · left; omega
            · right; exact h)
      refine ⟨.cons ⟨rfl, hk, ?_⟩ ih.1, (s1.mono (by omega) (by omega)).trans ih.2⟩
      rw [Mem.load_add, l1, l2]
      intro m2 q hq
      have e1 : (headBytes d views.bytes ++ (ViewSet.chunks views).flatten ++ chunk).length = 88 + views.bytes + 40 * (es.map OutRec.r).length := by
        rw [List.length_append, List.length_append, headBytes_length, ViewSet.chunks_flatten_length, hcl, List.length_map]
      rw [e1] at hq ⊢
      exact outRead_bytes hd hv he hb (by rw [List.length_map]; exact hl) henc1 hq

end Dashmm.Route
