import Verif.Proofs.LiteEff
import Verif.Proofs.LiteMoves
import Verif.Proofs.LiteSpace
import Verif.Proofs.WriteRead
import Verif.Spec.LiteUpload
set_option autoImplicit false
/-! # Uploads to the lite store -/
namespace Blobd
namespace Lite
namespace Upload
open Spec

/-! ## Where a byte is -/

theorem ba_append {a l : List (Nat × Nat)} {k : Nat} : byteAddr (a ++ l) (RW.psum a + k) = byteAddr l k := by
  induction a with
  | nil => simp
  | cons p a ih =>
    obtain ⟨q, e⟩ := p
    simp only [List.cons_append, byteAddr, RW.psum_cons]
    rw [if_neg (by omega), show 2 ^ e + RW.psum a + k - 2 ^ e = RW.psum a + k by omega, ih]

theorem ba_in {l : List (Nat × Nat)} {k y : Nat} (h : byteAddr l k = some y) : ∃ p ∈ l, p.1 ≤ y ∧ y < p.1 + 2 ^ p.2 := by
  induction l generalizing k with
  | nil => cases h
  | cons p l ih =>
    obtain ⟨q, e⟩ := p
    simp only [byteAddr] at h
    split at h
    · cases h
      exact ⟨(q, e), by simp, by simp only; omega, by simp only; omega⟩
    · obtain ⟨p, h1, h2⟩ := ih h
      exact ⟨p, by simp [h1], h2⟩

theorem ba_some {l : List (Nat × Nat)} {k : Nat} (h : k < RW.psum l) : ∃ y, byteAddr l k = some y := by
  induction l generalizing k with
  | nil => simp at h
  | cons p l ih =>
    obtain ⟨q, e⟩ := p
    simp only [byteAddr]
    split
    · exact ⟨_, rfl⟩
    · simp only [RW.psum_cons] at h
      exact ih (by omega)

theorem ba_inj {l : List (Nat × Nat)} (hp : l.Pairwise PageDisj) {k k' y : Nat} (h : byteAddr l k = some y) (h' : byteAddr l k' = some y) : k = k' := by
  induction l generalizing k k' with
  | nil => cases h
  | cons p l ih =>
    obtain ⟨q, e⟩ := p
    obtain ⟨h1, h2⟩ := List.pairwise_cons.1 hp
    have no : ∀ {k}, byteAddr l k = some y → q ≤ y → y < q + 2 ^ e → False := by
      intro k hk a b
      obtain ⟨p, p1, p2, p3⟩ := ba_in hk
      have := h1 p p1
      unfold PageDisj at this
      simp only at this
      omega
    simp only [byteAddr] at h h'
    by_cases c1 : k < 2 ^ e
    · rw [if_pos c1] at h
      cases h
      by_cases c2 : k' < 2 ^ e
      · rw [if_pos c2] at h'
        simp only [Option.some.injEq] at h'
        omega
      · rw [if_neg c2] at h'
        exact (no h' (by omega) (by omega)).elim
    · rw [if_neg c1] at h
      by_cases c2 : k' < 2 ^ e
      · rw [if_pos c2] at h'
        cases h'
        exact (no h (by omega) (by omega)).elim
      · rw [if_neg c2] at h'
        have := ih h2 h h'
        omega

theorem ba_get (m : Mem) (l : List (Nat × Nat)) (k : Nat) : (RW.allBytes m l)[k]? = (byteAddr l k).map m := by
  induction l generalizing k with
  | nil => simp [RW.allBytes, byteAddr]
  | cons p l ih =>
    obtain ⟨q, e⟩ := p
    simp only [byteAddr]
    have he : RW.allBytes m ((q, e) :: l) = m.read q (2 ^ e) ++ RW.allBytes m l := by simp [RW.allBytes]
    rw [he]
    split
    · rename_i hk
      rw [List.getElem?_append_left (by rw [Mem.length_read]; exact hk)]
      simp [Mem.read, hk]
    · rename_i hk
      rw [List.getElem?_append_right (by rw [Mem.length_read]; omega), Mem.length_read]
      exact ih _

theorem fit_addr {ts pp : List (Nat × Nat)} (h : RW.Fit ts pp) (b : List (Nat × Nat)) : ∀ {n amt page : Nat}, ts[n]? = some (amt, page) → ∀ j, j < amt →
    byteAddr (pp ++ b) (RW.amtSum (ts.take n) + j) = some (page + j) := by
  induction h with
  | nil => intro n amt page h; simp at h
  | @last amt' off' e h0 hle =>
    intro n amt page h j hj
    cases n with
    | zero =>
      simp only [List.getElem?_cons_zero, Option.some.injEq, Prod.mk.injEq] at h
      obtain ⟨rfl, rfl⟩ := h
      simp only [List.take_zero, RW.amtSum_nil, List.cons_append, byteAddr]
      rw [if_pos (by omega), Nat.zero_add]
    | succ n => simp at h
  | @cons off' e ts pp hf ih =>
    intro n amt page h j hj
    cases n with
    | zero =>
      simp only [List.getElem?_cons_zero, Option.some.injEq, Prod.mk.injEq] at h
      obtain ⟨rfl, rfl⟩ := h
      simp only [List.take_zero, RW.amtSum_nil, List.cons_append, byteAddr]
      rw [if_pos (by omega), Nat.zero_add]
    | succ n =>
      simp only [List.getElem?_cons_succ] at h
      simp only [List.take_succ_cons, RW.amtSum_cons, List.cons_append, byteAddr]
      rw [if_neg (by omega), show 2 ^ e + RW.amtSum (List.take n ts) + j - 2 ^ e = RW.amtSum (List.take n ts) + j by omega]
      exact ih h j hj

/-! ## Ids that are no longer being created -/

/-- this id was handed out, and its `create_object` call is past the creation -/
def Settled (s : LSt) (id : Nat) : Prop := id ∈ s.ids ∧ ∀ i t, s.thr i = some t → t.pc.news ≠ some id

theorem settled_act {c : LCfg} {s s' : LSt} {a : Act} (ha : act c s a = some s') {id : Nat} (h : Settled s id) : Settled s' id := by
  obtain ⟨h1, h2⟩ := h
  cases act_eff ha with
  | silent e1 e2 e3 => exact ⟨by rw [e3]; exact h1, by rw [e1]; exact h2⟩
  | large b e1 e2 _ e3 => exact ⟨by rw [e3]; exact h1, by rw [e1]; exact h2⟩
  | start t e1 e2 e3 e4 e5 =>
    rcases e3 with ⟨e3, e6⟩ | ⟨id', f1, f2, f3⟩
    · refine ⟨by rw [e3]; exact h1, ?_⟩
      rw [e1]
      intro i t' ht
      simp only [upd] at ht
      split at ht
      · cases ht; rw [e6]; simp
      · exact h2 i t' ht
    · refine ⟨by rw [f2]; exact List.mem_cons_of_mem _ h1, ?_⟩
      rw [e1]
      intro i t' ht
      simp only [upd] at ht
      split at ht
      · cases ht; rw [f3]; simp only [ne_eq, Option.some.injEq]; rintro rfl; exact f1 h1
      · exact h2 i t' ht
  | move i t pc' e1 e2 e3 e4 e5 e6 e7 e8 =>
    refine ⟨by rw [e5]; exact h1, ?_⟩
    rw [e3]
    intro j t' ht
    simp only [upd] at ht
    split at ht
    · cases ht
      rcases e6 with e6 | e6
      · rw [e6]; simp
      · rw [e6]; exact h2 i t e2
    · exact h2 j t' ht
  | answer i t b e1 e2 e3 e4 e5 e6 e7 =>
    refine ⟨by rw [e6]; exact h1, ?_⟩
    rw [e3]
    intro j t' ht
    simp only [upd] at ht
    split at ht
    · cases ht
    · exact h2 j t' ht

theorem settled_step {c : LCfg} {s s' : LSt} (hs : Step c s s') {id : Nat} (h : Settled s id) : Settled s' id := by
  cases hs with
  | act a ha => exact settled_act ha h
  | journal hj hh => exact h

/-- the id of a listed object -/
theorem settled_of {c : LCfg} {s : LSt} {base : Mem} {v : V} {leak : List (Nat × Nat)} (h : LInv c s base v leak) {r : Rec}
    (hr : (Own.linked, r) ∈ v.recs) : Settled s r.o.id := by
  refine ⟨(h.good.fit _ hr).2, ?_⟩
  intro i t ht hn
  have key : ∀ o off, (Own.fresh i, (⟨off, o⟩ : Rec)) ∈ v.recs → some o.id = some r.o.id → False := by
    intro o off hm e
    have := List.inj_on_of_nodup_map h.good.idn hm hr (by simpa using e)
    cases this
  have hp := (h.thr i t ht).2
  obtain ⟨st, pc⟩ := t
  cases pc with
  | createWrite o off => exact key o off hp hn
  | createLink o off => exact key o off hp.1 hn
  | _ => cases hn

theorem says_created {req : Req} {key k : List Byte} {id n : Nat} {r : Resp} : ¬ Says (.lookup req key) r [.created k id n] := by
  intro h
  unfold Says at h
  cases req <;> cases r <;> simp at h

/-- an object becomes listed only through its own `create_object` call -/
theorem created_settled {c : LCfg} {s s' : LSt} (hai : AI s) (hai' : AI s') (hs : Step c s s') {i : Nat} {k : List Byte} {id n : Nat}
    (hl : s'.lin = s.lin ++ [(i, .created k id n)]) : ¬ Settled s id := by
  intro hset
  cases step_did hs with
  | silent h1 h2 h3 => rw [h2] at hl; exact absurd (congrArg List.length hl) (by simp)
  | start t h1 h2 h3 => rw [h2] at hl; exact absurd (congrArg List.length hl) (by simp)
  | move j t pc' evs h1 h2 h3 h4 =>
    rw [h3] at hl
    have hl := List.append_cancel_left hl
    obtain ⟨st, pc⟩ := t
    have ht' : s'.thr j = some ⟨st, pc'⟩ := by rw [h2]; simp [upd]
    have a1 := (hai.thr j _ h1)
    have a2 := (hai'.thr j _ ht').2.2
    generalize hpc : Thread.pc ⟨st, pc⟩ = pc0 at h4 a1
    simp only at hpc
    subst hpc
    cases h4 with
    | link g1 g2 =>
      simp only [List.map_cons, List.map_nil, List.cons.injEq, Prod.mk.injEq, Ev.created.injEq, and_true] at hl
      exact hset.2 j _ h1 (by simp [PC.news, hl.2.2.1])
    | change g1 g2 g3 g4 =>
      simp only [List.map_cons, List.map_nil, List.cons.injEq, Prod.mk.injEq, and_true] at hl
      obtain ⟨_, rfl⟩ := hl
      obtain ⟨a3, a4, a5⟩ := a1
      simp only [PcSays] at a2 a5
      rw [h3, own_append _ _ _ _ a4, own_events, a5.1, a5.2, List.nil_append] at a2
      exact says_created a2
    | dies g1 g2 =>
      cases evs with
      | nil => simp at hl
      | cons e evs =>
        simp only [List.map_cons, List.cons.injEq, Prod.mk.injEq] at hl
        exact g2 e (by simp) (by rw [hl.1.2]; trivial)
    | _ => simp at hl
  | answer j t evs b h1 h2 h3 h4 h5 h6 h7 =>
    rw [h3] at hl
    have hl := List.append_cancel_left hl
    cases evs with
    | nil => simp at hl
    | cons e evs =>
      simp only [List.map_cons, List.cons.injEq, Prod.mk.injEq] at hl
      exact h4 e (by simp) (by rw [hl.1.2]; trivial)

/-- whatever is listed after a step and is not new was listed before -/
theorem listed_back {c : LCfg} (hc : c.Ok) {s s' : LSt} (hai : AI s) (hai' : AI s') (hs : Step c s s') {base base' : Mem} {v v' : V}
    {leak leak' : List (Nat × Nat)} (h : LInv c s base v leak) (h' : LInv c s' base' v' leak') (hr : ChRel c v v' s.lin s'.lin) {r : Rec}
    (hm : (Own.linked, r) ∈ v'.recs) (hset : Settled s r.o.id) : (Own.linked, r) ∈ v.recs := by
  have hm := (h'.good.lnk r).1 hm
  rw [h.good.lnk]
  rcases hr with ⟨_, e⟩ | ⟨i, e, hl, he⟩
  · rw [← e]; exact hm
  · have cut : ∀ k pre x post, v.ch (c.bkt k) = pre ++ x :: post → v'.ch = upd v.ch (c.bkt k) (pre ++ post) → r ∈ v.ch (c.bkt r.o.key) := by
      intro k pre x post e1 e2
      rw [e2] at hm
      simp only [upd] at hm
      split at hm
      · rename_i hb
        rw [hb, e1]
        simp only [List.mem_append, List.mem_cons] at hm ⊢
        tauto
      · exact hm
    cases e with
    | created k id n =>
      obtain ⟨x, x1, x2, x3, x4⟩ := he
      rw [x4] at hm
      simp only [upd] at hm
      split at hm
      · rename_i hb
        rcases List.mem_cons.1 hm with rfl | hm
        · exact absurd hset (by rw [x1]; exact created_settled hai hai' hs hl)
        · rw [hb]; exact hm
      · exact hm
    | removed k w id => obtain ⟨pre, x, post, e1, _, _, e2⟩ := he; exact cut _ _ _ _ e1 e2
    | committed k id =>
      rcases he with e | ⟨pre, x, post, e1, _, _, _, e2⟩
      · rw [← e]; exact hm
      · exact cut _ _ _ _ e1 e2
    | _ => have he : v'.ch = v.ch := he; rw [← he]; exact hm

/-! ## Invariant -/

structure PutOk (c : LCfg) (w : World) (v : V) (i : Nat) (p : Put) (st : Begun) (key : List Byte) (targets : List (Nat × Nat)) (r : Rec) : Prop where
  at_ : w.s.thr i = some ⟨st, .writing key p.id targets⟩
  call : st.call = .lookup (.write p.id p.off p.len) key
  sent : (p.id, p.off, p.body) ∈ w.sent
  lrec : (Own.linked, r) ∈ v.recs
  id : r.o.id = p.id
  tok : ∀ n amt page, targets[n]? = some (amt, page) → ∀ j, j < amt →
    byteAddr (dataPgs c.pages r.o) (p.off + RW.amtSum (targets.take n) + j) = some (page + j)
  len : p.off + p.len = min (p.off + 2 ^ c.pages.lpage) r.o.size
  data : (received p.body).drop p.written = p.buf ++ received p.stream
  wr : p.written = RW.amtSum (targets.take p.idx)
  busy : ∀ d, p.busy = some d → ∃ amt page, targets[p.idx]? = some (amt, page) ∧ d = p.buf.take amt ∧ amt ≤ p.buf.length
  good : ∀ pos y, p.off ≤ pos → pos < p.off + p.written → byteAddr (dataPgs c.pages r.o) pos = some y → Uploaded w p.id pos (w.s.j.dev y)

structure UInv (c : LCfg) (w : World) (v : V) : Prop where
  put : ∀ i p, w.puts i = some p → ∃ st key targets r, PutOk c w v i p st key targets r
  wr : ∀ i st key id targets, w.s.thr i = some ⟨st, .writing key id targets⟩ → w.puts i ≠ none
  ack : ∀ id off, PartAcked w.s id off → Settled w.s id ∧ ∀ r, (Own.linked, r) ∈ v.recs → r.o.id = id → ∀ pos y, off ≤ pos →
    pos < off + 2 ^ c.pages.lpage → pos < r.o.size → byteAddr (dataPgs c.pages r.o) pos = some y → Uploaded w id pos (w.s.j.dev y)
  res : ∀ i t r, w.s.thr i = some t → t.pc.res ≠ some (.written r)

theorem Uploaded.mono {w w' : World} (h : ∀ x ∈ w.sent, x ∈ w'.sent) {id pos : Nat} {b : Byte} (hu : Uploaded w id pos b) : Uploaded w' id pos b := by
  obtain ⟨off, body, h1, h2⟩ := hu
  exact ⟨off, body, h _ h1, h2⟩

/-- what a step leaves for the invariant of everything it does not touch -/
structure Fr (c : LCfg) (w w' : World) (v v' : V) : Prop where
  sent : ∀ x ∈ w.sent, x ∈ w'.sent
  back : ∀ r, (Own.linked, r) ∈ v'.recs → Settled w.s r.o.id → (Own.linked, r) ∈ v.recs
  settled : ∀ id, Settled w.s id → Settled w'.s id
  bytes : ∀ r, (Own.linked, r) ∈ v.recs → ∀ pos y, byteAddr (dataPgs c.pages r.o) pos = some y →
    w'.s.j.dev y = w.s.j.dev y ∨ Uploaded w' r.o.id pos (w'.s.j.dev y)

section
variable {c : LCfg} (hc : c.Ok) {w w' : World} {base base' : Mem} {v v' : V} {leak leak' : List (Nat × Nat)}
  (h : LInv c w.s base v leak) (h' : LInv c w'.s base' v' leak')
include hc h h'

omit h in
theorem rec_same (hf : Fr c w w' v v') {i : Nat} {st : Begun} {key : List Byte} {id : Nat} {targets : List (Nat × Nat)}
    (ht : w'.s.thr i = some ⟨st, .writing key id targets⟩) {r : Rec} (hr : (Own.linked, r) ∈ v.recs) (hid : r.o.id = id)
    (h0 : LInv c w.s base v leak) : (Own.linked, r) ∈ v'.recs := by
  obtain ⟨r', q1, ⟨_, q3⟩, _⟩ := (h'.thr i _ ht).2
  have hl := linked_of hc h' q1
  have hb := hf.back r' hl (by rw [q3, ← hid]; exact settled_of h0 hr)
  have := List.inj_on_of_nodup_map h0.good.idn hb hr (by simp only; rw [q3, hid])
  cases this
  exact hl

theorem PutOk.keep (hf : Fr c w w' v v') {i : Nat} {p : Put} {st : Begun} {key : List Byte} {targets : List (Nat × Nat)} {r : Rec}
    (hp : PutOk c w v i p st key targets r) (ht : w'.s.thr i = w.s.thr i) : PutOk c w' v' i p st key targets r := by
  have ht' := ht.trans hp.at_
  refine ⟨ht', hp.call, hf.sent _ hp.sent, rec_same hc h' hf ht' hp.lrec hp.id h, hp.id, hp.tok, hp.len, hp.data, hp.wr, hp.busy, ?_⟩
  intro pos y h1 h2 h3
  rcases hf.bytes r hp.lrec pos y h3 with e | e
  · rw [e]; exact (hp.good pos y h1 h2 h3).mono hf.sent
  · rw [← hp.id]; exact e

omit hc h h' in
theorem ack_keep (hf : Fr c w w' v v') (hu : UInv c w v) {id off : Nat} (ha : PartAcked w.s id off) :
    Settled w'.s id ∧ ∀ r, (Own.linked, r) ∈ v'.recs → r.o.id = id → ∀ pos y, off ≤ pos →
    pos < off + 2 ^ c.pages.lpage → pos < r.o.size → byteAddr (dataPgs c.pages r.o) pos = some y → Uploaded w' id pos (w'.s.j.dev y) := by
  obtain ⟨h1, h2⟩ := hu.ack id off ha
  refine ⟨hf.settled _ h1, ?_⟩
  intro r hr hid pos y p1 p2 p3 p4
  have hb := hf.back r hr (by rw [hid]; exact h1)
  rcases hf.bytes r hb pos y p4 with e | e
  · rw [e]; exact (h2 r hb hid pos y p1 p2 p3 p4).mono hf.sent
  · rw [← hid]; exact e

omit hc h h' in
theorem res_step (hs : Step c w.s w'.s) (hu : ∀ i t r, w.s.thr i = some t → t.pc.res ≠ some (.written r)) :
    ∀ i t r, w'.s.thr i = some t → t.pc.res ≠ some (.written r) := by
  intro i t r ht hr
  generalize w'.s = s' at *
  cases hs with
  | act a ha =>
    cases act_eff ha with
    | silent e1 e2 e3 => rw [e1] at ht; exact hu i t r ht hr
    | large b e1 e2 _ e3 => rw [e1] at ht; exact hu i t r ht hr
    | start t0 e1 e2 e3 e4 e5 =>
      rw [e1] at ht
      simp only [upd] at ht
      split at ht
      · cases ht; rw [e4] at hr; cases hr
      · exact hu i t r ht hr
    | move j t0 pc' e1 e2 e3 e4 e5 e6 e7 e8 =>
      rw [e3] at ht
      simp only [upd] at ht
      split at ht
      · cases ht; exact hu j t0 r e2 (e7 r hr)
      · exact hu i t r ht hr
    | answer j t0 b e1 e2 e3 e4 e5 e6 e7 =>
      rw [e3] at ht
      simp only [upd] at ht
      split at ht
      · cases ht
      · exact hu i t r ht hr
  | journal hj hh => exact hu i t r ht hr

omit hc h h' in
/-- new answers -/
theorem acked_step {s s' : LSt} (hs : Step c s s') (hu : ∀ i t r, s.thr i = some t → t.pc.res ≠ some (.written r)) {id off : Nat} (ha : PartAcked s' id off) :
    PartAcked s id off ∨ ∃ i st pc key len, s.thr i = some ⟨st, pc⟩ ∧ st.call = .lookup (.write id off len) key ∧
      act c s (.writeEnd i (.ok ())) = some s' := by
  obtain ⟨b, hb, key, len, h1, h2⟩ := ha
  cases hs with
  | act a ha =>
    have new : ∀ x, s'.acks = s.acks ++ [x] → (b = x → PartAcked s id off ∨ ∃ i st pc key len, s.thr i = some ⟨st, pc⟩ ∧
        st.call = .lookup (.write id off len) key ∧ act c s (.writeEnd i (.ok ())) = some s') →
        PartAcked s id off ∨ ∃ i st pc key len, s.thr i = some ⟨st, pc⟩ ∧ st.call = .lookup (.write id off len) key ∧
          act c s (.writeEnd i (.ok ())) = some s' := by
      intro x e hx
      rw [e, List.mem_append, List.mem_singleton] at hb
      rcases hb with hb | hb
      · exact .inl ⟨b, hb, key, len, h1, h2⟩
      · exact hx hb
    cases act_eff ha with
    | silent e1 e2 e3 => rw [e2] at hb; exact .inl ⟨b, hb, key, len, h1, h2⟩
    | large x e1 e2 e4 e3 => exact new x e2 (fun e => by rw [e, e4] at h2; cases h2)
    | start t0 e1 e2 e3 e4 e5 => rw [e2] at hb; exact .inl ⟨b, hb, key, len, h1, h2⟩
    | move j t0 pc' e1 e2 e3 e4 e5 e6 e7 e8 => rw [e4] at hb; exact .inl ⟨b, hb, key, len, h1, h2⟩
    | answer j t0 x e1 e2 e3 e4 e5 e6 e7 e8 =>
      refine new x e4 ?_
      rintro rfl
      rcases e7 h2 with e7 | e7
      · subst e7
        obtain ⟨st, pc⟩ := t0
        right
        simp only at e5
        exact ⟨j, st, pc, key, len, e2, by rw [← e5]; exact h1, ha⟩
      · exact absurd (e7.trans (by rw [h2])) (hu j t0 _ e2)
  | journal hj hh => exact .inl ⟨b, hb, key, len, h1, h2⟩

end

/-! ## Steps -/

theorem Fr.refl {c : LCfg} {w w' : World} {v : V} (hs : w'.s = w.s) (he : ∀ x ∈ w.sent, x ∈ w'.sent) : Fr c w w' v v :=
  ⟨he, fun r h _ => h, fun id h => by rw [hs]; exact h, fun r _ pos y _ => .inl (by rw [hs])⟩

theorem advance {c : LCfg} (hc : c.Ok) {w w' : World} (hR : Reach c w.s) (hs : Step c w.s w'.s) (hf : w'.s.faults = []) {base : Mem} {v : V}
    {leak : List (Nat × Nat)} (h : LInv c w.s base v leak) (he : ∀ x ∈ w.sent, x ∈ w'.sent)
    (hby : ∀ r, (Own.linked, r) ∈ v.recs → ∀ pos y, byteAddr (dataPgs c.pages r.o) pos = some y →
      w'.s.j.dev y = w.s.j.dev y ∨ Uploaded w' r.o.id pos (w'.s.j.dev y)) :
    ∃ base' v' leak', LInv c w'.s base' v' leak' ∧ Fr c w w' v v' := by
  have a1 := reach_ai hR
  have a2 := reach_ai (hR.step hs)
  have key : ∃ base' v' leak', LInv c w'.s base' v' leak' ∧ ChRel c v v' w.s.lin w'.s.lin := by
    generalize w'.s = s' at *
    cases hs with
    | act a ha => exact step_act hc h ha hf
    | journal hj hh =>
      obtain ⟨b', v', h', e⟩ := step_journal hc h hj hh
      exact ⟨b', v', leak, h', .inl ⟨rfl, e⟩⟩
  obtain ⟨b', v', l', h', hrel⟩ := key
  exact ⟨b', v', l', h', he, fun r hr hset => listed_back hc a1 a2 hs h h' hrel hr hset, fun id => settled_step hs, hby⟩

section
variable {c : LCfg} (hc : c.Ok) {w : World} {base : Mem} {v : V} {leak : List (Nat × Nat)} (h : LInv c w.s base v leak)
include hc h

theorem dataByte {r : Rec} {pos y : Nat} (hb : byteAddr (dataPgs c.pages r.o) pos = some y) : FixedByte r y ∨ DataByte c r y :=
  .inr (ba_in hb)

theorem quiet_act {a : Act} {s' : LSt} (ha : act c w.s a = some s') (hd : ∀ i n k b, a ≠ .data i n k b) {r : Rec} (hr : (Own.linked, r) ∈ v.recs)
    {pos y : Nat} (hb : byteAddr (dataPgs c.pages r.o) pos = some y) : s'.j.dev y = w.s.j.dev y := by
  rcases act_data hc h ha hr (by simp) (dataByte hc h hb) with e | ⟨i, n, skip, bytes, _, _, _, _, e, _⟩
  · exact e
  · exact absurd e (hd _ _ _ _)

omit hc in
theorem pages_apart {r : Rec} (hr : (Own.linked, r) ∈ v.recs) : (dataPgs c.pages r.o).Pairwise PageDisj := by
  have h1 := (List.pairwise_append.1 h.heap.disj).1
  have h2 := (List.pairwise_flatMap.1 h1).1 _ hr
  unfold regs at h2
  exact (List.pairwise_append.1 h2).1

/-- a piece of a page that a `write_object` call writes -/
theorem piece_bytes {i : Nat} {p : Put} {st : Begun} {key : List Byte} {targets : List (Nat × Nat)} {r0 : Rec}
    (hp : PutOk c w v i p st key targets r0) {d : List Byte} (hd : p.busy = some d) (skip n : Nat) {w' : World}
    (he : ∀ x ∈ w.sent, x ∈ w'.sent)
    (ha : act c w.s (.data i p.idx skip ((d.drop skip).take n)) = some w'.s) {r : Rec} (hr : (Own.linked, r) ∈ v.recs) {pos y : Nat}
    (hb : byteAddr (dataPgs c.pages r.o) pos = some y) : w'.s.j.dev y = w.s.j.dev y ∨ Uploaded w' r.o.id pos (w'.s.j.dev y) := by
  rcases act_data hc h ha hr (by simp) (dataByte hc h hb) with e | ⟨i', n', skip', bytes, st', key', ts', t, e1, e2, e3, e4, e5, e6, e7, _⟩
  · exact .inl e
  · right
    cases e1
    rw [hp.at_] at e2
    simp only [Option.some.injEq, Thread.mk.injEq, PC.writing.injEq] at e2
    obtain ⟨_, _, hid, rfl⟩ := e2
    have hrr : (Own.linked, r0) = (Own.linked, r) := List.inj_on_of_nodup_map h.good.idn hp.lrec hr (by simp only; rw [hp.id, hid])
    cases hrr
    obtain ⟨amt, page, f1, f2, f3⟩ := hp.busy d hd
    rw [f1] at e3
    cases e3
    simp only at e4 e5 e6 e7
    obtain ⟨k, rfl⟩ : ∃ k, y = page + skip + k := ⟨y - (page + skip), by omega⟩
    have hk : k < ((d.drop skip).take n).length := by omega
    have hlen : d.length = amt := by rw [f2, List.length_take]; omega
    have hk2 : skip + k < d.length := by
      rw [List.length_take, List.length_drop] at hk
      omega
    have hpos := hp.tok _ _ _ f1 (skip + k) (by omega)
    rw [← Nat.add_assoc page] at hpos
    have hpe := ba_inj (pages_apart h hr) hb hpos
    have hv : ((d.drop skip).take n)[k]? = some d[skip + k] := by
      rw [List.getElem?_take, if_pos (by rw [List.length_take] at hk; omega), List.getElem?_drop, List.getElem?_eq_getElem hk2]
    have hdev : w'.s.j.dev (page + skip + k) = d[skip + k] := by
      rw [e5]
      have h1 := Mem.read_write_sub w.s.j.dev (page + skip) ((d.drop skip).take n) k 1 (by omega)
      simp only [Mem.read, List.range_one, List.map_cons, List.map_nil, Nat.add_zero] at h1
      have h2 : (((d.drop skip).take n).drop k).take 1 = [d[skip + k]] := by
        rw [List.drop_eq_getElem_cons hk]
        simp only [List.take_succ_cons, List.take_zero, List.cons.injEq, and_true]
        have := List.getElem?_eq_getElem hk
        rw [hv] at this
        exact (Option.some.inj this).symm
      rw [h2] at h1
      simpa using h1
    refine ⟨p.off, p.body, he _ (by rw [hp.id]; exact hp.sent), by omega, ?_⟩
    have h3 : (received p.body)[p.written + (skip + k)]? = some d[skip + k] := by
      rw [← List.getElem?_drop, hp.data, List.getElem?_append_left (by omega)]
      have : d[skip + k]? = some d[skip + k] := List.getElem?_eq_getElem hk2
      rw [← this, f2, List.getElem?_take, if_pos (by omega)]
    rw [hdev, ← h3, hpe, hp.wr]
    congr 1; omega

end

section
variable {c : LCfg}

theorem thr_keep {s s' : LSt} {a : Act} (ha : act c s a = some s') (hb : ∀ i t, s.thr i = some t → i < s.nextCall) {j : Nat} {t : Thread}
    (ht : s.thr j = some t) (hj : a.by ≠ some j) : s'.thr j = s.thr j := by
  cases act_eff ha with
  | silent e1 e2 e3 => rw [e1]
  | large b e1 e2 _ e3 => rw [e1]
  | start t0 e1 e2 e3 e4 e5 =>
    have := hb j t ht
    rw [e1]; simp only [upd]; rw [if_neg (by omega)]
  | move i t0 pc' e1 e2 e3 e4 e5 e6 e7 e8 =>
    rw [e3]; simp only [upd]; rw [if_neg (by rintro rfl; exact hj e1)]
  | answer i t0 b e1 e2 e3 e4 e5 e6 e7 =>
    rw [e3]; simp only [upd]; rw [if_neg (by rintro rfl; exact hj e1)]

theorem thr_other {s s' : LSt} {a : Act} (ha : act c s a = some s') (ho : Act.other a) (hb : ∀ i t, s.thr i = some t → i < s.nextCall) {j : Nat}
    {st : Begun} {key : List Byte} {id : Nat} {ts : List (Nat × Nat)} (ht : s.thr j = some ⟨st, .writing key id ts⟩) : s'.thr j = s.thr j := by
  by_cases hj : a.by = some j
  · cases act_eff ha with
    | silent e1 e2 e3 => rw [e1]
    | large b e1 e2 _ e3 => rw [e1]
    | start t0 e1 e2 e3 e4 e5 =>
      have := hb j _ ht
      rw [e1]; simp only [upd]; rw [if_neg (by omega)]
    | move i t0 pc' e1 e2 e3 e4 e5 e6 e7 e8 =>
      rw [hj] at e1
      cases e1
      rw [ht] at e2
      cases e2
      rcases e8 ⟨_, _, _, rfl⟩ with ⟨_, _, rfl⟩ | ⟨_, _, _, rfl⟩ <;> exact absurd ho (by simp [Act.other])
    | answer i t0 b e1 e2 e3 e4 e5 e6 e7 e8 =>
      rw [hj] at e1
      cases e1
      rw [ht] at e2
      cases e2
      obtain ⟨r, rfl⟩ := e8 ⟨_, _, _, rfl⟩
      exact absurd ho (by simp [Act.other])
  · exact thr_keep ha hb ht hj

/-- the pages a `write_object` call writes to, once its checks have passed -/
theorem start_targets (hc : c.Ok) {s s' : LSt} {base : Mem} {v : V} {leak : List (Nat × Nat)} (h : LInv c s base v leak) (hai : AI s) {i : Nat}
    {idle : Bool} (ha : act c s (.inode i idle) = some s') {st : Begun} {key : List Byte} {id off len : Nat} {targets : List (Nat × Nat)}
    (ht : s'.thr i = some ⟨st, .writing key id targets⟩) (hcall : st.call = .lookup (.write id off len) key) :
    ∃ r, (Own.linked, r) ∈ v.recs ∧ r.o.id = id ∧
      (∀ n amt page, targets[n]? = some (amt, page) → ∀ j, j < amt →
        byteAddr (dataPgs c.pages r.o) (off + RW.amtSum (targets.take n) + j) = some (page + j)) ∧
      off + len = min (off + 2 ^ c.pages.lpage) r.o.size := by
  simp only [act] at ha
  split at ha
  · rename_i st0 req key0 cur prev raw inc ex hth
    have hsay := (hai.thr i _ hth).2.2
    obtain ⟨vis, rest, q1, q2, q3, q4, q5⟩ := (h.thr i _ hth).2
    obtain ⟨r, rest', rfl, hcp⟩ := q4 raw rfl
    have hcur : cur = r.off := q2
    have hr : (Own.linked, r) ∈ v.recs := linked_of hc h (b := c.bkt key0) (by rw [q1]; simp)
    simp only [PcSays] at hsay
    simp only [Option.some.injEq] at ha
    subst ha
    have go : ∀ inc' ex', (setPc s i ⟨st0, .dead⟩ (.walk req key0 (rawNext s raw) (some cur) none inc' ex')).thr i ≠ some ⟨st, .writing key id targets⟩ := by
      intro inc' ex'; simp [setPc, upd]
    unfold onInode at ht
    simp only at ht
    split at ht
    · split at ht
      · simp [setPc, upd] at ht
      · have fnd : ∀ q f, (∀ wid o l, q ≠ .write wid o l) → (∀ id, q ≠ .commit id) →
            (onFound c s i ⟨st0, .dead⟩ q key0 f idle).thr i ≠ some ⟨st, .writing key id targets⟩ := by
          intro q f hq hq2
          cases q with
          | look want => simp [onFound, respond, upd]
          | write wid o l => exact absurd rfl (hq _ _ _)
          | delete want =>
            simp only [onFound]
            split
            · simp [setPc, upd]
            · simp [setPc, upd]
          | commit id => exact absurd rfl (hq2 _)
        cases req with
        | commit id' =>
          simp only at ht
          split at ht
          · exact absurd ht (go _ _)
          · split at ht <;> exact absurd ht (go _ _)
        | look want =>
          simp only at ht
          split at ht
          · exact absurd ht (fnd _ _ (by simp) (by simp))
          · exact absurd ht (go _ _)
        | delete want =>
          simp only at ht
          split at ht
          · exact absurd ht (fnd _ _ (by simp) (by simp))
          · exact absurd ht (go _ _)
        | write wid o l =>
          simp only at ht
          split at ht
          · rename_i hm
            simp only [onFound] at ht
            split at ht
            · simp [respond, upd] at ht
            · rename_i hwc
              split at ht
              · simp [setPc, upd] at ht
              · rename_i lay hlay
                simp only [setPc, upd, if_true, Option.some.injEq, Thread.mk.injEq, PC.writing.injEq] at ht
                obtain ⟨rfl, rfl, rfl, rfl⟩ := ht
                rw [hsay.2] at hcall
                simp only [Call.lookup.injEq, Req.write.injEq, and_true] at hcall
                obtain ⟨_, rfl, rfl⟩ := hcall
                rw [hcp.size] at hwc hlay
                refine ⟨r, hr, ?_, ?_, ?_⟩
                · have := hm.2.resolve_left (by simp [Req.expects])
                  rw [hcp.id] at this
                  simpa [Req.expects] using this.symm
                · intro n amt page hn j hj
                  have hat := dev_at hc h.good (h.geo hc) h.jinv h.L h.U hr
                  have hfit := (h.good.fit _ hr).1
                  obtain ⟨e1, e2⟩ := hat.rwPages hc.rw hfit hlay
                  obtain ⟨es, hi⟩ := RW.layInfo_of hc.rw hlay
                  rw [← e2] at hi hwc
                  rw [hcur] at hn
                  obtain ⟨t1, t2, a, b, t3, t4, _⟩ := hi.targets hc.rw o l hwc
                  have := fit_addr t1 b hn j hj
                  rw [← e1, t3, List.append_assoc, ← t4, Nat.add_assoc, ba_append, hcur, t4]
                  exact this
                · unfold RW.writeCheck at hwc
                  split at hwc
                  · cases hwc
                  · split at hwc
                    · cases hwc
                    · split at hwc
                      · cases hwc
                      · split at hwc
                        · cases hwc
                        · rename_i hx; exact Decidable.not_not.1 hx
          · exact absurd ht (go _ _)
    · exact absurd ht (go _ _)
  · cases ha

end

theorem wstep_step {c : LCfg} {w w' : World} (h : WStep c w w') : Step c w.s w'.s ∨ w'.s = w.s := by
  cases h with
  | start body ha _ _ => exact .inl (.act _ ha)
  | chunk => exact .inr rfl
  | begin_ => exact .inr rfl
  | piece _ _ _ _ ha => exact .inl (.act _ ha)
  | written _ _ ha => exact .inl (.act _ ha)
  | ack _ _ _ _ _ ha => exact .inl (.act _ ha)
  | fail _ _ _ ha => exact .inl (.act _ ha)
  | drop _ ha => exact .inl (.act _ ha)
  | other _ ha _ => exact .inl (.act _ ha)
  | journal hj hh => exact .inl (.journal hj hh)

theorem runs_reach {c : LCfg} {w : World} (h : Runs c w) : Reach c w.s := by
  induction h with
  | fresh h => exact .fresh h
  | step _ hs ih =>
    rcases wstep_step hs with e | e
    · exact ih.step e
    · rw [e]; exact ih

theorem step_faults {c : LCfg} {s s' : LSt} (h : Step c s s') (hf : s'.faults = []) : s.faults = [] := by
  cases h with
  | act a ha => exact act_faults ha hf
  | journal hj hh => exact hf

theorem wstep_faults {c : LCfg} {w w' : World} (h : WStep c w w') (hf : w'.s.faults = []) : w.s.faults = [] := by
  rcases wstep_step h with e | e
  · exact step_faults e hf
  · rw [← e]; exact hf

/-- everything but the calls that moved -/
theorem UInv.build {c : LCfg} (hc : c.Ok) {w w' : World} {base base' : Mem} {v v' : V} {leak leak' : List (Nat × Nat)}
    (h : LInv c w.s base v leak) (h' : LInv c w'.s base' v' leak') (hf : Fr c w w' v v') (hu : UInv c w v)
    (hres : ∀ i t r, w'.s.thr i = some t → t.pc.res ≠ some (.written r))
    (hput : ∀ i p, w'.puts i = some p → (w.puts i = some p ∧ w'.s.thr i = w.s.thr i) ∨ ∃ st key targets r, PutOk c w' v' i p st key targets r)
    (hwr : ∀ i st key id targets, w'.s.thr i = some ⟨st, .writing key id targets⟩ → w'.puts i ≠ none)
    (hack : ∀ id off, PartAcked w'.s id off → PartAcked w.s id off ∨ (Settled w'.s id ∧ ∀ r, (Own.linked, r) ∈ v'.recs → r.o.id = id →
      ∀ pos y, off ≤ pos → pos < off + 2 ^ c.pages.lpage → pos < r.o.size → byteAddr (dataPgs c.pages r.o) pos = some y → Uploaded w' id pos (w'.s.j.dev y))) :
    UInv c w' v' := by
  refine ⟨?_, hwr, ?_, hres⟩
  · intro i p hp
    rcases hput i p hp with ⟨h1, h2⟩ | h1
    · obtain ⟨st, key, targets, r, ho⟩ := hu.put i p h1
      exact ⟨st, key, targets, r, ho.keep hc h h' hf h2⟩
    · exact h1
  · intro id off ha
    rcases hack id off ha with h1 | h1
    · exact ack_keep hf hu h1
    · exact h1

theorem received_ok (c' : List Byte) (rest : List (Except Unit (List Byte))) : received (.ok c' :: rest) = c' ++ received rest := rfl

theorem noack_same {c : LCfg} {w w' : World} {v' : V} (h : w'.s = w.s) : ∀ id off, PartAcked w'.s id off → PartAcked w.s id off ∨
    (Settled w'.s id ∧ ∀ r, (Own.linked, r) ∈ v'.recs → r.o.id = id →
      ∀ pos y, off ≤ pos → pos < off + 2 ^ c.pages.lpage → pos < r.o.size → byteAddr (dataPgs c.pages r.o) pos = some y → Uploaded w' id pos (w'.s.j.dev y)) :=
  fun id off ha => .inl (by rw [← h]; exact ha)

theorem upd_some {i j : Nat} {f : Nat → Option Put} {x : Option Put} {p : Put} (h : upd f i x j = some p) : (j = i ∧ x = some p) ∨ (j ≠ i ∧ f j = some p) := by
  simp only [upd] at h
  split at h
  · exact .inl ⟨by assumption, h⟩
  · exact .inr ⟨by assumption, h⟩

theorem runs_inv {c : LCfg} (hc : c.Ok) {w : World} (h : Runs c w) (hf : w.s.faults = []) :
    ∃ base v leak, LInv c w.s base v leak ∧ UInv c w v := by
  induction h with
  | @fresh dev s h =>
    obtain ⟨base, v, leak, hi⟩ := reach_inv hc (Reach.fresh h) hf
    refine ⟨base, v, leak, hi, ?_⟩
    unfold Lite.fresh at h
    split at h
    · cases h
      refine ⟨(fun i p h => by cases h), (fun i st key id ts h => by cases h), ?_, (fun i t r h => by cases h)⟩
      rintro id off ⟨a, ha, _⟩
      cases ha
    · cases h
  | @step w w' hw hs ih =>
    have hf0 := wstep_faults hs hf
    have hR := runs_reach hw
    obtain ⟨base, v, leak, hi, hu⟩ := ih hf0
    have hb : ∀ i t, w.s.thr i = some t → i < w.s.nextCall := fun i t ht => (hi.thr i t ht).1
    have lift : ∀ {w' : World}, (∃ base' v' leak', LInv c w'.s base' v' leak' ∧ Fr c w w' v v') →
        (∀ base' v' leak', LInv c w'.s base' v' leak' → Fr c w w' v v' → UInv c w' v') →
        ∃ base v leak, LInv c w'.s base v leak ∧ UInv c w' v := by
      rintro w' ⟨b, v', l, h1, h2⟩ h3
      exact ⟨b, v', l, h1, h3 b v' l h1 h2⟩
    cases hs with
    | @start s' i idle st key id off len targets body ha ht hcall =>
      have hst : Step c w.s s' := .act _ ha
      refine lift (advance hc hR hst hf hi (fun x hx => List.mem_cons_of_mem _ hx) (fun r hr pos y hb => .inl ?_)) ?_
      · exact quiet_act hc hi ha (by simp) hr hb
      · intro base' v' leak' h' hfr
        refine hu.build hc hi h' hfr (res_step (c := c) (w := w) (w' := ⟨s', upd w.puts i (some ⟨id, off, len, body, body, [], 0, 0, none⟩), (id, off, body) :: w.sent⟩) hst hu.res) ?_ ?_ ?_
        · intro j p hp
          rcases upd_some hp with ⟨rfl, e⟩ | ⟨hne, e⟩
          · right
            cases e
            obtain ⟨r, r1, r2, r3, r4⟩ := start_targets hc hi (reach_ai hR) ha ht hcall
            refine ⟨st, key, targets, r, ht, hcall, List.mem_cons_self, rec_same hc h' hfr ht r1 r2 hi, r2, r3, r4, by simp, by simp, by simp, ?_⟩
            intro pos y p1 p2
            simp only at p1 p2
            omega
          · left
            obtain ⟨_, _, _, _, ho⟩ := hu.put j p e
            exact ⟨e, thr_keep ha hb ho.at_ (by simp [Act.by]; exact fun x => hne x.symm)⟩
        · intro j st' key' id' ts' hj
          simp only [upd]
          split
          · simp
          · rename_i hne
            have hne : j ≠ i := hne
            cases hj0 : w.s.thr j with
            | none =>
              exfalso
              have hj : s'.thr j = _ := hj
              cases act_eff ha with
              | silent e1 e2 e3 => rw [e1, hj0] at hj; cases hj
              | large b e1 e2 _ e3 => rw [e1, hj0] at hj; cases hj
              | start t0 e1 e2 e3 e4 e5 =>
                rw [e1] at hj
                simp only [upd] at hj
                split at hj
                · cases hj; exact e5 _ _ _ rfl
                · rw [hj0] at hj; cases hj
              | move k t0 pc' e1 e2 e3 e4 e5 e6 e7 e8 =>
                cases e1
                rw [e3] at hj
                simp only [upd, if_neg hne] at hj
                rw [hj0] at hj; cases hj
              | answer k t0 b e1 e2 e3 e4 e5 e6 e7 =>
                cases e1
                rw [e3] at hj
                simp only [upd, if_neg hne] at hj
                rw [hj0] at hj; cases hj
            | some t0 =>
              have := thr_keep ha hb hj0 (by simp [Act.by]; exact fun x => hne x.symm)
              exact hu.wr j st' key' id' ts' (this.symm.trans hj)
        · intro id' off' hac
          rcases acked_step hst hu.res hac with e | ⟨k, st', pc', key', len', e1, e2, e3⟩
          · exact .inl e
          · exfalso
            have e3 : act c w.s (.writeEnd k (.ok ())) = some s' := e3
            simp only [act] at e3
            split at e3
            · rename_i hk
              cases e3
              by_cases hik : i = k
              · subst hik
                simp [respond, upd] at ht
              · simp only [respond, upd, if_neg hik] at ht
                simp only [act] at ha
                rw [ht] at ha
                cases ha
            · cases e3
    | @chunk i p c' rest hp hbz hst =>
      refine ⟨base, v, leak, hi, hu.build hc hi hi (.refl rfl (fun _ h => h)) hu.res ?_ ?_ (noack_same rfl)⟩
      · intro j q hq
        rcases upd_some hq with ⟨rfl, e⟩ | ⟨_, e⟩
        · right
          cases e
          obtain ⟨st, key, targets, r, ho⟩ := hu.put j p hp
          refine ⟨st, key, targets, r, ho.at_, ho.call, ho.sent, ho.lrec, ho.id, ho.tok, ho.len, ?_, ho.wr, ?_, ho.good⟩
          · simp only
            rw [ho.data, hst, received_ok, List.append_assoc]
          · intro d hd
            simp only at hd
            rw [hbz] at hd; cases hd
        · exact .inl ⟨e, rfl⟩
      · intro j st' key' id' ts' hj
        simp only [upd]
        split
        · simp
        · exact hu.wr j st' key' id' ts' hj
    | @begin_ i p st0 key0 id0 amt page targets0 hp hbz ht hn hle =>
      refine ⟨base, v, leak, hi, hu.build hc hi hi (.refl rfl (fun _ h => h)) hu.res ?_ ?_ (noack_same rfl)⟩
      · intro j q hq
        rcases upd_some hq with ⟨rfl, e⟩ | ⟨_, e⟩
        · right
          cases e
          obtain ⟨st, key, targets, r, ho⟩ := hu.put j p hp
          refine ⟨st, key, targets, r, ho.at_, ho.call, ho.sent, ho.lrec, ho.id, ho.tok, ho.len, ho.data, ho.wr, ?_, ho.good⟩
          intro d hd
          simp only [Option.some.injEq] at hd
          have := ho.at_
          rw [ht] at this
          simp only [Option.some.injEq, Thread.mk.injEq, PC.writing.injEq] at this
          obtain ⟨_, _, _, rfl⟩ := this
          exact ⟨amt, page, hn, hd.symm, hle⟩
        · exact .inl ⟨e, rfl⟩
      · intro j st' key' id' ts' hj
        simp only [upd]
        split
        · simp
        · exact hu.wr j st' key' id' ts' hj
    | @piece s' i p d skip n hp hbz ha =>
      have hst : Step c w.s s' := .act _ ha
      obtain ⟨st, key, targets, r0, ho⟩ := hu.put i p hp
      have hthr : s'.thr = w.s.thr ∧ s'.acks = w.s.acks := by
        simp only [act, ho.at_] at ha
        split at ha
        · split at ha <;> cases ha; exact ⟨rfl, rfl⟩
        · cases ha
      refine lift (advance hc hR (w' := { w with s := s' }) hst hf hi (fun x hx => hx) (fun r hr pos y hb =>
        piece_bytes hc hi ho hbz skip n (w' := { w with s := s' }) (fun x hx => hx) ha hr hb)) ?_
      intro base' v' leak' h' hfr
      refine hu.build hc hi h' hfr (by simp only [hthr.1]; exact hu.res) (fun j q hq => .inl ⟨hq, by simp only [hthr.1]⟩) (by simp only [hthr.1]; exact hu.wr) ?_
      rintro id off ⟨a, h1, h2⟩
      exact .inl ⟨a, by rw [← hthr.2]; exact h1, h2⟩
    | @written s' i p d hp hbz ha =>
      have hst : Step c w.s s' := .act _ ha
      obtain ⟨st, key, targets, r0, ho⟩ := hu.put i p hp
      have ha' : act c w.s (.data i p.idx 0 ((d.drop 0).take d.length)) = some s' := by
        rw [List.drop_zero, List.take_length]; exact ha
      obtain ⟨amt, page, f1, f2, f3⟩ := ho.busy d hbz
      have hlen : d.length = amt := by rw [f2, List.length_take]; omega
      have hthr : s'.thr = w.s.thr ∧ s'.acks = w.s.acks ∧ s'.j.dev = w.s.j.dev.write page d := by
        simp only [act, ho.at_, f1] at ha
        split at ha
        · cases ha; exact ⟨rfl, rfl, rfl⟩
        · cases ha
      refine lift (advance hc hR hst hf hi (fun x hx => hx) (fun r hr pos y hb =>
        piece_bytes hc hi ho hbz 0 d.length (w' := { w with
          s := s'
          puts := upd w.puts i (some { p with busy := none, buf := p.buf.drop d.length, written := p.written + d.length, idx := p.idx + 1 }) })
          (fun x hx => hx) ha' hr hb)) ?_
      intro base' v' leak' h' hfr
      refine hu.build hc hi h' hfr (by simp only [hthr.1]; exact hu.res) ?_ ?_ ?_
      · intro j q hq
        rcases upd_some hq with ⟨rfl, e⟩ | ⟨_, e⟩
        · right
          cases e
          have hk := ho.keep hc hi h' hfr (by simp only [hthr.1])
          refine ⟨st, key, targets, r0, hk.at_, hk.call, hk.sent, hk.lrec, hk.id, hk.tok, hk.len, ?_, ?_, by simp, ?_⟩
          · simp only
            rw [← List.drop_drop, ho.data, List.drop_append_of_le_length (by omega)]
          · simp only
            obtain ⟨hlt, hget⟩ := List.getElem?_eq_some_iff.1 f1
            rw [List.take_add_one, f1]
            simp [ho.wr, hlen]
          · intro pos y p1 p2 p3
            simp only at p1 p2
            by_cases hlt : pos < p.off + p.written
            · exact hk.good pos y p1 hlt p3
            · obtain ⟨k, rfl⟩ : ∃ k, pos = p.off + p.written + k := ⟨pos - (p.off + p.written), by omega⟩
              have hkl : k < d.length := by omega
              have hpos := ho.tok _ _ _ f1 k (by omega)
              rw [← ho.wr] at hpos
              have p3 : byteAddr (dataPgs c.pages r0.o) (p.off + p.written + k) = some y := p3
              rw [hpos] at p3
              cases p3
              have hdev : s'.j.dev (page + k) = d[k] := by
                rw [hthr.2.2]
                have h1 := Mem.read_write_sub w.s.j.dev page d k 1 (by omega)
                simp only [Mem.read, List.range_one, List.map_cons, List.map_nil, Nat.add_zero] at h1
                have h2 : (d.drop k).take 1 = [d[k]] := by rw [List.drop_eq_getElem_cons hkl]; simp only [List.take_succ_cons, List.take_zero]
                rw [h2] at h1
                simpa using h1
              have h3 : (received p.body)[p.written + k]? = some d[k] := by
                rw [← List.getElem?_drop, ho.data, List.getElem?_append_left (by omega)]
                have : d[k]? = some d[k] := List.getElem?_eq_getElem hkl
                rw [← this, f2, List.getElem?_take, if_pos (by omega)]
              refine ⟨p.off, p.body, ho.sent, by omega, ?_⟩
              show _ = some (s'.j.dev (page + k))
              rw [hdev, ← h3]
              congr 1; omega
        · exact .inl ⟨e, by simp only [hthr.1]⟩
      · intro j st' key' id' ts' hj
        simp only [hthr.1] at hj
        simp only [upd]
        split
        · simp
        · exact hu.wr j st' key' id' ts' hj
      · rintro id off ⟨a, h1, h2⟩
        exact .inl ⟨a, by rw [← hthr.2.1]; exact h1, h2⟩
    | @ack s' i p hp hbz hstr hbuf hlen ha =>
      have hst : Step c w.s s' := .act _ ha
      obtain ⟨st, key, targets, r0, ho⟩ := hu.put i p hp
      have hs' : s' = respond w.s i ⟨st, .dead⟩ (.written (.ok ())) := by
        simp only [act, ho.at_, Option.some.injEq] at ha
        exact ha.symm
      refine lift (advance hc hR hst hf hi (fun x hx => hx) (fun r hr pos y hb => .inl (quiet_act hc hi ha (by simp) hr hb))) ?_
      intro base' v' leak' h' hfr
      refine hu.build hc hi h' hfr (res_step (c := c) (w := w) (w' := { w with s := s', puts := upd w.puts i none }) hst hu.res) ?_ ?_ ?_
      · intro j q hq
        rcases upd_some hq with ⟨rfl, e⟩ | ⟨hne, e⟩
        · cases e
        · exact .inl ⟨e, by simp [hs', respond, upd, hne]⟩
      · intro j st' key' id' ts' hj
        simp only [hs', respond, upd] at hj ⊢
        split
        · rename_i hne; rw [if_pos hne] at hj; cases hj
        · rename_i hne; rw [if_neg hne] at hj; exact hu.wr j st' key' id' ts' hj
      · rintro id off ⟨a, h1, key', len', h2, h3⟩
        simp only [hs', respond, List.mem_append, List.mem_singleton] at h1
        rcases h1 with h1 | rfl
        · exact .inl ⟨a, h1, key', len', h2, h3⟩
        · right
          simp only [ho.call, Call.lookup.injEq, Req.write.injEq] at h2
          obtain ⟨⟨rfl, rfl, rfl⟩, rfl⟩ := h2
          have hset := settled_of hi ho.lrec
          rw [ho.id] at hset
          refine ⟨hfr.settled _ hset, ?_⟩
          intro r hr hid pos y p1 p2 p3 p4
          have hbk := hfr.back r hr (by rw [hid]; exact hset)
          have : (Own.linked, r0) = (Own.linked, r) := List.inj_on_of_nodup_map hi.good.idn ho.lrec hbk (by simp only; rw [ho.id, hid])
          cases this
          have hl := ho.len
          have hg := ho.good pos y p1 (by omega) p4
          have hd : s'.j.dev y = w.s.j.dev y := by rw [hs']; rfl
          show Uploaded _ _ _ (s'.j.dev y)
          rw [hd]
          exact hg
    | @fail s' i p e hp hbz ha =>
      have hst : Step c w.s s' := .act _ ha
      obtain ⟨st, key, targets, r0, ho⟩ := hu.put i p hp
      have hs' : s' = respond w.s i ⟨st, .dead⟩ (.written (.error e)) := by
        simp only [act, ho.at_, Option.some.injEq] at ha
        exact ha.symm
      refine lift (advance hc hR hst hf hi (fun x hx => hx) (fun r hr pos y hb => .inl (quiet_act hc hi ha (by simp) hr hb))) ?_
      intro base' v' leak' h' hfr
      refine hu.build hc hi h' hfr (res_step (c := c) (w := w) (w' := { w with s := s', puts := upd w.puts i none }) hst hu.res) ?_ ?_ ?_
      · intro j q hq
        rcases upd_some hq with ⟨rfl, e⟩ | ⟨hne, e⟩
        · cases e
        · exact .inl ⟨e, by simp [hs', respond, upd, hne]⟩
      · intro j st' key' id' ts' hj
        simp only [hs', respond, upd] at hj ⊢
        split
        · rename_i hne; rw [if_pos hne] at hj; cases hj
        · rename_i hne; rw [if_neg hne] at hj; exact hu.wr j st' key' id' ts' hj
      · rintro id off ⟨a, h1, key', len', h2, h3⟩
        simp only [hs', respond, List.mem_append, List.mem_singleton] at h1
        rcases h1 with h1 | rfl
        · exact .inl ⟨a, h1, key', len', h2, h3⟩
        · simp at h3
    | @drop s' i hpb ha =>
      have hst : Step c w.s s' := .act _ ha
      have hs' : ∃ st, s' = setPc w.s i ⟨st, .dead⟩ .dead := by
        simp only [act] at ha
        split at ha
        · cases ha; exact ⟨_, rfl⟩
        · cases ha; exact ⟨_, rfl⟩
        · cases ha
      obtain ⟨st, hs'⟩ := hs'
      refine lift (advance hc hR hst hf hi (fun x hx => hx) (fun r hr pos y hb => .inl (quiet_act hc hi ha (by simp) hr hb))) ?_
      intro base' v' leak' h' hfr
      refine hu.build hc hi h' hfr (res_step (c := c) (w := w) (w' := { w with s := s', puts := upd w.puts i none }) hst hu.res) ?_ ?_ ?_
      · intro j q hq
        rcases upd_some hq with ⟨rfl, e⟩ | ⟨hne, e⟩
        · cases e
        · exact .inl ⟨e, by simp [hs', setPc, upd, hne]⟩
      · intro j st' key' id' ts' hj
        simp only [hs', setPc, upd] at hj ⊢
        split
        · rename_i hne; rw [if_pos hne] at hj; cases hj
        · rename_i hne; rw [if_neg hne] at hj; exact hu.wr j st' key' id' ts' hj
      · rintro id off ⟨a, h1, key', len', h2, h3⟩
        simp only [hs', setPc] at h1
        exact .inl ⟨a, h1, key', len', h2, h3⟩
    | @other s' a ho ha hnw =>
      have hst : Step c w.s s' := .act _ ha
      have hnd : ∀ i n k b, a ≠ .data i n k b := by rintro i n k b rfl; exact ho
      refine lift (advance hc hR (w' := { w with s := s' }) hst hf hi (fun x hx => hx) (fun r hr pos y hb => .inl (quiet_act hc hi ha hnd hr hb))) ?_
      intro base' v' leak' h' hfr
      refine hu.build hc hi h' hfr (res_step (c := c) (w := w) (w' := { w with s := s' }) hst hu.res) ?_ ?_ ?_
      · intro j q hq
        obtain ⟨_, _, _, _, hk⟩ := hu.put j q hq
        exact .inl ⟨hq, thr_other ha ho hb hk.at_⟩
      · intro j st' key' id' ts' hj
        exact hu.wr j st' key' id' ts' (hnw j st' key' id' ts' hj)
      · intro id off hac
        rcases acked_step hst hu.res hac with e | ⟨k, st', pc', key', len', e1, e2, e3⟩
        · exact .inl e
        · exfalso
          have e3 : act c w.s (.writeEnd k (.ok ())) = some s' := e3
          simp only [act] at e3
          split at e3
          · rename_i hk
            cases e3
            have := thr_other ha ho hb hk
            rw [hk] at this
            simp [respond, upd] at this
          · cases e3
    | @journal j' hj hh =>
      have hst : Step c w.s { w.s with j := j' } := .journal hj hh
      refine lift (advance hc hR (w' := { w with s := { w.s with j := j' } }) hst hf hi (fun x hx => hx) (fun r hr pos y hb =>
        .inl (journal_bytes hc hi hj hh hr (dataByte hc hi hb)))) ?_
      intro base' v' leak' h' hfr
      exact hu.build hc hi h' hfr hu.res (fun j q hq => .inl ⟨hq, rfl⟩) hu.wr (fun id off h => .inl h)

end Upload
end Lite
end Blobd
