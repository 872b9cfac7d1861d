import Verif.Spec.LiteApart
import Verif.Proofs.LiteSeq
import Verif.Proofs.LiteTokens
import Verif.Proofs.LiteQuiet
set_option autoImplicit false
/-! # Calls of one bucket kept apart: none of the recorded faults happens -/
namespace Blobd
namespace Lite
open Spec Upload
section
variable {c : LCfg}

/-- a ticket of a call: for its bucket, of an object made in its bucket -/
structure TkOk (c : LCfg) (lin : List (Nat × Ev)) (call : Call) (tk : Overlay.Ticket Cell) : Prop where
  chg : callChanges call = true
  head : ∀ b, tk.key = .head b → b = c.bkt (callKey call)
  made : ∀ id, (tk.key = .state id ∨ tk.key = .next id) → ∃ k n, Ev.created k id n ∈ lin.map (·.2) ∧ c.bkt k = c.bkt (callKey call)

theorem TkOk.app {lin l : List (Nat × Ev)} {call : Call} {tk : Overlay.Ticket Cell} (h : TkOk c lin call tk) : TkOk c (lin ++ l) call tk :=
  ⟨h.chg, h.head, fun id hid => by
    obtain ⟨k, n, h1, h2⟩ := h.made id hid
    exact ⟨k, n, by rw [List.map_append]; exact List.mem_append_left _ h1, h2⟩⟩

structure DI (c : LCfg) (s : LSt) : Prop where
  one : ∀ i j t t', s.thr i = some t → s.thr j = some t' → t.pc ≠ .dead → t'.pc ≠ .dead → i ≠ j →
    c.bkt (callKey t.start.call) = c.bkt (callKey t'.start.call) → callChanges t.start.call = false
  tk : ∀ i t, s.thr i = some t → ∀ tk ∈ t.pc.tks, TkOk c s.lin t.start.call tk

theorem DI.same {s s' : LSt} (h : DI c s) (h1 : s'.thr = s.thr) (h2 : s'.lin = s.lin) : DI c s' :=
  ⟨by rw [h1]; exact h.one, by rw [h1, h2]; exact h.tk⟩

theorem DI.move {s s' : LSt} (h : DI c s) {i : Nat} {st : Begun} {pc : PC} (hth : s.thr i = some ⟨st, pc⟩) (hd : pc ≠ .dead) {o : Option Thread}
    (hthr : s'.thr = upd s.thr i o) (ho : ∀ t', o = some t' → t'.start = st ∧ ∀ tk ∈ t'.pc.tks, tk ∈ pc.tks ∨ TkOk c s'.lin st.call tk)
    (hlin : ∃ l, s'.lin = s.lin ++ l) : DI c s' := by
  obtain ⟨l, hlin⟩ := hlin
  have hold : ∀ j t, s'.thr j = some t → ∃ u, s.thr j = some u ∧ u.start = t.start ∧ (t.pc ≠ .dead → u.pc ≠ .dead) := by
    intro j t hj
    rw [hthr] at hj
    by_cases e : j = i
    · subst e
      simp only [upd, if_pos] at hj
      exact ⟨_, hth, (ho t hj).1.symm, fun _ => hd⟩
    · simp only [upd, if_neg e] at hj
      exact ⟨t, hj, rfl, fun h => h⟩
  constructor
  · intro a b t t' ha hb hda hdb hne hbk
    obtain ⟨u, u1, u2, u3⟩ := hold a t ha
    obtain ⟨w, w1, w2, w3⟩ := hold b t' hb
    rw [← u2]
    exact h.one a b u w u1 w1 (u3 hda) (w3 hdb) hne (by rw [u2, w2]; exact hbk)
  · intro j t hj tk htk
    rw [hthr] at hj
    by_cases e : j = i
    · subst e
      simp only [upd, if_pos] at hj
      obtain ⟨e1, e2⟩ := ho t hj
      rw [e1]
      rcases e2 tk htk with e2 | e2
      · rw [hlin]; exact (h.tk j _ hth tk e2).app
      · exact e2
    · simp only [upd, if_neg e] at hj
      rw [hlin]
      exact (h.tk j t hj tk htk).app

/-- no tickets before or after -/
theorem DI.calm {s s' : LSt} (h : DI c s) {i : Nat} {st : Begun} {pc : PC} (hth : s.thr i = some ⟨st, pc⟩) (hd : pc ≠ .dead) {o : Option Thread}
    (hthr : s'.thr = upd s.thr i o) (ho : ∀ t', o = some t' → t'.start = st ∧ t'.pc.tks = []) (hlin : ∃ l, s'.lin = s.lin ++ l) : DI c s' :=
  h.move hth hd hthr (fun t' e => ⟨(ho t' e).1, fun tk htk => by rw [(ho t' e).2] at htk; cases htk⟩) hlin

theorem DI.start {s s' : LSt} (h : DI c s) {t : Thread} (hthr : s'.thr = upd s.thr s.nextCall (some t)) (hm : MayStart c s t.start.call)
    (ht : t.pc.tks = []) (hlin : s'.lin = s.lin) : DI c s' := by
  constructor
  · intro a b u w ha hb hda hdb hne hbk
    rw [hthr] at ha hb
    by_cases e1 : a = s.nextCall
    · subst e1
      simp only [upd, if_pos, Option.some.injEq] at ha
      subst ha
      have e2 : b ≠ s.nextCall := fun e => hne e.symm
      simp only [upd, if_neg e2] at hb
      exact (hm b w hb hdb hbk.symm).1
    · simp only [upd, if_neg e1] at ha
      by_cases e2 : b = s.nextCall
      · subst e2
        simp only [upd, if_pos, Option.some.injEq] at hb
        subst hb
        exact (hm a u ha hda hbk).2
      · simp only [upd, if_neg e2] at hb
        exact h.one a b u w ha hb hda hdb hne hbk
  · intro j u hj tk htk
    rw [hthr] at hj
    by_cases e : j = s.nextCall
    · subst e
      simp only [upd, if_pos, Option.some.injEq] at hj
      subst hj
      rw [ht] at htk
      cases htk
    · simp only [upd, if_neg e] at hj
      rw [hlin]
      exact h.tk j u hj tk htk

theorem tks_live {pc : PC} (h : pc.tks ≠ []) : pc ≠ .dead := by
  rintro rfl
  exact h rfl

/-- a listed object was made in this bucket -/
theorem made_of (hc : c.Ok) {s : LSt} (hr : Reach c s) (hf : s.faults = []) {base : Mem} {v : V} {leak : List (Nat × Nat)} (h : LInv c s base v leak)
    {b : Nat} {r : Rec} (hm : r ∈ v.ch b) : ∃ k n, Ev.created k r.o.id n ∈ s.lin.map (·.2) ∧ c.bkt k = b := by
  have t := toks_of h.abs (reach_news hc hr hf).1
  obtain ⟨⟨n, h1⟩, _⟩ := t.made _ _ (mem_abs hc h hm)
  exact ⟨r.o.key, n, h1, h.good.chb b r hm⟩

theorem created_unique (hc : c.Ok) {s : LSt} (hr : Reach c s) (hf : s.faults = []) {k k' : List Byte} {id n n' : Nat}
    (h : Ev.created k id n ∈ s.lin.map (·.2)) (h' : Ev.created k' id n' ∈ s.lin.map (·.2)) : k = k' := by
  have hn := (reach_news hc hr hf).1
  generalize s.lin.map (·.2) = evs at h h' hn
  by_contra hk
  obtain ⟨p, q, rfl⟩ := List.append_of_mem h
  rw [List.flatMap_append, List.flatMap_cons] at hn
  have h' : Ev.created k' id n' ∈ p ∨ Ev.created k' id n' ∈ q := by
    rcases List.mem_append.1 h' with h' | h'
    · exact .inl h'
    · rcases List.mem_cons.1 h' with h' | h'
      · simp only [Ev.created.injEq] at h'; exact absurd h'.1.symm hk
      · exact .inr h'
  rw [List.nodup_append] at hn
  rcases h' with h' | h'
  · exact hn.2.2 id (List.mem_flatMap.2 ⟨_, h', by simp [Ev.new]⟩) id (List.mem_append_left _ (by simp [Ev.new])) rfl
  · have := hn.2.1
    rw [List.nodup_append] at this
    exact this.2.2 id (by simp [Ev.new]) id (List.mem_flatMap.2 ⟨_, h', by simp [Ev.new]⟩) rfl

/-- while a change walks bucket `b` nothing of that bucket is in the overlay -/
theorem lone (hc : c.Ok) {s : LSt} (hr : Reach c s) (hf : s.faults = []) {base : Mem} {v : V} {leak : List (Nat × Nat)} (h : LInv c s base v leak)
    (q : QB c s v) (hd : DI c s) {i : Nat} {st : Begun} {pc : PC} (hth : s.thr i = some ⟨st, pc⟩) (hpc : pc.tks = []) (hl : pc ≠ .dead)
    {k : Cell} (hk : CellOf v (c.bkt (callKey st.call)) k) : s.ov.map k = none := by
  cases hx : s.ov.map k with
  | none => rfl
  | some p =>
    obtain ⟨j, e, t, _, _, _, j1, j2⟩ := q.cell _ k hk p.1 p.2 hx
    have hne : j ≠ i := by
      rintro rfl
      rw [hth] at j1
      cases j1
      rw [hpc] at j2
      cases j2
    have ok := hd.tk j t j1 _ j2
    have hlive := tks_live (List.ne_nil_of_mem j2)
    have hb : c.bkt (callKey t.start.call) = c.bkt (callKey st.call) := by
      rcases hk with rfl | ⟨r, hrm, hk⟩
      · exact (ok.head _ rfl).symm
      · obtain ⟨k1, n1, g1, g2⟩ := ok.made r.o.id hk
        obtain ⟨k2, n2, g3, g4⟩ := made_of hc hr hf h hrm
        rw [← g2, ← g4, created_unique hc hr hf g1 g3]
    have := hd.one j i t _ j1 hth hlive hl hne hb
    rw [ok.chg] at this
    cases this

/-- with nothing of the record in the overlay the journal has nothing pending for a linked inode -/
theorem pendingAt_clear (hc : c.Ok) {s : LSt} {base : Mem} {v : V} {leak : List (Nat × Nat)} (h : LInv c s base v leak)
    {r : Rec} (hr : (Own.linked, r) ∈ v.recs) (he1 : s.ov.map (.state r.o.id) = none) (he2 : s.ov.map (.next r.o.id) = none) :
    pendingAt s.j r.off = false := by
  have ge := h.geo hc
  unfold pendingAt
  rw [← h.U, List.any_eq_false]
  intro t ht hcon
  rw [List.any_eq_true] at hcon
  obtain ⟨w, hw, hwo⟩ := hcon
  simp only [decide_eq_true_eq] at hwo
  have hlen : 0 < w.2.length := by
    rcases h.good.pend t ht w hw with ⟨b, hb, e1, e2⟩ | ⟨x', hx', hf, hcase⟩
    · omega
    · rcases hcase with h | h <;> omega
  have hoff := ge.off hr
  simp only at hoff
  have := (pend_at_rec hc h.good ge hr ht hw (y := w.1) (Nat.le_refl _) (by omega) hwo.1 (by simp only; omega)).2
  simp only at this
  rcases this with e | e
  · obtain ⟨n, hn, _⟩ := h.good.quiet (.state r.o.id) r.off ⟨r, hr, rfl, rfl⟩ ((congrArg (fun o => Overlay.Ov.map o (.state r.o.id)) h.ov).trans he1) t ht w hw e.2.1
    cases hn
  · obtain ⟨n, hn, _⟩ := h.good.quiet (.next r.o.id) (r.off + 2) ⟨r, hr, rfl, rfl⟩ ((congrArg (fun o => Overlay.Ov.map o (.next r.o.id)) h.ov).trans he2) t ht w hw e.2.1
    cases hn

/-- unlinking a record of a bucket with nothing in the overlay -/
theorem unlink_apart (hc : c.Ok) {s s1 : LSt} {base : Mem} {v : V} {leak : List (Nat × Nat)} (h : LInv c s base v leak) {b : Nat} {f : Found}
    {tk : Overlay.Ticket Cell} {ws : List (Nat × List Byte)} {free : List (Nat × Nat)}
    (hu : unlink c s b f = some (s1, tk, ws, free)) (he : ∀ k, CellOf v b k → s.ov.map k = none) {a d : List Rec} {r : Rec}
    (hv : v.ch b = a ++ r :: d) (hp : f.prev = prevOff a) : s1.faults = s.faults := by
  unfold unlink at hu
  simp only at hu
  split at hu
  · cases hu
  · split at hu
    · rename_i p hfp
      simp only [Option.some.injEq, Prod.mk.injEq] at hu
      obtain ⟨rfl, _⟩ := hu
      rw [hfp, prevOff, eq_comm, Option.map_eq_some_iff] at hp
      obtain ⟨x, hx, rfl⟩ := hp
      have hxm : x ∈ v.ch b := by
        rw [hv]
        exact List.mem_append_left _ (List.mem_of_getLast? hx)
      have := he (.next x.o.id) (.inr ⟨x, hxm, .inr rfl⟩)
      rw [(inode_fields hc h (linked_of hc h hxm)).1]
      simp [Overlay.Ov.get, this]
    · simp only [Option.some.injEq, Prod.mk.injEq] at hu
      obtain ⟨rfl, _⟩ := hu
      rfl

/-- its ticket -/
theorem unlink_tkOk {s s1 : LSt} {b : Nat} {f : Found} {tk : Overlay.Ticket Cell} {ws : List (Nat × List Byte)} {free : List (Nat × Nat)}
    (hu : unlink c s b f = some (s1, tk, ws, free)) {lin : List (Nat × Ev)} {call : Call} (hb : b = c.bkt (callKey call)) (hcg : callChanges call = true)
    (hm : ∃ k n, Ev.created k (rdId (ofBytes f.raw) 0) n ∈ lin.map (·.2) ∧ c.bkt k = c.bkt (callKey call)) : TkOk c lin call tk := by
  refine ⟨hcg, ?_, ?_⟩
  · intro b' e
    rcases (tk_unlink hu).2.1 with e' | e' <;> rw [e'] at e
    · cases e; exact hb
    · cases e
  · intro id e
    rcases (tk_unlink hu).2.1 with e' | e' <;> rw [e'] at e
    · rcases e with e | e <;> cases e
    · rcases e with e | e
      · cases e
      · rw [← Cell.next.inj e]; exact hm

theorem copyHeld_false (hc : c.Ok) {s : LSt} (hr : Reach c s) (hf : s.faults = []) {base : Mem} {v : V} {leak : List (Nat × Nat)} (h : LInv c s base v leak)
    (hd : DI c s) {i : Nat} {st : Begun} {tk : Overlay.Ticket Cell} {ks : List (Overlay.Ticket Cell)} {resp : Resp}
    (hth : s.thr i = some ⟨st, .evict (tk :: ks) resp⟩) : copyHeld s tk.key = false := by
  have ok := hd.tk i _ hth tk (List.mem_cons_self ..)
  unfold copyHeld
  rw [List.any_eq_false]
  intro j _
  cases hj : s.thr j with
  | none => simp
  | some t =>
    simp only
    rw [Bool.not_eq_true, List.any_eq_false]
    intro raw hraw hcon
    simp only [Bool.or_eq_true, decide_eq_true_eq] at hcon
    have hpcs := ((reach_ai hr).thr j t hj).2.2
    have hpc := (h.thr j t hj).2
    obtain ⟨st', pc'⟩ := t
    cases pc' with
    | walk req key cur prev raw' inc ex =>
      have hcall : st'.call = .lookup req key := hpcs.2
      obtain ⟨vis, rest, q1, q2, _, q4, q5⟩ := hpc
      have hmem : ∃ r ∈ v.ch (c.bkt key), Copy v r raw := by
        simp only [PC.raws, List.mem_append, List.mem_map, Option.mem_toList] at hraw
        have held : ∀ {P : Rec → Prop} {o : Option Found}, Held v vis P o → (∃ f, o = some f ∧ f.raw = raw) → ∃ r ∈ v.ch (c.bkt key), Copy v r raw := by
          rintro P o ho ⟨f, rfl, rfl⟩
          obtain ⟨a, r, d, g1, _, _, _, g5⟩ := ho
          exact ⟨r, by rw [q1, g1]; simp, g5⟩
        rcases hraw with (hraw | ⟨f, f1, f2⟩) | ⟨f, f1, f2⟩
        · obtain ⟨r, rest', g1, g2⟩ := q4 raw hraw
          exact ⟨r, by rw [q1, g1]; simp, g2⟩
        · cases req with
          | commit id => exact held q5.1 ⟨f, f1, f2⟩
          | _ => rw [q5.1] at f1; cases f1
        · cases req with
          | commit id => exact held q5.2 ⟨f, f1, f2⟩
          | _ => rw [q5.2.1] at f1; cases f1
      obtain ⟨r, hrm, hcp⟩ := hmem
      rw [hcp.id] at hcon
      obtain ⟨k1, n1, g1, g2⟩ := ok.made r.o.id hcon
      obtain ⟨k2, n2, g3, g4⟩ := made_of hc hr hf h hrm
      have hb : c.bkt (callKey st.call) = c.bkt (callKey st'.call) := by
        rw [hcall, ← g2, created_unique hc hr hf g1 g3, g4]
        rfl
      have hne : i ≠ j := by
        rintro rfl
        rw [hth] at hj
        cases hj
      have := hd.one i j _ _ hth hj (by simp) (by simp) hne hb
      rw [ok.chg] at this
      cases this
    | _ => cases hraw

theorem ap_found (hc : c.Ok) {s : LSt} (hr : Reach c s) (hf : s.faults = []) {base : Mem} {v : V} {leak : List (Nat × Nat)} (h : LInv c s base v leak)
    (q : QB c s v) (hd : DI c s) {i : Nat} {st : Begun} {req : Req} {key : List Byte} {cur : Nat} {prev : Option Nat} {raw : List Byte}
    {inc ex : Option Found} (hth : s.thr i = some ⟨st, .walk req key cur prev (some raw) inc ex⟩) (idle : Bool) (hreq : ∀ id, req ≠ .commit id) :
    DI c (onFound c s i ⟨st, .dead⟩ req key ⟨cur, prev, raw⟩ idle) ∧ (onFound c s i ⟨st, .dead⟩ req key ⟨cur, prev, raw⟩ idle).faults = [] := by
  have hcall : st.call = .lookup req key := ((reach_ai hr).thr i _ hth).2.2.2
  obtain ⟨vis, rest, q1, q2, q3, q4, _⟩ := (h.thr i _ hth).2
  obtain ⟨r, rest', r1, hcp⟩ := q4 raw rfl
  subst r1
  have hrm : r ∈ v.ch (c.bkt key) := by rw [q1]; simp
  have hbk : c.bkt key = c.bkt (callKey st.call) := by rw [hcall]; rfl
  have he : ∀ k, CellOf v (c.bkt key) k → s.ov.map k = none := by
    intro k hk
    rw [hbk] at hk
    exact lone hc hr hf h q hd hth rfl (by simp) hk
  unfold onFound
  cases req with
  | look want => exact ⟨hd.calm hth (by simp) rfl (by simp) ⟨_, rfl⟩, hf⟩
  | write wid o l =>
    simp only
    split
    · exact ⟨hd.calm hth (by simp) rfl (by simp) ⟨_, rfl⟩, hf⟩
    · split
      · exact ⟨hd.calm (o := some ⟨st, .dead⟩) hth (by simp) rfl (by intro t' e; cases e; exact ⟨rfl, rfl⟩) ⟨_, rfl⟩, hf⟩
      · exact ⟨hd.calm hth (by simp) rfl (by intro t' e; cases e; exact ⟨rfl, rfl⟩) ⟨_, rfl⟩, hf⟩
  | delete want =>
    simp only
    split
    · exact ⟨hd.calm (o := some ⟨st, .dead⟩) hth (by simp) rfl (by intro t' e; cases e; exact ⟨rfl, rfl⟩) ⟨[], by simp [setPc]⟩, hf⟩
    · rename_i s1 tk ws free hu
      have u1 := unlink_apart hc h hu he q1 q3
      obtain ⟨⟨u2, _, _, u5⟩, _⟩ := tk_unlink hu
      have k := commitTxn_ov (c := c) (event s1 i (.removed key want (rdId (ofBytes raw) 0))) idle ws
      have k' := tk_commitTxn (c := c) (event s1 i (.removed key want (rdId (ofBytes raw) 0))) idle ws
      have hp : pendingAt s.j cur = false := by
        rw [show cur = r.off from q2]
        exact pendingAt_clear hc h (linked_of hc h hrm) (he _ (.inr ⟨r, hrm, .inl rfl⟩)) (he _ (.inr ⟨r, hrm, .inr rfl⟩))
      have hlin : (commitTxn c (event s1 i (.removed key want (rdId (ofBytes raw) 0))) idle ws).1.lin = s.lin ++ [(i, .removed key want (rdId (ofBytes raw) 0))] := by
        rw [k'.2.2.2.2]
        simp only [event, u5]
      constructor
      · refine hd.move (o := some ⟨st, .wait (commitTxn c (event s1 i (.removed key want (rdId (ofBytes raw) 0))) idle ws).2 free [tk] .deleted⟩) hth (by simp) ?_ ?_ ⟨_, hlin⟩
        · simp only [setPc, k'.2.1]
          simp only [event, u2]
        · intro t' e
          cases e
          refine ⟨rfl, ?_⟩
          intro tk' htk'
          simp only [PC.tks, List.mem_singleton] at htk'
          subst htk'
          right
          simp only [setPc]
          rw [hlin]
          refine TkOk.app (unlink_tkOk hu hbk (by rw [hcall]; rfl) ?_)
          simp only
          rw [hcp.id, ← hbk]
          exact made_of hc hr hf h hrm
      · simp only [setPc, k.2, hp]
        simp [event, u1, hf]
  | commit id => exact absurd rfl (hreq id)

theorem ap_end (hc : c.Ok) {s s' : LSt} (hr : Reach c s) (hf : s.faults = []) {base : Mem} {v : V} {leak : List (Nat × Nat)} (h : LInv c s base v leak)
    (q : QB c s v) (hd : DI c s) {i : Nat} {idle : Bool} (ha : act c s (.atEnd i idle) = some s') : DI c s' ∧ s'.faults = [] := by
  simp only [act] at ha
  split at ha
  · rename_i st req key prev inc ex hth
    cases ha
    have hcall : st.call = .lookup req key := ((reach_ai hr).thr i _ hth).2.2.2
    have hbk : c.bkt key = c.bkt (callKey st.call) := by rw [hcall]; rfl
    have he : ∀ k, CellOf v (c.bkt key) k → s.ov.map k = none := by
      intro k hk
      rw [hbk] at hk
      exact lone hc hr hf h q hd hth rfl (by simp) hk
    have hans : ∀ (e : Ev) (r : Resp), DI c (respond (event s i e) i ⟨st, .dead⟩ r) ∧ (respond (event s i e) i ⟨st, .dead⟩ r).faults = [] :=
      fun e r => ⟨hd.calm hth (by simp) rfl (by simp) ⟨_, rfl⟩, hf⟩
    unfold onEnd
    cases req with
    | look want => exact hans _ _
    | write id o l => exact hans _ _
    | delete want => exact hans _ _
    | commit id =>
      obtain ⟨vis, rest, q1, _, _, _, q5⟩ := (h.thr i _ hth).2
      cases inc with
      | none => exact hans _ _
      | some f =>
        have hinc : ∃ k n, Ev.created k id n ∈ s.lin.map (·.2) ∧ c.bkt k = c.bkt (callKey st.call) := by
          obtain ⟨a, r, d, g1, g2, _⟩ := q5.1
          have hid : id = r.o.id := by
            rcases g2.2.2 with g | g
            · cases g
            · exact Option.some.inj g
          rw [hid, ← hbk]
          exact made_of hc hr hf h (by rw [q1, g1]; simp)
        have fin : ∀ {s1 : LSt} (tickets : List (Overlay.Ticket Cell)) (ws : List (Nat × List Byte)) (free : List (Nat × Nat)),
            s1.thr = s.thr → s1.lin = s.lin → s1.faults = [] → (∀ tk ∈ tickets, TkOk c s.lin st.call tk) →
            DI c (setPc (commitTxn c (event { s1 with ov := (s1.ov.set (.state id) stCommitted).1 } i (.committed key id)) idle ws).1 i ⟨st, .dead⟩
              (.wait (commitTxn c (event { s1 with ov := (s1.ov.set (.state id) stCommitted).1 } i (.committed key id)) idle ws).2 free
                ((s1.ov.set (.state id) stCommitted).2 :: tickets) .committed)) ∧
            (setPc (commitTxn c (event { s1 with ov := (s1.ov.set (.state id) stCommitted).1 } i (.committed key id)) idle ws).1 i ⟨st, .dead⟩
              (.wait (commitTxn c (event { s1 with ov := (s1.ov.set (.state id) stCommitted).1 } i (.committed key id)) idle ws).2 free
                ((s1.ov.set (.state id) stCommitted).2 :: tickets) .committed)).faults = [] := by
          intro s1 tickets ws free u1 u2 u3 u4
          have k := commitTxn_ov (c := c) (event { s1 with ov := (s1.ov.set (.state id) stCommitted).1 } i (.committed key id)) idle ws
          have k' := tk_commitTxn (c := c) (event { s1 with ov := (s1.ov.set (.state id) stCommitted).1 } i (.committed key id)) idle ws
          have hlin : (commitTxn c (event { s1 with ov := (s1.ov.set (.state id) stCommitted).1 } i (.committed key id)) idle ws).1.lin = s.lin ++ [(i, .committed key id)] := by
            rw [k'.2.2.2.2]
            simp only [event, u2]
          constructor
          · refine hd.move (o := some ⟨st, .wait (commitTxn c (event { s1 with ov := (s1.ov.set (.state id) stCommitted).1 } i (.committed key id)) idle ws).2 free
                ((s1.ov.set (.state id) stCommitted).2 :: tickets) .committed⟩) hth (by simp) ?_ ?_ ⟨_, hlin⟩
            · simp only [setPc, k'.2.1]
              simp only [event, u1]
            · intro t' e
              cases e
              refine ⟨rfl, ?_⟩
              intro tk' htk'
              right
              simp only [setPc]
              rw [hlin]
              apply TkOk.app
              simp only [PC.tks, List.mem_cons] at htk'
              rcases htk' with rfl | htk'
              · refine ⟨by rw [hcall]; rfl, (fun b e => by cases e), ?_⟩
                intro id' e
                simp only [Overlay.Ov.set, Cell.state.injEq, reduceCtorEq, or_false] at e
                rw [← e]
                exact hinc
              · exact u4 _ htk'
          · simp only [setPc, k.2]
            simp only [event, u3]
        cases ex with
        | none => exact fin [] _ _ rfl rfl hf (by simp)
        | some e =>
          simp only
          split
          · exact ⟨hd.calm (o := some ⟨st, .dead⟩) hth (by simp) rfl (by intro t' e; cases e; exact ⟨rfl, rfl⟩) ⟨[], by simp [setPc]⟩, hf⟩
          · rename_i s1 tk ws free hdl
            split at hdl
            · cases hdl; exact fin [] _ _ rfl rfl hf (by simp)
            · rw [Option.map_eq_some_iff] at hdl
              obtain ⟨⟨s1', tk', ws', free'⟩, hu, hdl⟩ := hdl
              cases hdl
              obtain ⟨a, r, d, g1, g2, g3, g4, g5⟩ := q5.2
              have hv : v.ch (c.bkt key) = a ++ r :: (d ++ rest) := by rw [q1, g1]; simp
              have hrm : r ∈ v.ch (c.bkt key) := by rw [hv]; simp
              obtain ⟨⟨u2, _, _, u5⟩, _⟩ := tk_unlink hu
              refine fin _ _ _ u2 u5 ((unlink_apart hc h hu he hv g4).trans hf) ?_
              intro tk htk
              rw [List.mem_singleton] at htk
              subst htk
              refine unlink_tkOk hu hbk (by rw [hcall]; rfl) ?_
              rw [g5.id, ← hbk]
              exact made_of hc hr hf h hrm
  · cases ha

theorem ap_act (hc : c.Ok) {s s' : LSt} (hr : Reach c s) (hf : s.faults = []) (hd : DI c s) {a : Act}
    (ha : act c s a = some s') (hst : ∀ call, actCall a = some call → MayStart c s call) (hnc : ∀ i n bytes, a ≠ .cancel i n bytes) :
    DI c s' ∧ s'.faults = [] := by
  obtain ⟨base, v, leak, h, q⟩ := reach_qb hc hr hf
  have one : ∀ {i : Nat} {st : Begun} {pc pc' : PC} {s' : LSt}, s.thr i = some ⟨st, pc⟩ → pc ≠ .dead → pc'.tks = [] → s'.thr = upd s.thr i (some ⟨st, pc'⟩) →
      s'.lin = s.lin → DI c s' := by
    intro i st pc pc' s' h1 h2 h3 h4 h5
    exact hd.calm h1 h2 h4 (by intro t' e; cases e; exact ⟨rfl, h3⟩) ⟨[], by simp [h5]⟩
  cases a with
  | create key size assoc created id =>
    have ha : create c s key size assoc created id = some s' := ha
    have hm := hst _ rfl
    unfold create at ha
    split at ha
    · split at ha
      · cases ha
      · simp only at ha
        split at ha
        · cases ha
          exact ⟨hd.same rfl rfl, hf⟩
        · split at ha
          · cases ha
            exact ⟨hd.start rfl hm rfl rfl, hf⟩
          · split at ha <;> (cases ha; exact ⟨hd.start rfl hm rfl rfl, hf⟩)
    · cases ha
  | createWritten i =>
    simp only [act] at ha
    split at ha
    · rename_i hth
      cases ha
      exact ⟨one hth (by simp) rfl rfl rfl, hf⟩
    · cases ha
  | createLink i idle =>
    simp only [act] at ha
    split at ha
    · rename_i st o off hth
      split at ha
      · cases ha
        have hcall : st.call = .create o.key o.size := ((reach_ai hr).thr i _ hth).2.2.2
        unfold link
        simp only
        generalize hq : commitTxn c _ idle _ = q
        have k := commitTxn_ov (c := c) (event { s with ov := ((s.ov.set (.head (c.bkt o.key)) off).1.set (.next o.id) (getHead c s (c.bkt o.key))).1 } i (.created o.key o.id o.size)) idle
          [(c.bkDev + bucketOff (c.bkt o.key), encHead off), (off + ObjectOffsets.nextNode, beBytes 6 (getHead c s (c.bkt o.key)))]
        have k' := tk_commitTxn (c := c) (event { s with ov := ((s.ov.set (.head (c.bkt o.key)) off).1.set (.next o.id) (getHead c s (c.bkt o.key))).1 } i (.created o.key o.id o.size)) idle
          [(c.bkDev + bucketOff (c.bkt o.key), encHead off), (off + ObjectOffsets.nextNode, beBytes 6 (getHead c s (c.bkt o.key)))]
        rw [hq] at k k'
        have hlin : q.1.lin = s.lin ++ [(i, .created o.key o.id o.size)] := by rw [k'.2.2.2.2]; rfl
        refine ⟨hd.move (o := some ⟨st, .wait q.2 [] [(s.ov.set (.head (c.bkt o.key)) off).2, ((s.ov.set (.head (c.bkt o.key)) off).1.set (.next o.id) (getHead c s (c.bkt o.key))).2] (.created o.id)⟩)
          hth (by simp) (by simp only [setPc, k'.2.1]; rfl) ?_ ⟨_, hlin⟩, by simp only [setPc, k.2]; exact hf⟩
        intro t' e
        cases e
        refine ⟨rfl, ?_⟩
        intro tk htk
        right
        simp only [setPc]
        rw [hlin]
        simp only [PC.tks, List.mem_cons, List.not_mem_nil, or_false] at htk
        rcases htk with rfl | rfl
        · refine ⟨by rw [hcall]; rfl, ?_, ?_⟩
          · intro b e
            simp only [Overlay.Ov.set, Cell.head.injEq] at e
            rw [← e, hcall]
            rfl
          · intro id e
            simp [Overlay.Ov.set] at e
        · refine ⟨by rw [hcall]; rfl, ?_, ?_⟩
          · intro b e
            simp [Overlay.Ov.set] at e
          · intro id e
            simp only [Overlay.Ov.set, Cell.next.injEq, reduceCtorEq, false_or] at e
            subst e
            exact ⟨o.key, o.size, by simp, by rw [hcall]; rfl⟩
      · cases ha
    · cases ha
  | lookup req key =>
    have hm := hst _ rfl
    simp only [act] at ha
    split at ha
    · cases ha
      exact ⟨hd.start rfl hm rfl rfl, hf⟩
    · cases ha
  | read i =>
    simp only [act] at ha
    split at ha
    · rename_i hth
      split at ha
      · cases ha
      · cases ha
        exact ⟨one hth (by simp) rfl rfl rfl, hf⟩
    · cases ha
  | inode i idle =>
    simp only [act] at ha
    split at ha
    · rename_i st req key cur prev raw inc ex hth
      cases ha
      have go : ∀ inc ex, DI c (setPc s i ⟨st, .dead⟩ (.walk req key (rawNext s raw) (some cur) none inc ex)) ∧ s.faults = [] :=
        fun inc ex => ⟨one hth (by simp) rfl rfl rfl, hf⟩
      have fnd := ap_found hc hr hf h q hd hth idle
      unfold onInode
      simp only
      split
      · split
        · exact ⟨one (pc' := .dead) hth (by simp) rfl rfl rfl, hf⟩
        · cases req with
          | commit id =>
            simp only
            split
            · exact go _ _
            · split <;> exact go _ _
          | look want => simp only; split; exacts [fnd (by simp), go _ _]
          | write id o l => simp only; split; exacts [fnd (by simp), go _ _]
          | delete want => simp only; split; exacts [fnd (by simp), go _ _]
      · exact go _ _
    · cases ha
  | atEnd i idle => exact ap_end hc hr hf h q hd ha
  | signalled i =>
    simp only [act] at ha
    split at ha
    · rename_i st txn free tickets resp hth
      split at ha
      · obtain ⟨a', he⟩ := release_ok h hth rfl
        rw [he] at ha
        cases ha
        exact ⟨hd.move hth (by simp) rfl (by intro t' e; cases e; exact ⟨rfl, fun tk htk => .inl htk⟩) ⟨[], by simp [setPc]⟩, hf⟩
      · cases ha
    · cases ha
  | evict i =>
    simp only [act] at ha
    split at ha
    · rename_i st tk ks resp hth
      cases ha
      refine ⟨hd.move hth (by simp) rfl (by intro t' e; cases e; exact ⟨rfl, fun tk htk => .inl (List.mem_cons_of_mem _ htk)⟩) ⟨[], by simp [setPc]⟩, ?_⟩
      simp only [setPc, copyHeld_false hc hr hf h hd hth]
      simp [hf]
    · cases ha
  | respond i =>
    simp only [act] at ha
    split at ha
    · rename_i hth
      cases ha
      exact ⟨hd.calm hth (by simp) rfl (by simp) ⟨[], by simp [respond]⟩, hf⟩
    · cases ha
  | data i n skip bytes =>
    simp only [act] at ha
    split at ha
    · split at ha
      · split at ha
        · cases ha
          exact ⟨hd.same rfl rfl, hf⟩
        · cases ha
      · cases ha
    · cases ha
  | writeEnd i r =>
    simp only [act] at ha
    split at ha
    · rename_i hth
      cases ha
      exact ⟨hd.calm hth (by simp) rfl (by simp) ⟨[], by simp [respond]⟩, hf⟩
    · cases ha
  | drop i =>
    simp only [act] at ha
    split at ha
    · rename_i hth
      cases ha
      exact ⟨one (pc' := .dead) hth (by simp) rfl rfl rfl, hf⟩
    · rename_i hth
      cases ha
      exact ⟨one (pc' := .dead) hth (by simp) rfl rfl rfl, hf⟩
    · cases ha
  | cancel i n bytes => exact absurd rfl (hnc i n bytes)
  | orphan n =>
    simp only [act] at ha
    split at ha
    · cases ha
      exact ⟨hd.same rfl rfl, hf⟩
    · cases ha

theorem ApartReach.reach {s : LSt} (h : ApartReach c s) : Reach c s := by
  induction h with
  | fresh h => exact .fresh h
  | act a _ ha _ _ ih => exact .step ih (.act a ha)
  | journal _ hj hh ih => exact .step ih (.journal hj hh)

theorem apart_inv (hc : c.Ok) {s : LSt} (h : ApartReach c s) : DI c s ∧ s.faults = [] := by
  induction h with
  | fresh h =>
    unfold fresh at h
    split at h
    · cases h
      exact ⟨⟨by simp, by simp⟩, rfl⟩
    · cases h
  | act a hr ha hst hnc ih => exact ap_act hc hr.reach ih.2 ih.1 ha hst hnc
  | journal _ hj hh ih => exact ⟨ih.1.same rfl rfl, ih.2⟩

/-- no fault is recorded in executions that keep the calls of a bucket apart -/
theorem apart_faults (hc : c.Ok) {s : LSt} (h : ApartReach c s) : s.faults = [] := (apart_inv hc h).2

/-- one call at a time is such an execution -/
theorem SeqReach.apart {s : LSt} (h : SeqReach c s) : ApartReach c s := by
  induction h with
  | fresh h => exact .fresh h
  | act a _ ha hst hnc ih =>
    refine .act a ih ha ?_ hnc
    intro call hcall i t hi hl
    have : a.starts := by cases a <;> trivial
    exact absurd (hst this i t hi) hl
  | journal _ hj hh ih => exact .journal ih hj hh

end
/-! ## Running particular executions -/

/-- `MayStart`, computed -/
def mayStartB (c : LCfg) (s : LSt) (call : Call) : Bool := (List.range s.nextCall).all (fun i => match s.thr i with
  | some ⟨st, pc⟩ => (match pc with | .dead => true | _ => false) || (c.bkt (callKey st.call) != c.bkt (callKey call) || (!callChanges call && !callChanges st.call))
  | none => true)

theorem mayStartB_ok {c : LCfg} {s : LSt} {call : Call} (h : mayStartB c s call = true) (hb : ∀ i t, s.thr i = some t → i < s.nextCall) :
    MayStart c s call := by
  intro i t ht hl hk
  have := List.all_eq_true.1 h i (List.mem_range.2 (hb i t ht))
  rw [ht] at this
  obtain ⟨st, pc⟩ := t
  simp only [Bool.or_eq_true, bne_iff_ne, Bool.and_eq_true, Bool.not_eq_true'] at this
  rcases this with h1 | h1 | h1
  · cases pc <;> first | exact absurd rfl hl | cases h1
  · exact absurd hk h1
  · exact h1

/-- like `exec`, keeping the calls of a bucket apart -/
def execApart (c : LCfg) (s : LSt) : Cmd → Option LSt
  | .a (.create k n as cr id) => if mayStartB c s (.create k n) then exec c s (.a (.create k n as cr id)) else none
  | .a (.lookup r k) => if mayStartB c s (.lookup r k) then exec c s (.a (.lookup r k)) else none
  | .a (.cancel ..) => none
  | x => exec c s x

def runApart (c : LCfg) (s : LSt) (xs : List Cmd) : Option LSt := xs.foldlM (execApart c) s

theorem runApart_reach {c : LCfg} {s s' : LSt} {xs : List Cmd} (hs : ApartReach c s) (h : runApart c s xs = some s') : ApartReach c s' := by
  induction xs generalizing s with
  | nil => cases h; exact hs
  | cons x xs ih =>
    unfold runApart at h
    rw [List.foldlM_cons] at h
    simp only [Option.bind_eq_bind, Option.bind_eq_some_iff] at h
    obtain ⟨s1, h1, h2⟩ := h
    refine ih ?_ h2
    have hb : ∀ i t, s.thr i = some t → i < s.nextCall := fun i t ht => ((reach_ai hs.reach).thr i t ht).1
    have he : exec c s x = some s1 ∧ (∀ a, x = .a a → ∀ call, actCall a = some call → mayStartB c s call = true) ∧ (∀ i n bs, x ≠ .a (.cancel i n bs)) := by
      cases x with
      | a y =>
        cases y <;> simp only [execApart] at h1 <;> first
          | (split at h1
             · rename_i hid
               refine ⟨h1, ?_, fun _ _ _ => by simp⟩
               intro a e call hcall
               cases e
               cases hcall
               exact hid
             · cases h1)
          | cases h1; done
          | (refine ⟨h1, ?_, fun _ _ _ => by simp⟩
             intro a e call hcall
             cases e
             cases hcall)
      | _ => exact ⟨h1, fun a e => by simp at e, fun _ _ _ => by simp⟩
    rcases exec_step he.1 with ⟨a, rfl, ha⟩ | ⟨j', h3, h4, rfl⟩
    · exact .act a hs ha (fun call hcall => mayStartB_ok (he.2.1 a rfl call hcall) hb) (fun i n bs e => he.2.2 i n bs (by rw [e]))
    · exact .journal hs h3 h4

def qapart (xs : List Cmd) : Option LSt := (r0 0).bind (fun s => runApart qcfg s xs)

theorem qapart_reach {xs : List Cmd} {s : LSt} (h : qapart xs = some s) : ApartReach qcfg s := by
  obtain ⟨s0, h1, h2⟩ := Option.bind_eq_some_iff.1 h
  have e : ∀ m, fresh qcfg m = fresh (rcfg 0) m := fun m => by unfold fresh; rfl
  exact runApart_reach (.fresh (c := qcfg) (s := s0) (dev := fun _ => 0) (((e _).trans (r0_fresh 0)).trans h1)) h2

end Lite
end Blobd
