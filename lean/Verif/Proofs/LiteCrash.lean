import Verif.Proofs.LiteStart
set_option autoImplicit false
/-! # What one action does to the journal -/
namespace Blobd
namespace Lite
open Spec

theorem commitTxn_eff {c : LCfg} (s : LSt) (idle : Bool) (ws : List (Nat × List Byte)) :
    commitTxn c s idle ws = (s, none) ∨ ∃ t j', commitTxn c s idle ws = ({ s with j := j' }, some t.id) ∧
      Journal.commit c.jc idle t s.j = some j' ∧ t.id = s.j.hist.length ∧ (∀ o b, ws = [(o, [b])] → t.writes = [(o, [b])]) ∧
      (∀ w ∈ t.writes, w ∈ ws) := by
  have hin : ∀ (ws : List (Nat × List Byte)) (t : Journal.Txn), ∀ w ∈ (ws.foldl (fun t w => t.write w.1 w.2) t).writes, w ∈ t.writes ∨ w ∈ ws := by
    intro ws
    induction ws with
    | nil => intro t w hw; exact .inl hw
    | cons x ws ih =>
      intro t w hw
      rw [List.foldl_cons] at hw
      rcases ih _ w hw with hw | hw
      · unfold Journal.Txn.write at hw
        split at hw
        · exact .inl hw
        · rcases List.mem_append.1 hw with hw | hw
          · exact .inl hw
          · exact .inr (by rw [List.mem_singleton.1 hw]; simp)
      · exact .inr (List.mem_cons_of_mem _ hw)
  have hid : ∀ (ws : List (Nat × List Byte)) (t : Journal.Txn), (ws.foldl (fun t w => t.write w.1 w.2) t).id = t.id := by
    intro ws
    induction ws with
    | nil => intro t; rfl
    | cons w ws ih =>
      intro t
      rw [List.foldl_cons, ih]
      unfold Journal.Txn.write
      split <;> rfl
  unfold commitTxn
  simp only
  cases hcm : Journal.commit c.jc idle (List.foldl (fun t w => t.write w.1 w.2) { id := s.j.hist.length, writes := [] } ws) s.j with
  | none => exact .inl rfl
  | some j' => exact .inr ⟨_, j', rfl, hcm, hid _ _, by rintro o b rfl; simp [Journal.Txn.write],
      fun w hw => (hin _ _ w hw).resolve_left (by simp)⟩

def PC.waiting : PC → Option Nat
  | .wait (some n) _ _ _ => some n
  | _ => none

/-- no transaction is added; a call stops waiting only for an acknowledged transaction -/
def NoTxn (s s' : LSt) : Prop :=
  s'.j.hist = s.j.hist ∧ s'.j.acked = s.j.acked ∧
  ∀ k t n, s.thr k = some t → t.pc.waiting = some n → (∃ t', s'.thr k = some t' ∧ t'.pc.waiting = some n) ∨ n ∈ s.j.acked

/-- the event `e` of call `i` writes to the device at once: a commit that replaces an object with a predecessor -/
def Direct (c : LCfg) (s : LSt) (i : Nat) (e : Ev) : Prop :=
  c.versioning = false ∧ ∃ st id key prev inc f, s.thr i = some ⟨st, .walk (.commit id) key 0 prev none inc (some f)⟩ ∧ e = .committed key id ∧
    f.prev.isSome

/-- the event `e` of call `i` is a commit that replaces an object -/
def Replaces (c : LCfg) (s : LSt) (i : Nat) (e : Ev) : Prop :=
  c.versioning = false ∧ ∃ st id key prev inc f, s.thr i = some ⟨st, .walk (.commit id) key 0 prev none inc (some f)⟩ ∧ e = .committed key id

/-- changes of an object's state in a transaction are to "committed" -/
def Vals (t : Journal.Txn) : Prop := ∀ w ∈ t.writes, w.2.length = 1 → w.2 = leBytes 1 stCommitted

/-- one transaction is added, which call `i` waits for -/
def OneTxn (c : LCfg) (s s' : LSt) : Prop :=
  ∃ i e idle t m t0 t1, s'.lin = s.lin ++ [(i, e)] ∧ Journal.commit c.jc idle t { s.j with dev := m } = some s'.j ∧ t.id = s.j.hist.length ∧
    s.thr i = some t0 ∧ t0.pc.waiting = none ∧ s'.thr = upd s.thr i (some t1) ∧ t1.pc.waiting = some t.id ∧
    (m = s.j.dev ∨ Direct c s i e) ∧ s'.nextCall = s.nextCall ∧ s'.ids = s.ids ∧ s'.acks = s.acks ∧ s'.orphans = s.orphans ∧
    ((∃ k id, e = .committed k id) → Replaces c s i e ∨ ∃ o b, t.writes = [(o, [b])]) ∧ Vals t

theorem noTxn_of {s s' : LSt} (hj : s'.j.hist = s.j.hist ∧ s'.j.acked = s.j.acked) {i : Nat} {o : Option Thread} (hthr : s'.thr = upd s.thr i o)
    (hi : ∀ t n, s.thr i = some t → t.pc.waiting = some n → n ∈ s.j.acked) : NoTxn s s' := by
  refine ⟨hj.1, hj.2, ?_⟩
  intro k t n hk hw
  by_cases e : k = i
  · subst e; exact .inr (hi t n hk hw)
  · exact .inl ⟨t, by rw [hthr]; simp [upd, e, hk], hw⟩

theorem noTxn_same {s s' : LSt} (hj : s'.j.hist = s.j.hist ∧ s'.j.acked = s.j.acked) (hthr : s'.thr = s.thr) : NoTxn s s' :=
  ⟨hj.1, hj.2, fun k t n hk hw => .inl ⟨t, by rw [hthr]; exact hk, hw⟩⟩

theorem notWaiting {s : LSt} {i : Nat} {st : Begun} {pc : PC} (hth : s.thr i = some ⟨st, pc⟩) (h : pc.waiting = none) :
    ∀ t n, s.thr i = some t → t.pc.waiting = some n → n ∈ s.j.acked := by
  intro t n ht hw
  rw [hth] at ht
  cases ht
  rw [h] at hw
  cases hw

theorem unlink_j {c : LCfg} {s s1 : LSt} {b : Nat} {f : Found} {tk : Overlay.Ticket Cell} {ws : List (Nat × List Byte)} {free : List (Nat × Nat)}
    (h : unlink c s b f = some (s1, tk, ws, free)) : s1.thr = s.thr ∧ s1.lin = s.lin ∧
    (s1.nextCall = s.nextCall ∧ s1.ids = s.ids ∧ s1.acks = s.acks ∧ s1.orphans = s.orphans) ∧ ∃ m, s1.j = { s.j with dev := m } ∧
      (f.prev = none ∧ m = s.j.dev ∨ f.prev.isSome ∧ ws = []) ∧ ∀ w ∈ ws, w.2.length = 5 := by
  unfold unlink at h
  simp only at h
  split at h
  · cases h
  · split at h
    · rename_i hp
      cases h
      exact ⟨rfl, rfl, ⟨rfl, rfl, rfl, rfl⟩, _, rfl, .inr ⟨by rw [hp]; rfl, rfl⟩, by simp⟩
    · rename_i hp
      cases h
      exact ⟨rfl, rfl, ⟨rfl, rfl, rfl, rfl⟩, _, rfl, .inl ⟨hp, rfl⟩, by simp [encHead, length_beBytes]⟩

theorem found_j {c : LCfg} {s : LSt} {i : Nat} {t : Thread} {t0 : Thread} (hth : s.thr i = some t0) (hw : t0.pc.waiting = none) (req : Req)
    (key : List Byte) (f : Found) (idle : Bool) (hreq : ∀ id, req ≠ .commit id) :
    NoTxn s (onFound c s i t req key f idle) ∨ OneTxn c s (onFound c s i t req key f idle) := by
  have hnw := notWaiting (st := t0.start) (pc := t0.pc) hth hw
  cases req with
  | look want => exact .inl (noTxn_of ⟨rfl, rfl⟩ (i := i) (o := none) rfl hnw)
  | write id offset len =>
    simp only [onFound]
    split
    · exact .inl (noTxn_of ⟨rfl, rfl⟩ (i := i) (o := none) rfl hnw)
    · split
      · exact .inl (noTxn_of ⟨rfl, rfl⟩ (i := i) (o := some _) rfl hnw)
      · exact .inl (noTxn_of ⟨rfl, rfl⟩ (i := i) (o := some _) rfl hnw)
  | delete want =>
    simp only [onFound]
    split
    · exact .inl (noTxn_of ⟨rfl, rfl⟩ (i := i) (o := some _) rfl hnw)
    · rename_i s1 tk ws free hu
      obtain ⟨e1, e2, e5, m, e3, e4, e6⟩ := unlink_j hu
      rcases commitTxn_eff (c := c) (event s1 i (.removed key want (rdId (ofBytes f.raw) 0))) idle ws with e | ⟨tx, j', f1, f2, f3, f4, f5⟩
      · refine .inl (noTxn_of ?_ (i := i) (o := some ⟨t.start, .wait none free [tk] .deleted⟩) ?_ hnw)
        · rw [e]; simp [setPc, event, e3]
        · rw [e]; simp [setPc, event, e1]
      · rcases e4 with ⟨_, e4⟩ | ⟨_, e4⟩
        · refine .inr ⟨i, .removed key want (rdId (ofBytes f.raw) 0), idle, tx, m, t0, ⟨t.start, .wait (some tx.id) free [tk] .deleted⟩, ?_, ?_, ?_, hth,
            hw, ?_, rfl, .inl e4, ?_⟩
          · rw [f1]; simp [setPc, event, e2]
          · rw [f1]
            simp only [event, e3] at f2
            exact f2
          · rw [f3]; simp [event, e3]
          · rw [f1]; simp [setPc, event, e1]
          · rw [f1]
            refine ⟨by simp [setPc, event, e5], by simp [setPc, event, e5], by simp [setPc, event, e5], by simp [setPc, event, e5], ?_, ?_⟩
            · rintro ⟨k, id, h⟩
              cases h
            · intro w hw hl
              have := e6 w (f5 w hw)
              omega
        · subst e4
          rw [commitTxn_nil] at f1
          simp only [Prod.mk.injEq] at f1
          cases f1.2
  | commit id => exact absurd rfl (hreq id)

theorem act_j {c : LCfg} {s s' : LSt} {a : Act} (ha : act c s a = some s') (hb : ∀ i t, s.thr i = some t → i < s.nextCall) :
    NoTxn s s' ∨ OneTxn c s s' := by
  have hnew : ∀ t n, s.thr s.nextCall = some t → t.pc.waiting = some n → n ∈ s.j.acked := by
    intro t n ht
    exact absurd (hb _ _ ht) (Nat.lt_irrefl _)
  cases a with
  | create key size assoc created id =>
    have ha : create c s key size assoc created id = some s' := ha
    unfold create at ha
    split at ha
    · split at ha
      · cases ha
      · simp only at ha
        split at ha
        · cases ha
          exact .inl (noTxn_same ⟨rfl, rfl⟩ rfl)
        · split at ha
          · cases ha
            exact .inl (noTxn_of ⟨rfl, rfl⟩ (i := s.nextCall) (o := some _) rfl hnew)
          · split at ha
            · cases ha
              exact .inl (noTxn_of ⟨rfl, rfl⟩ (i := s.nextCall) (o := some _) rfl hnew)
            · cases ha
              exact .inl (noTxn_of ⟨rfl, rfl⟩ (i := s.nextCall) (o := some _) rfl hnew)
    · cases ha
  | createWritten i =>
    simp only [act] at ha
    split at ha <;> cases ha
    rename_i hth
    exact .inl (noTxn_of ⟨rfl, rfl⟩ (i := i) (o := some _) rfl (notWaiting hth rfl))
  | createLink i idle =>
    simp only [act] at ha
    split at ha
    · rename_i st o off hth
      split at ha
      · cases ha
        have hnw := notWaiting hth rfl
        unfold link
        simp only
        rcases commitTxn_eff (c := c) (event { s with ov := ((s.ov.set (.head (c.bkt o.key)) off).1.set (.next o.id) (getHead c s (c.bkt o.key))).1 } i
          (.created o.key o.id o.size)) idle [(c.bkDev + bucketOff (c.bkt o.key), encHead off),
            (off + ObjectOffsets.nextNode, beBytes 6 (getHead c s (c.bkt o.key)))] with e | ⟨tx, j', f1, f2, f3, f4, f5⟩
        · rw [e]
          exact .inl (noTxn_of ⟨rfl, rfl⟩ (i := i) (o := some _) rfl hnw)
        · rw [f1]
          exact .inr ⟨i, _, idle, tx, s.j.dev, _, _, rfl, f2, f3, hth, rfl, rfl, rfl, .inl rfl, rfl, rfl, rfl, rfl, (by rintro ⟨k, id, h⟩; cases h),
            by
              intro w hw hl
              have := f5 w hw
              simp only [List.mem_cons, List.not_mem_nil, or_false] at this
              rcases this with rfl | rfl <;> simp [encHead, length_beBytes] at hl⟩
      · cases ha
    · cases ha
  | lookup req key =>
    simp only [act] at ha
    split at ha <;> cases ha
    exact .inl (noTxn_of ⟨rfl, rfl⟩ (i := s.nextCall) (o := some _) rfl hnew)
  | read i =>
    simp only [act] at ha
    split at ha
    · rename_i hth
      split at ha <;> cases ha
      exact .inl (noTxn_of ⟨rfl, rfl⟩ (i := i) (o := some _) rfl (notWaiting hth rfl))
    · cases ha
  | inode i idle =>
    simp only [act] at ha
    split at ha
    · rename_i st req key cur prev raw inc ex hth
      cases ha
      have hnw := notWaiting hth rfl
      have go : ∀ pc, NoTxn s (setPc s i ⟨st, .dead⟩ pc) := fun pc => noTxn_of ⟨rfl, rfl⟩ (i := i) (o := some _) rfl hnw
      unfold onInode
      simp only
      split
      · split
        · exact .inl (go _)
        · cases req with
          | commit id =>
            simp only
            split
            · exact .inl (go _)
            · split <;> exact .inl (go _)
          | look want =>
            simp only
            split
            · exact found_j hth rfl _ _ _ _ (by simp)
            · exact .inl (go _)
          | write id o n =>
            simp only
            split
            · exact found_j hth rfl _ _ _ _ (by simp)
            · exact .inl (go _)
          | delete want =>
            simp only
            split
            · exact found_j hth rfl _ _ _ _ (by simp)
            · exact .inl (go _)
      · exact .inl (go _)
    · cases ha
  | atEnd i idle =>
    simp only [act] at ha
    split at ha
    · rename_i st req key prev inc ex hth
      cases ha
      have hnw := notWaiting hth rfl
      cases req with
      | look want => exact .inl (noTxn_of ⟨rfl, rfl⟩ (i := i) (o := none) rfl hnw)
      | write id o n => exact .inl (noTxn_of ⟨rfl, rfl⟩ (i := i) (o := none) rfl hnw)
      | delete want => exact .inl (noTxn_of ⟨rfl, rfl⟩ (i := i) (o := none) rfl hnw)
      | commit id =>
        simp only [onEnd]
        cases inc with
        | none => exact .inl (noTxn_of ⟨rfl, rfl⟩ (i := i) (o := none) rfl hnw)
        | some f =>
          simp only
          have fin : ∀ (s1 : LSt) (tks : List (Overlay.Ticket Cell)) (ws : List (Nat × List Byte)) (free : List (Nat × Nat)) (m : Mem),
              s1.thr = s.thr → s1.lin = s.lin →
              (s1.nextCall = s.nextCall ∧ s1.ids = s.ids ∧ s1.acks = s.acks ∧ s1.orphans = s.orphans) → s1.j = { s.j with dev := m } → (m = s.j.dev ∨ Direct c s i (.committed key id)) →
              (Replaces c s i (.committed key id) ∨ ∃ o b, ws = [(o, [b])]) → (∀ w ∈ ws, w.2.length = 1 → w.2 = leBytes 1 stCommitted) →
              NoTxn s (setPc (commitTxn c (event { s1 with ov := (s1.ov.set (.state id) stCommitted).1 } i (.committed key id)) idle ws).1 i ⟨st, .dead⟩
                (.wait (commitTxn c (event { s1 with ov := (s1.ov.set (.state id) stCommitted).1 } i (.committed key id)) idle ws).2 free
                  ((s1.ov.set (.state id) stCommitted).2 :: tks) .committed)) ∨
              OneTxn c s (setPc (commitTxn c (event { s1 with ov := (s1.ov.set (.state id) stCommitted).1 } i (.committed key id)) idle ws).1 i ⟨st, .dead⟩
                (.wait (commitTxn c (event { s1 with ov := (s1.ov.set (.state id) stCommitted).1 } i (.committed key id)) idle ws).2 free
                  ((s1.ov.set (.state id) stCommitted).2 :: tks) .committed)) := by
            intro s1 tks ws free m e1 e2 e5 e3 e4 e6 e7
            rcases commitTxn_eff (c := c) (event { s1 with ov := (s1.ov.set (.state id) stCommitted).1 } i (.committed key id)) idle ws with
              e | ⟨tx, j', f1, f2, f3, f4, f5⟩
            · rw [e]
              refine .inl (noTxn_of ?_ (i := i) (o := some _) (by simp only [setPc, event, e1]; rfl) hnw)
              simp [setPc, event, e3]
            · rw [f1]
              refine .inr ⟨i, .committed key id, idle, tx, m, _, _, by simp [setPc, event, e2], ?_, ?_, hth, rfl, by simp only [setPc, event, e1]; rfl,
                rfl, e4, by simp [setPc, event, e5], by simp [setPc, event, e5], by simp [setPc, event, e5], by simp [setPc, event, e5],
                (fun _ => e6.imp_right (fun ⟨o, b, h⟩ => ⟨o, b, f4 o b h⟩)), fun w hw => e7 w (f5 w hw)⟩
              · simp only [event, e3] at f2
                exact f2
              · rw [f3]; simp [event, e3]
          cases ex with
          | none => exact fin s [] _ [] s.j.dev rfl rfl ⟨rfl, rfl, rfl, rfl⟩ rfl (.inl rfl) (.inr ⟨_, _, rfl⟩) (by simp)
          | some e =>
            cases hv : c.versioning with
            | true => exact fin s [] _ [] s.j.dev rfl rfl ⟨rfl, rfl, rfl, rfl⟩ rfl (.inl rfl) (.inr ⟨_, _, rfl⟩) (by simp)
            | false =>
              simp only [Bool.false_eq_true, if_false]
              cases hu : unlink c s (c.bkt key) e with
              | none => exact .inl (noTxn_of ⟨rfl, rfl⟩ (i := i) (o := some _) rfl hnw)
              | some r =>
                obtain ⟨s1, tk, ws, free⟩ := r
                obtain ⟨e1, e2, e5, m, e3, e4, e6⟩ := unlink_j hu
                refine fin s1 [tk] _ free m e1 e2 e5 e3 ?_ (.inl ⟨hv, st, id, key, prev, some f, e, hth, rfl⟩) ?_
                rotate_left
                · intro w hw hl
                  rcases List.mem_append.1 hw with hw | hw
                  · have := e6 w hw
                    omega
                  · rw [List.mem_singleton.1 hw]
                rcases e4 with ⟨_, e4⟩ | ⟨e4, _⟩
                · exact .inl e4
                · exact .inr ⟨hv, st, id, key, prev, some f, e, hth, rfl, e4⟩
    · cases ha
  | signalled i =>
    simp only [act] at ha
    split at ha
    · rename_i st txn free tickets resp hth
      split at ha
      · rename_i hack
        have hw : ∀ t n, s.thr i = some t → t.pc.waiting = some n → n ∈ s.j.acked := by
          intro t n ht hw
          rw [hth] at ht
          cases ht
          cases txn with
          | none => cases hw
          | some m =>
            simp only [PC.waiting, Option.some.injEq] at hw
            subst hw
            simpa using hack
        split at ha <;> cases ha <;> exact .inl (noTxn_of ⟨rfl, rfl⟩ (i := i) (o := some _) rfl hw)
      · cases ha
    · cases ha
  | evict i =>
    simp only [act] at ha
    split at ha <;> cases ha
    rename_i hth
    exact .inl (noTxn_of ⟨rfl, rfl⟩ (i := i) (o := some _) rfl (notWaiting hth rfl))
  | respond i =>
    simp only [act] at ha
    split at ha <;> cases ha
    rename_i hth
    exact .inl (noTxn_of ⟨rfl, rfl⟩ (i := i) (o := none) rfl (notWaiting hth rfl))
  | data i n skip bytes =>
    simp only [act] at ha
    split at ha
    · split at ha
      · split at ha <;> cases ha
        exact .inl (noTxn_same ⟨rfl, rfl⟩ rfl)
      · cases ha
    · cases ha
  | writeEnd i r =>
    simp only [act] at ha
    split at ha <;> cases ha
    rename_i hth
    exact .inl (noTxn_of ⟨rfl, rfl⟩ (i := i) (o := none) rfl (notWaiting hth rfl))
  | drop i =>
    simp only [act] at ha
    split at ha <;> cases ha <;> rename_i hth <;> exact .inl (noTxn_of ⟨rfl, rfl⟩ (i := i) (o := some _) rfl (notWaiting hth rfl))
  | cancel i n bytes =>
    simp only [act] at ha
    split at ha
    · rename_i hth
      split at ha
      · split at ha <;> cases ha
        exact .inl (noTxn_of ⟨rfl, rfl⟩ (i := i) (o := some _) rfl (notWaiting hth rfl))
      · cases ha
    · cases ha
  | orphan n =>
    simp only [act] at ha
    split at ha <;> cases ha
    exact .inl (noTxn_same ⟨rfl, rfl⟩ rfl)

/-- every pending transaction has a call that waits for it -/
theorem reach_waits {c : LCfg} (hc : c.Ok) {s : LSt} (hr : Reach c s) (hf : s.faults = []) :
    ∀ t ∈ unacked s.j, ∃ i th, s.thr i = some th ∧ th.pc.waiting = some t.id := by
  induction hr with
  | fresh h =>
    unfold fresh at h
    split at h
    · cases h
      intro t ht
      simp [unacked] at ht
    · cases h
  | @step s s' hr hs ih =>
    cases hs with
    | act a ha =>
      have hf0 := act_faults ha hf
      obtain ⟨base, v, leak, hi⟩ := reach_inv hc hr hf0
      have ih := ih hf0
      rcases act_j ha (fun i t ht => (hi.thr i t ht).1) with ⟨h1, h2, h3⟩ | ⟨i, e, idle, tx, m, t0, t1, g1, g2, g3, g4, g5, g6, g7, g8, _⟩
      · intro t ht
        have hu : unacked s'.j = unacked s.j := by unfold unacked; rw [h1, h2]
        rw [hu] at ht
        obtain ⟨k, th, k1, k2⟩ := ih t ht
        rcases h3 k th _ k1 k2 with ⟨t', e1, e2⟩ | e
        · exact ⟨k, t', e1, e2⟩
        · exact absurd e (hi.jinv.id_ge ht).1
      · obtain ⟨c1, c2⟩ := Overlay.commit_hist g2
        intro t ht
        have hu : unacked s'.j = unacked s.j ++ [tx] := by
          unfold unacked
          rw [c1, c2]
          exact List.drop_append_of_le_length hi.jinv.len
        rw [hu, List.mem_append, List.mem_singleton] at ht
        rcases ht with ht | rfl
        · obtain ⟨k, th, k1, k2⟩ := ih t ht
          refine ⟨k, th, ?_, k2⟩
          have hk : k ≠ i := by
            rintro rfl
            rw [g4] at k1
            cases k1
            rw [g5] at k2
            cases k2
          rw [g6]; simp [upd, hk, k1]
        · exact ⟨i, t1, by rw [g6]; simp [upd], g7⟩
    | journal hj hh =>
      obtain ⟨base, v, leak, hi⟩ := reach_inv hc hr hf
      obtain ⟨done, _, d2, _⟩ := hi.jinv.step hc.jok hj hh
      intro t ht
      exact ih hf t (by rw [d2]; simp [ht])

theorem unacked_drained {c : LCfg} {s : LSt} {base : Mem} (hj : JInv c.jc base s.j) (h : unacked s.j = []) : Drained s := by
  unfold unacked at h
  have := List.drop_eq_nil_iff.1 h
  have := hj.len
  unfold Drained
  omega

/-- when no call is waiting for the journal, the journal has nothing left to do -/
theorem drained_of_idle {c : LCfg} (hc : c.Ok) {s : LSt} (hr : Reach c s) (hf : s.faults = [])
    (hw : ∀ i t, s.thr i = some t → t.pc.waiting = none) : Drained s := by
  obtain ⟨base, v, leak, hi⟩ := reach_inv hc hr hf
  refine unacked_drained hi.jinv ?_
  rw [List.eq_nil_iff_forall_not_mem]
  intro t ht
  obtain ⟨i, th, h1, h2⟩ := reach_waits hc hr hf t ht
  rw [hw i th h1] at h2
  cases h2

/-! ## Calls one at a time -/

/-- while a call waits for the journal, no call can do anything -/
theorem stuck {c : LCfg} {s s' : LSt} (hs : SI s) (ho : s.orphans = []) {k : Nat} {th : Thread} {n : Nat} (hk : s.thr k = some th)
    (hw : th.pc.waiting = some n) (hn : n ∉ s.j.acked) {a : Act} (ha : act c s a = some s') (hst : a.starts → Idle s) : False := by
  obtain ⟨st0, pc⟩ := th
  have hpc : ∃ f tk r, pc = .wait (some n) f tk r := by
    cases pc with
    | wait txn f tk r =>
      cases txn with
      | none => cases hw
      | some m =>
        simp only [PC.waiting, Option.some.injEq] at hw
        exact ⟨f, tk, r, by rw [hw]⟩
    | _ => cases hw
  obtain ⟨f, tk, r, rfl⟩ := hpc
  have hsame : ∀ i st pc, s.thr i = some ⟨st, pc⟩ → pc ≠ .dead → pc = .wait (some n) f tk r := by
    intro i st pc hi hd
    have := hs.one i k _ _ hi hk hd (by simp)
    subst this
    rw [hi] at hk
    cases hk
    rfl
  have hidle : a.starts → False := fun h => by
    have := hst h k _ hk
    cases this
  cases a with
  | create => exact hidle trivial
  | lookup => exact hidle trivial
  | orphan n => simp [act, ho] at ha
  | signalled i =>
    simp only [act] at ha
    split at ha
    · rename_i hth
      have := hsame _ _ _ hth (by simp)
      cases this
      split at ha
      · rename_i hack
        exact hn (by simpa using hack)
      · cases ha
    · cases ha
  | drop i =>
    simp only [act] at ha
    split at ha
    · rename_i hth
      cases hsame _ _ _ hth (by simp)
    · rename_i hth
      cases hsame _ _ _ hth (by simp)
    · cases ha
  | _ =>
    simp only [act] at ha
    split at ha
    · rename_i hth
      cases hsame _ _ _ hth (by simp)
    · cases ha

theorem Direct.replaces {c : LCfg} {s : LSt} {i : Nat} {e : Ev} (h : Direct c s i e) : Replaces c s i e := by
  obtain ⟨hv, st, id, key, prev, inc, f, hth, h1, _⟩ := h
  exact ⟨hv, st, id, key, prev, inc, f, hth, h1⟩

theorem direct_replaces {c : LCfg} {s : LSt} {base : Mem} {v : V} {leak : List (Nat × Nat)} (hi : LInv c s base v leak) {s' : LSt} {i : Nat} {e : Ev}
    (hd : Replaces c s i e) (hl : s'.lin = s.lin ++ [(i, e)]) : ReplacingNow c s' := by
  obtain ⟨hv, st, id, key, prev, inc, f, hth, rfl⟩ := hd
  have hpc := (hi.thr i _ hth).2
  obtain ⟨vis, rest, h1, _, _, _, h5⟩ := hpc
  obtain ⟨_, a, r, d, q1, ⟨q2, q3, _⟩, _⟩ := h5
  refine ⟨hv, s.lin, i, key, id, absOf c v, hl, hi.abs, ?_⟩
  unfold Abs.find
  rw [List.find?_isSome]
  refine ⟨ver v.L r, ?_, ?_⟩
  · unfold absOf
    refine List.mem_map.2 ⟨r, List.mem_filter.2 ⟨?_, by simp [q2]⟩, rfl⟩
    rw [h1, q1]; simp
  · simp [ver, q3, wants]

/-- calls one at a time: either the journal has nothing to do, or it has one transaction, of an unanswered call, and the
part of the device it has applied is that of the state before that call's event -/
theorem seq_before {c : LCfg} (hc : c.Ok) {s : LSt} (h : SeqReach c s) : Drained s ∨ ∃ s0 p base, SeqReach c s0 ∧ Drained s0 ∧
    s.lin = s0.lin ++ [p] ∧ (s.nextCall = s0.nextCall ∧ s.ids = s0.ids ∧ s.acks = s0.acks) ∧ JInv c.jc base s.j ∧ (unacked s.j).length = 1 ∧
    ((∀ x, Journal.Outside c.jc x → base x = s0.j.dev x) ∨ ReplacingNow c s) ∧
    ((∃ k id, p.2 = .committed k id) → ReplacingNow c s ∨ ∃ t o b, unacked s.j = [t] ∧ t.writes = [(o, [b])]) := by
  induction h with
  | fresh h =>
    left
    unfold fresh at h
    split at h
    · cases h
      rfl
    · cases h
  | @act s s' a hs ha hst hnc ih =>
    obtain ⟨hsi, hf⟩ := seq_faults hc hs
    obtain ⟨base, v, leak, hi⟩ := reach_inv hc hs.reach hf
    have hs' := SeqReach.act a hs ha hst hnc
    rcases ih with hd | ⟨s0, p, base0, g1, g2, g3, g4, g5, g6, g7, g8⟩
    · rcases act_j ha (fun i t ht => (hi.thr i t ht).1) with ⟨h1, h2, h3⟩ | ⟨i, e, idle, tx, m, t0, t1, g1, g2, g3, g4, g5, g6, g7, g8, g9⟩
      · left
        unfold Drained at hd ⊢
        rw [h1, h2]; exact hd
      · right
        obtain ⟨c1, c2⟩ := Overlay.commit_hist g2
        have hu : unacked s'.j = [tx] := by
          unfold unacked
          rw [c1, c2]
          show List.drop s.j.acked.length (s.j.hist ++ [tx]) = _
          rw [show s.j.acked.length = s.j.hist.length from hd]
          simp
        obtain ⟨base', v', leak', hi'⟩ := reach_inv hc hs'.reach (seq_faults hc hs').2
        have htx : Journal.TxnOk c.jc tx := hi'.jinv.txnOk tx (by rw [hu]; simp)
        have hlast : (∃ k id, e = .committed k id) → ReplacingNow c s' ∨ ∃ t o b, unacked s'.j = [t] ∧ t.writes = [(o, [b])] := by
          intro he
          rcases g9.2.2.2.2.1 he with h | ⟨o, b, h⟩
          · exact .inl (direct_replaces hi h g1)
          · exact .inr ⟨tx, o, b, hu, h⟩
        rcases g8 with g8 | g8
        · subst g8
          obtain ⟨j1, _⟩ := hi.jinv.commit hc.jok htx g3 g2
          refine ⟨s, (i, e), base, hs, hd, g1, ⟨g9.1, g9.2.1, g9.2.2.1⟩, j1, by rw [hu]; rfl, .inl ?_, hlast⟩
          intro x hx
          have := hi.jinv.dev_eq hx (fun t ht => by rw [drained_unacked hd] at ht; cases ht)
          rw [this]
          unfold logical
          rw [drained_unacked hd]
          rfl
        · exact ⟨s, (i, e), base', hs, hd, g1, ⟨g9.1, g9.2.1, g9.2.2.1⟩, hi'.jinv, by rw [hu]; rfl, .inr (direct_replaces hi g8.replaces g1), hlast⟩
    · exfalso
      match hu : unacked s.j, g6 with
      | [t], _ =>
        obtain ⟨k, th, k1, k2⟩ := reach_waits hc hs.reach hf t (by rw [hu]; simp)
        exact stuck hsi hi.orph k1 k2 (hi.jinv.id_ge (by rw [hu]; simp)).1 ha hst
  | @journal s j' hs hj hh ih =>
    obtain ⟨hsi, hf⟩ := seq_faults hc hs
    rcases ih with hd | ⟨s0, p, base0, g1, g2, g3, g4, g5, g6, g7, g8⟩
    · left
      obtain ⟨base, v, leak, hi⟩ := reach_inv hc hs.reach hf
      obtain ⟨done, d1, d2, _⟩ := hi.jinv.step hc.jok hj hh
      rw [drained_unacked hd] at d2
      exact unacked_drained (s := { s with j := j' }) d1 (List.append_eq_nil_iff.1 d2.symm).2
    · obtain ⟨done, d1, d2, _⟩ := g5.step hc.jok hj hh
      by_cases hu : unacked j' = []
      · left
        exact unacked_drained (s := { s with j := j' }) d1 hu
      · right
        have hlen := congrArg List.length d2
        rw [g6, List.length_append] at hlen
        have : 0 < (unacked j').length := List.length_pos_iff.2 hu
        have hdone : done = [] := List.length_eq_zero_iff.1 (by omega)
        subst hdone
        refine ⟨s0, p, base0, g1, g2, g3, g4, d1, ?_, g7, ?_⟩
        · show (unacked j').length = 1
          simp at hlen; omega
        · intro hp
          refine (g8 hp).imp id ?_
          rintro ⟨t, o, b, k1, k2⟩
          exact ⟨t, o, b, (by rw [k1] at d2; simpa using d2.symm), k2⟩

end Lite
end Blobd
