import Verif.Spec.LiteRoom
import Verif.Proofs.LiteAcks
set_option autoImplicit false
/-! # Lite store: what a step does to the calls and to the journal -/
namespace Blobd
namespace Lite

/-- the event changes a bucket's list or an object's state -/
def Ev.alters : Ev → Prop
  | .created .. => True
  | .committed .. => True
  | .removed .. => True
  | _ => False

theorem makes_resp (resp : Resp) (id : Nat) (h : (PC.evict [] resp).makes = some id) : resp = .created id := by
  cases resp <;> cases h
  rfl

/-- how a call proceeds -/
inductive Moves (c : LCfg) (s s' : LSt) : PC → PC → List Ev → Prop
  | written {o off} : Moves c s s' (.createWrite o off) (.createLink o off) []
  | link {o off txn t1 t2} : canLock c s (c.bkt o.key) true = true → (∀ n, txn = some n → n < s'.j.hist.length) →
      Moves c s s' (.createLink o off) (.wait txn [] [t1, t2] (.created o.id)) [.created o.key o.id o.size]
  | read {req key cur prev inc ex raw} : Moves c s s' (.walk req key cur prev none inc ex) (.walk req key cur prev (some raw) inc ex) []
  | next {req key cur prev raw inc ex inc' ex'} :
      Moves c s s' (.walk req key cur prev (some raw) inc ex) (.walk req key (rawNext s raw) (some cur) none inc' ex') []
  | opens {req key cur prev raw inc ex id ts size} :
      Moves c s s' (.walk req key cur prev raw inc ex) (.writing key id ts) [.opened key id size]
  | change {req key cur prev raw inc ex txn free tickets r e} : req.exclusive = true → tickets.length ≤ 2 → e.key = key →
      (∀ n, txn = some n → n < s'.j.hist.length) →
      Moves c s s' (.walk req key cur prev raw inc ex) (.wait txn free tickets r) [e]
  | signalled {txn free ts r} : Moves c s s' (.wait txn free ts r) (.evict ts r) []
  | evict {k ks r} : Moves c s s' (.evict (k :: ks) r) (.evict ks r) []
  | dies {pc evs} : pc ≠ .dead → (∀ e ∈ evs, ¬ e.alters) → Moves c s s' pc .dead evs

inductive Did (c : LCfg) (s s' : LSt) : Prop
  | silent : s'.thr = s.thr → s'.lin = s.lin → s'.nextCall ≥ s.nextCall → Did c s s'
  | start (t : Thread) : s'.thr = upd s.thr s.nextCall (some t) → s'.lin = s.lin → (∀ txn free ts r, t.pc ≠ .wait txn free ts r) → Did c s s'
  | move (i : Nat) (t : Thread) (pc' : PC) (evs : List Ev) : s.thr i = some t → s'.thr = upd s.thr i (some ⟨t.start, pc'⟩) →
      s'.lin = s.lin ++ evs.map (fun e => (i, e)) → Moves c s s' t.pc pc' evs → Did c s s'
  | answer (i : Nat) (t : Thread) (evs : List Ev) (a : Ack) : s.thr i = some t → s'.thr = upd s.thr i none →
      s'.lin = s.lin ++ evs.map (fun e => (i, e)) → (∀ e ∈ evs, ¬ e.alters) → t.pc ≠ .dead → s'.acks = s.acks ++ [a] → a.id = i →
      (∀ id, t.pc.makes = some id → a.resp = .created id) → Did c s s'

section
variable {c : LCfg}

theorem fold_id (ws : List (Nat × List Byte)) (t : Journal.Txn) : (ws.foldl (fun t w => t.write w.1 w.2) t).id = t.id := by
  induction ws generalizing t with
  | nil => rfl
  | cons w ws ih =>
    rw [List.foldl_cons, ih]
    unfold Journal.Txn.write
    split <;> rfl

/-- what calls do to the journal -/
structure JAct (j j' : Journal.State) : Prop where
  phase : j'.phase = j.phase
  acked : j'.acked = j.acked
  hist : ∃ l, j'.hist = j.hist ++ l
  move : (j'.queue = j.queue ∧ ∃ l, j'.pending.txns = j.pending.txns ++ l) ∨ j'.queue = j.queue ++ [j.pending]

theorem JAct.refl {j j' : Journal.State} (h1 : j'.phase = j.phase) (h2 : j'.acked = j.acked) (h3 : j'.hist = j.hist) (h4 : j'.queue = j.queue)
    (h5 : j'.pending = j.pending) : JAct j j' := ⟨h1, h2, ⟨[], by simp [h3]⟩, .inl ⟨h4, [], by simp [h5]⟩⟩

theorem commitTxn_j (s : LSt) (idle : Bool) (ws : List (Nat × List Byte)) :
    JAct s.j (commitTxn c s idle ws).1.j ∧ ∀ n, (commitTxn c s idle ws).2 = some n → n < (commitTxn c s idle ws).1.j.hist.length := by
  simp only [commitTxn]
  split
  · exact ⟨.refl rfl rfl rfl rfl rfl, fun n h => by cases h⟩
  · rename_i j' hj
    unfold Journal.commit at hj
    split at hj
    · cases hj
    · simp only [Option.some.injEq] at hj
      subst hj
      refine ⟨?_, ?_⟩
      · split
        · exact ⟨rfl, rfl, ⟨_, rfl⟩, .inr rfl⟩
        · exact ⟨rfl, rfl, ⟨_, rfl⟩, .inl ⟨rfl, _, rfl⟩⟩
      · intro n hn
        rw [Option.some.injEq, fold_id] at hn
        subst hn
        simp only
        split <;> simp

/-- `unlink` leaves the journal's own state alone -/
theorem unlink_jq {s s1 : LSt} {b : Nat} {f : Found} {tk : Overlay.Ticket Cell} {ws : List (Nat × List Byte)} {free : List (Nat × Nat)}
    (h : unlink c s b f = some (s1, tk, ws, free)) : ∃ dev, s1.j = { s.j with dev := dev } := by
  unfold unlink at h
  simp only at h
  split at h
  · cases h
  · split at h
    · simp only [Option.some.injEq, Prod.mk.injEq] at h
      obtain ⟨rfl, _⟩ := h
      exact ⟨_, rfl⟩
    · simp only [Option.some.injEq, Prod.mk.injEq] at h
      obtain ⟨rfl, _⟩ := h
      exact ⟨_, rfl⟩

theorem JAct.dev {j j0 j' : Journal.State} {dev : Mem} (h : JAct j0 j') (e : j0 = { j with dev := dev }) : JAct j j' := by
  subst e
  exact ⟨h.phase, h.acked, h.hist, h.move⟩

abbrev DJ (c : LCfg) (s s' : LSt) : Prop := Did c s s' ∧ JAct s.j s'.j

theorem did_found {s : LSt} {i : Nat} {st : Begun} {req : Req} {key : List Byte} {cur : Nat} {prev : Option Nat} {raw : List Byte} {inc ex : Option Found}
    (hth : s.thr i = some ⟨st, .walk req key cur prev (some raw) inc ex⟩) {f : Found} (idle : Bool) (hreq : ∀ id, req ≠ .commit id) (pc : PC) :
    DJ c s (onFound c s i ⟨st, pc⟩ req key f idle) := by
  unfold onFound
  cases req with
  | look want =>
    exact ⟨.answer i _ [.found key want (rdId (ofBytes f.raw) 0) (rdSize (ofBytes f.raw) 0)] _ hth rfl rfl (by simp [Ev.alters]) (by simp) rfl rfl (by intro id h; cases h), .refl rfl rfl rfl rfl rfl⟩
  | write wid o l =>
    simp only
    split
    · exact ⟨.answer i _ [.opened key wid (rdSize (ofBytes f.raw) 0)] _ hth rfl rfl (by simp [Ev.alters]) (by simp) rfl rfl (by intro id h; cases h), .refl rfl rfl rfl rfl rfl⟩
    · split
      · exact ⟨.move i _ _ [.opened key wid (rdSize (ofBytes f.raw) 0)] hth rfl rfl (.dies (by simp) (by simp [Ev.alters])), .refl rfl rfl rfl rfl rfl⟩
      · exact ⟨.move i _ _ [.opened key wid (rdSize (ofBytes f.raw) 0)] hth rfl rfl .opens, .refl rfl rfl rfl rfl rfl⟩
  | delete want =>
    simp only
    split
    · exact ⟨.move i _ _ [] hth rfl (by simp [setPc]) (.dies (by simp) (by simp)), .refl rfl rfl rfl rfl rfl⟩
    · rename_i s1 tk ws free hu
      obtain ⟨u1, u2, u3, u4⟩ := unlink_same hu
      obtain ⟨dv, hdv⟩ := unlink_jq hu
      have k := commitTxn_same (c := c) (event s1 i (.removed key want (rdId (ofBytes f.raw) 0))) idle ws
      have kj := commitTxn_j (c := c) (event s1 i (.removed key want (rdId (ofBytes f.raw) 0))) idle ws
      refine ⟨.move i _ (.wait (commitTxn c (event s1 i (.removed key want (rdId (ofBytes f.raw) 0))) idle ws).2 free [tk] .deleted)
        [.removed key want (rdId (ofBytes f.raw) 0)] hth ?_ ?_ (.change rfl (by simp) rfl ?_), ?_⟩
      · show upd _ i _ = _
        rw [k.2.2.1]; simp only [event, u3]
      · exact k.1.trans (by simp [event, u1])
      · exact kj.2
      · exact kj.1.dev hdv
  | commit id => exact absurd rfl (hreq id)

theorem act_did {s s' : LSt} {a : Act} (ha : act c s a = some s') : DJ c s s' := by
  cases a with
  | create key size assoc created id =>
    have ha : create c s key size assoc created id = some s' := ha
    unfold create at ha
    split at ha
    · split at ha
      · cases ha
      · simp only at ha
        split at ha
        · cases ha
          exact ⟨.silent rfl rfl (Nat.le_succ _), .refl rfl rfl rfl rfl rfl⟩
        · split at ha
          · cases ha
            exact ⟨.start _ rfl rfl (by simp), .refl rfl rfl rfl rfl rfl⟩
          · split at ha
            · cases ha
              exact ⟨.start _ rfl rfl (by simp), .refl rfl rfl rfl rfl rfl⟩
            · cases ha
              exact ⟨.start _ rfl rfl (by simp), .refl rfl rfl rfl rfl rfl⟩
    · cases ha
  | createWritten i =>
    simp only [act] at ha
    split at ha
    · rename_i hth
      cases ha
      exact ⟨.move i _ _ [] hth rfl (by simp [setPc]) .written, .refl rfl rfl rfl rfl rfl⟩
    · cases ha
  | createLink i idle =>
    simp only [act] at ha
    split at ha
    · rename_i st o off hth
      split at ha
      · rename_i hlk
        cases ha
        unfold link
        simp only
        generalize hq : commitTxn c _ idle _ = q
        have k := commitTxn_same (c := c) (event { s with ov := ((s.ov.set (.head (c.bkt o.key)) off).1.set (.next o.id) (getHead c s (c.bkt o.key))).1 } i (.created o.key o.id o.size)) idle
          [(c.bkDev + bucketOff (c.bkt o.key), encHead off), (off + ObjectOffsets.nextNode, beBytes 6 (getHead c s (c.bkt o.key)))]
        have kj := commitTxn_j (c := c) (event { s with ov := ((s.ov.set (.head (c.bkt o.key)) off).1.set (.next o.id) (getHead c s (c.bkt o.key))).1 } i (.created o.key o.id o.size)) idle
          [(c.bkDev + bucketOff (c.bkt o.key), encHead off), (off + ObjectOffsets.nextNode, beBytes 6 (getHead c s (c.bkt o.key)))]
        rw [hq] at k kj
        exact ⟨.move i _ _ [.created o.key o.id o.size] hth (by show upd _ i _ = _; rw [k.2.2.1]; rfl) k.1 (.link hlk kj.2), kj.1⟩
      · cases ha
    · cases ha
  | lookup req key =>
    simp only [act] at ha
    split at ha
    · cases ha
      exact ⟨.start _ rfl rfl (by simp), .refl rfl rfl rfl rfl rfl⟩
    · cases ha
  | read i =>
    simp only [act] at ha
    split at ha
    · rename_i hth
      split at ha
      · cases ha
      · cases ha
        exact ⟨.move i _ _ [] hth rfl (by simp [setPc]) .read, .refl rfl rfl rfl rfl rfl⟩
    · cases ha
  | inode i idle =>
    simp only [act] at ha
    split at ha
    · rename_i st req key cur prev raw inc ex hth
      cases ha
      have go : ∀ inc ex, DJ c s (setPc s i ⟨st, .dead⟩ (.walk req key (rawNext s raw) (some cur) none inc ex)) :=
        fun inc ex => ⟨.move i _ _ [] hth rfl (by simp [setPc]) .next, .refl rfl rfl rfl rfl rfl⟩
      have fnd : (∀ id, req ≠ .commit id) → DJ c s (onFound c s i ⟨st, .dead⟩ req key ⟨cur, prev, raw⟩ idle) := fun h => did_found hth idle h .dead
      unfold onInode
      simp only
      split
      · split
        · exact ⟨.move i _ _ [] hth rfl (by simp [setPc]) (.dies (by simp) (by simp)), .refl rfl rfl rfl rfl rfl⟩
        · cases req with
          | commit id =>
            simp only
            split
            · exact go _ _
            · split <;> exact go _ _
          | look want => simp only; split; exacts [fnd (by simp), go _ _]
          | write id o l => simp only; split; exacts [fnd (by simp), go _ _]
          | delete want => simp only; split; exacts [fnd (by simp), go _ _]
      · exact go _ _
    · cases ha
  | atEnd i idle =>
    simp only [act] at ha
    split at ha
    · rename_i st req key prev inc ex hth
      cases ha
      unfold onEnd
      cases req with
      | look want => exact ⟨.answer i _ [.missing key want] _ hth rfl rfl (by simp [Ev.alters]) (by simp) rfl rfl (by intro id h; cases h), .refl rfl rfl rfl rfl rfl⟩
      | write id o l => exact ⟨.answer i _ [.refused key id] _ hth rfl rfl (by simp [Ev.alters]) (by simp) rfl rfl (by intro id h; cases h), .refl rfl rfl rfl rfl rfl⟩
      | delete want => exact ⟨.answer i _ [.missing key want] _ hth rfl rfl (by simp [Ev.alters]) (by simp) rfl rfl (by intro id h; cases h), .refl rfl rfl rfl rfl rfl⟩
      | commit id =>
        cases inc with
        | none => exact ⟨.answer i _ [.refused key id] _ hth rfl rfl (by simp [Ev.alters]) (by simp) rfl rfl (by intro id h; cases h), .refl rfl rfl rfl rfl rfl⟩
        | some f =>
          have fin : ∀ {s1 : LSt} (tickets : List (Overlay.Ticket Cell)) (ws : List (Nat × List Byte)) (free : List (Nat × Nat)), tickets.length ≤ 2 →
              (s1.lin = s.lin ∧ s1.nextCall = s.nextCall ∧ s1.thr = s.thr ∧ s1.acks = s.acks) → (∃ dev, s1.j = { s.j with dev := dev }) →
              DJ c s (setPc (commitTxn c (event { s1 with ov := (s1.ov.set (.state id) stCommitted).1 } i (.committed key id)) idle ws).1 i ⟨st, .dead⟩
                (.wait (commitTxn c (event { s1 with ov := (s1.ov.set (.state id) stCommitted).1 } i (.committed key id)) idle ws).2 free tickets .committed)) := by
            intro s1 tickets ws free htl ⟨u1, u2, u3, u4⟩ ⟨dv, hdv⟩
            have k := commitTxn_same (c := c) (event { s1 with ov := (s1.ov.set (.state id) stCommitted).1 } i (.committed key id)) idle ws
            have kj := commitTxn_j (c := c) (event { s1 with ov := (s1.ov.set (.state id) stCommitted).1 } i (.committed key id)) idle ws
            refine ⟨.move i _ (.wait (commitTxn c (event { s1 with ov := (s1.ov.set (.state id) stCommitted).1 } i (.committed key id)) idle ws).2 free tickets .committed)
              [.committed key id] hth ?_ ?_ (.change rfl htl rfl kj.2), ?_⟩
            · show upd _ i _ = _
              rw [k.2.2.1]; simp only [event, u3]
            · exact k.1.trans (by simp [event, u1])
            · exact kj.1.dev hdv
          cases ex with
          | none => exact fin _ _ _ (by simp) ⟨rfl, rfl, rfl, rfl⟩ ⟨s.j.dev, rfl⟩
          | some e =>
            simp only
            split
            · exact ⟨.move i _ _ [] hth rfl (by simp [setPc]) (.dies (by simp) (by simp)), .refl rfl rfl rfl rfl rfl⟩
            · rename_i s1 tk ws free hd
              split at hd
              · cases hd; exact fin _ _ _ (by simp) ⟨rfl, rfl, rfl, rfl⟩ ⟨s.j.dev, rfl⟩
              · rw [Option.map_eq_some_iff] at hd
                obtain ⟨⟨s1', tk', ws', free'⟩, hu, hd⟩ := hd
                cases hd
                exact fin _ _ _ (by simp) (unlink_same hu) (unlink_jq hu)
    · cases ha
  | signalled i =>
    simp only [act] at ha
    split at ha
    · rename_i hth
      split at ha
      · split at ha
        · cases ha
          exact ⟨.move i _ _ [] hth rfl (by simp [setPc]) .signalled, .refl rfl rfl rfl rfl rfl⟩
        · cases ha
          exact ⟨.move i _ _ [] hth rfl (by simp [setPc]) (.dies (by simp) (by simp)), .refl rfl rfl rfl rfl rfl⟩
      · cases ha
    · cases ha
  | evict i =>
    simp only [act] at ha
    split at ha
    · rename_i hth
      cases ha
      exact ⟨.move i _ _ [] hth rfl (by simp [setPc]) .evict, .refl rfl rfl rfl rfl rfl⟩
    · cases ha
  | respond i =>
    simp only [act] at ha
    split at ha
    · rename_i hth
      cases ha
      exact ⟨.answer i _ [] _ hth rfl (by simp [respond]) (by simp) (by simp) rfl rfl (makes_resp _), .refl rfl rfl rfl rfl rfl⟩
    · cases ha
  | data i n skip bytes =>
    simp only [act] at ha
    split at ha
    · split at ha
      · split at ha
        · cases ha
          exact ⟨.silent rfl rfl (Nat.le_refl _), .refl rfl rfl rfl rfl rfl⟩
        · cases ha
      · cases ha
    · cases ha
  | writeEnd i r =>
    simp only [act] at ha
    split at ha
    · rename_i hth
      cases ha
      exact ⟨.answer i _ [] _ hth rfl (by simp [respond]) (by simp) (by simp) rfl rfl (by intro id h; cases h), .refl rfl rfl rfl rfl rfl⟩
    · cases ha
  | drop i =>
    simp only [act] at ha
    split at ha
    · rename_i hth
      cases ha
      exact ⟨.move i _ _ [] hth rfl (by simp [setPc]) (.dies (by simp) (by simp)), .refl rfl rfl rfl rfl rfl⟩
    · rename_i hth
      cases ha
      exact ⟨.move i _ _ [] hth rfl (by simp [setPc]) (.dies (by simp) (by simp)), .refl rfl rfl rfl rfl rfl⟩
    · cases ha
  | cancel i n bytes =>
    simp only [act] at ha
    split at ha
    · rename_i hth
      split at ha
      · split at ha
        · cases ha
          exact ⟨.move i _ _ [] hth rfl (by simp [setPc]) (.dies (by simp) (by simp)), .refl rfl rfl rfl rfl rfl⟩
        · cases ha
      · cases ha
    · cases ha
  | orphan n =>
    simp only [act] at ha
    split at ha
    · cases ha
      exact ⟨.silent rfl rfl (Nat.le_refl _), .refl rfl rfl rfl rfl rfl⟩
    · cases ha

theorem step_did {s s' : LSt} (h : Step c s s') : Did c s s' := by
  cases h with
  | act a ha => exact (act_did ha).1
  | journal hj hh => exact .silent rfl rfl (Nat.le_refl _)

end
end Lite
end Blobd
