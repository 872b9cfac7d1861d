import Verif.Proofs.LiteIso
set_option autoImplicit false
/-! # What an action does to calls, answers and ids -/
namespace Blobd
namespace Lite

/-- the running call that acts -/
def Act.by : Act → Option Nat
  | .create .. => none
  | .lookup .. => none
  | .orphan _ => none
  | .createWritten i => some i
  | .createLink i _ => some i
  | .read i => some i
  | .inode i _ => some i
  | .atEnd i _ => some i
  | .signalled i => some i
  | .evict i => some i
  | .respond i => some i
  | .data i _ _ _ => some i
  | .writeEnd i _ => some i
  | .drop i => some i
  | .cancel i _ _ => some i

/-- the id a running `create_object` call made up -/
def PC.news : PC → Option Nat
  | .createWrite o _ => some o.id
  | .createLink o _ => some o.id
  | _ => none

/-- the answer a call is about to give -/
def PC.res : PC → Option Resp
  | .wait _ _ _ r => some r
  | .evict _ r => some r
  | _ => none

inductive Eff (c : LCfg) (s s' : LSt) (a : Act) : Prop
  | silent : s'.thr = s.thr → s'.acks = s.acks → s'.ids = s.ids → Eff c s s' a
  | large (b : Ack) : s'.thr = s.thr → s'.acks = s.acks ++ [b] → b.resp = .tooLarge → s'.ids = s.ids → Eff c s s' a
  | start (t : Thread) : s'.thr = upd s.thr s.nextCall (some t) → s'.acks = s.acks →
      (s'.ids = s.ids ∧ t.pc.news = none ∨ ∃ id, id ∉ s.ids ∧ s'.ids = id :: s.ids ∧ t.pc.news = some id) → t.pc.res = none →
      (∀ k id ts, t.pc ≠ .writing k id ts) → Eff c s s' a
  | move (i : Nat) (t : Thread) (pc' : PC) : a.by = some i → s.thr i = some t → s'.thr = upd s.thr i (some ⟨t.start, pc'⟩) → s'.acks = s.acks →
      s'.ids = s.ids → (pc'.news = none ∨ pc'.news = t.pc.news) → (∀ r, pc'.res = some (.written r) → t.pc.res = some (.written r)) →
      ((∃ k id ts, t.pc = .writing k id ts) → ¬ Act.starts a ∧ (∃ j, a = .drop j) ∨ ∃ j n b, a = .cancel j n b) → Eff c s s' a
  | answer (i : Nat) (t : Thread) (b : Ack) : a.by = some i → s.thr i = some t → s'.thr = upd s.thr i none → s'.acks = s.acks ++ [b] →
      b.start = t.start → s'.ids = s.ids → (b.resp = .written (.ok ()) → a = .writeEnd i (.ok ()) ∨ t.pc.res = some b.resp) →
      ((∃ k id ts, t.pc = .writing k id ts) → ∃ r, a = .writeEnd i r) → Eff c s s' a

section
variable {c : LCfg}

theorem commitTxn_fr (s : LSt) (idle : Bool) (ws : List (Nat × List Byte)) :
    (commitTxn c s idle ws).1.thr = s.thr ∧ (commitTxn c s idle ws).1.acks = s.acks ∧ (commitTxn c s idle ws).1.ids = s.ids := by
  simp only [commitTxn]
  split <;> exact ⟨rfl, rfl, rfl⟩

theorem unlink_fr {s s1 : LSt} {b : Nat} {f : Found} {tk : Overlay.Ticket Cell} {ws : List (Nat × List Byte)} {free : List (Nat × Nat)}
    (h : unlink c s b f = some (s1, tk, ws, free)) : s1.thr = s.thr ∧ s1.acks = s.acks ∧ s1.ids = s.ids := by
  unfold unlink at h
  simp only at h
  split at h
  · cases h
  · split at h <;> · cases h; exact ⟨rfl, rfl, rfl⟩

theorem act_eff {s s' : LSt} {a : Act} (ha : act c s a = some s') : Eff c s s' a := by
  cases a with
  | create key size assoc created id =>
    have ha : create c s key size assoc created id = some s' := ha
    unfold create at ha
    split at ha
    · rename_i hcond
      split at ha
      · cases ha
      · simp only at ha
        split at ha
        · cases ha
          exact .large _ rfl rfl rfl rfl
        · split at ha
          · cases ha
            exact .start _ rfl rfl (.inl ⟨rfl, rfl⟩) rfl (by simp)
          · split at ha
            · cases ha
              exact .start _ rfl rfl (.inr ⟨id, hcond.2.2.2.2.2, rfl, rfl⟩) rfl (by simp)
            · cases ha
              exact .start _ rfl rfl (.inl ⟨rfl, rfl⟩) rfl (by simp)
    · cases ha
  | createWritten i =>
    simp only [act] at ha
    split at ha
    · rename_i hth
      cases ha
      exact .move i _ _ rfl hth rfl rfl rfl (.inr rfl) (by simp [PC.res]) (by simp)
    · cases ha
  | createLink i idle =>
    simp only [act] at ha
    split at ha
    · rename_i st o off hth
      split at ha
      · cases ha
        unfold link
        simp only
        generalize hq : commitTxn c _ idle _ = q
        have k := commitTxn_fr (c := c) (event { s with ov := ((s.ov.set (.head (c.bkt o.key)) off).1.set (.next o.id) (getHead c s (c.bkt o.key))).1 } i (.created o.key o.id o.size)) idle
          [(c.bkDev + bucketOff (c.bkt o.key), encHead off), (off + ObjectOffsets.nextNode, beBytes 6 (getHead c s (c.bkt o.key)))]
        rw [hq] at k
        exact .move i _ _ rfl hth (by show upd _ i _ = _; rw [k.1]; rfl) k.2.1 k.2.2 (.inl rfl) (by simp [PC.res]) (by simp)
      · cases ha
    · cases ha
  | lookup req key =>
    simp only [act] at ha
    split at ha
    · cases ha
      exact .start _ rfl rfl (.inl ⟨rfl, rfl⟩) rfl (by simp)
    · cases ha
  | read i =>
    simp only [act] at ha
    split at ha
    · rename_i hth
      split at ha
      · cases ha
      · cases ha
        exact .move i _ _ rfl hth rfl rfl rfl (.inl rfl) (by simp [PC.res]) (by simp)
    · cases ha
  | inode i idle =>
    simp only [act] at ha
    split at ha
    · rename_i st req key cur prev raw inc ex hth
      cases ha
      have go : ∀ inc ex, Eff c s (setPc s i ⟨st, .dead⟩ (.walk req key (rawNext s raw) (some cur) none inc ex)) (.inode i idle) :=
        fun inc ex => .move i _ _ rfl hth rfl rfl rfl (.inl rfl) (by simp [PC.res]) (by simp)
      have fnd : ∀ q f, Eff c s (onFound c s i ⟨st, .dead⟩ q key f idle) (.inode i idle) := by
        intro q f
        cases q with
        | look want => exact .answer i _ _ rfl hth rfl rfl rfl rfl (by simp) (by simp)
        | write wid offset len =>
          simp only [onFound]
          split
          · exact .answer i _ _ rfl hth rfl rfl rfl rfl (by simp) (by simp)
          · split
            · exact .move i _ _ rfl hth rfl rfl rfl (.inl rfl) (by simp [PC.res]) (by simp)
            · exact .move i _ _ rfl hth rfl rfl rfl (.inl rfl) (by simp [PC.res]) (by simp)
        | delete want =>
          simp only [onFound]
          split
          · exact .move i _ _ rfl hth rfl rfl rfl (.inl rfl) (by simp [PC.res]) (by simp)
          · rename_i s1 tk ws free hu
            obtain ⟨u1, u2, u3⟩ := unlink_fr hu
            have k := commitTxn_fr (c := c) (event s1 i (.removed key want (rdId (ofBytes f.raw) 0))) idle ws
            refine .move i _ (.wait (commitTxn c (event s1 i (.removed key want (rdId (ofBytes f.raw) 0))) idle ws).2 free [tk] .deleted) rfl hth
              ?_ (k.2.1.trans u2) (k.2.2.trans u3) (.inl rfl) (by simp [PC.res]) (by simp)
            simp only [setPc]
            rw [k.1]; simp only [event, u1]
        | commit id => exact .silent rfl rfl rfl
      unfold onInode
      simp only
      split
      · split
        · exact .move i _ _ rfl hth rfl rfl rfl (.inl rfl) (by simp [PC.res]) (by simp)
        · split
          · split
            · exact go _ _
            · split <;> exact go _ _
          · split
            · exact fnd _ _
            · exact go _ _
      · exact go _ _
    · cases ha
  | atEnd i idle =>
    simp only [act] at ha
    split at ha
    · rename_i st req key prev inc ex hth
      cases ha
      unfold onEnd
      cases req with
      | look want => exact .answer i _ _ rfl hth rfl rfl rfl rfl (by simp) (by simp)
      | write id o l => exact .answer i _ _ rfl hth rfl rfl rfl rfl (by simp) (by simp)
      | delete want => exact .answer i _ _ rfl hth rfl rfl rfl rfl (by simp) (by simp)
      | commit id =>
        cases inc with
        | none => exact .answer i _ _ rfl hth rfl rfl rfl rfl (by simp) (by simp)
        | some f =>
          have fin : ∀ {s1 : LSt} (tickets : List (Overlay.Ticket Cell)) (ws : List (Nat × List Byte)) (free : List (Nat × Nat)),
              (s1.thr = s.thr ∧ s1.acks = s.acks ∧ s1.ids = s.ids) →
              Eff c s (setPc (commitTxn c (event { s1 with ov := (s1.ov.set (.state id) stCommitted).1 } i (.committed key id)) idle ws).1 i ⟨st, .dead⟩
                (.wait (commitTxn c (event { s1 with ov := (s1.ov.set (.state id) stCommitted).1 } i (.committed key id)) idle ws).2 free tickets .committed))
                (.atEnd i idle) := by
            intro s1 tickets ws free ⟨u1, u2, u3⟩
            have k := commitTxn_fr (c := c) (event { s1 with ov := (s1.ov.set (.state id) stCommitted).1 } i (.committed key id)) idle ws
            refine .move i _ (.wait (commitTxn c (event { s1 with ov := (s1.ov.set (.state id) stCommitted).1 } i (.committed key id)) idle ws).2
              free tickets .committed) rfl hth ?_ (k.2.1.trans u2) (k.2.2.trans u3) (.inl rfl) (by simp [PC.res]) (by simp)
            simp only [setPc]
            rw [k.1]; simp only [event, u1]
          cases ex with
          | none => exact fin _ _ _ ⟨rfl, rfl, rfl⟩
          | some e =>
            simp only
            split
            · exact .move i _ _ rfl hth rfl rfl rfl (.inl rfl) (by simp [PC.res]) (by simp)
            · rename_i s1 tk ws free hd
              split at hd
              · cases hd; exact fin _ _ _ ⟨rfl, rfl, rfl⟩
              · rw [Option.map_eq_some_iff] at hd
                obtain ⟨⟨s1', tk', ws', free'⟩, hu, hd⟩ := hd
                cases hd
                exact fin _ _ _ (unlink_fr hu)
    · cases ha
  | signalled i =>
    simp only [act] at ha
    split at ha
    · rename_i hth
      split at ha
      · split at ha
        · cases ha
          exact .move i _ _ rfl hth rfl rfl rfl (.inl rfl) (fun r h => h) (by simp)
        · cases ha
          exact .move i _ _ rfl hth rfl rfl rfl (.inl rfl) (by simp [PC.res]) (by simp)
      · cases ha
    · cases ha
  | evict i =>
    simp only [act] at ha
    split at ha
    · rename_i hth
      cases ha
      exact .move i _ _ rfl hth rfl rfl rfl (.inl rfl) (fun r h => h) (by simp)
    · cases ha
  | respond i =>
    simp only [act] at ha
    split at ha
    · rename_i hth
      cases ha
      exact .answer i _ _ rfl hth rfl rfl rfl rfl (fun h => .inr rfl) (by simp)
    · cases ha
  | data i n skip bytes =>
    simp only [act] at ha
    split at ha
    · split at ha
      · split at ha
        · cases ha
          exact .silent rfl rfl rfl
        · cases ha
      · cases ha
    · cases ha
  | writeEnd i r =>
    simp only [act] at ha
    split at ha
    · rename_i hth
      cases ha
      exact .answer i _ _ rfl hth rfl rfl rfl rfl (fun h => .inl (by simp only [Resp.written.injEq] at h; rw [h])) (fun _ => ⟨r, rfl⟩)
    · cases ha
  | drop i =>
    simp only [act] at ha
    split at ha
    · rename_i hth
      cases ha
      exact .move i _ _ rfl hth rfl rfl rfl (.inl rfl) (by simp [PC.res]) (by simp)
    · rename_i hth
      cases ha
      exact .move i _ _ rfl hth rfl rfl rfl (.inl rfl) (by simp [PC.res]) (fun _ => .inl ⟨fun h => h, i, rfl⟩)
    · cases ha
  | cancel i n bytes =>
    simp only [act] at ha
    split at ha
    · rename_i hth
      split at ha
      · split at ha
        · cases ha
          exact .move i _ _ rfl hth rfl rfl rfl (.inl rfl) (by simp [PC.res]) (fun _ => .inr ⟨i, n, bytes, rfl⟩)
        · cases ha
      · cases ha
    · cases ha
  | orphan n =>
    simp only [act] at ha
    split at ha
    · cases ha
      exact .silent rfl rfl rfl
    · cases ha

end
end Lite
end Blobd
