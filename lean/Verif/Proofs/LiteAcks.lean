import Verif.Spec.LiteStore
set_option autoImplicit false
/-! # Answers of the lite store: every answer is that of the call's one event -/
namespace Blobd
namespace Lite

def Says (call : Call) (resp : Resp) (own : List Ev) : Prop :=
  match call, resp with
  | .create key size, .created id => own = [.created key id size]
  | .create _ _, .tooLarge => own = []
  | .lookup (.look want) key, .found id size _ => own = [.found key want id size]
  | .lookup (.look want) key, .notFound => own = [.missing key want]
  | .lookup (.delete want) key, .deleted => ∃ id, own = [.removed key want id]
  | .lookup (.delete want) key, .notFound => own = [.missing key want]
  | .lookup (.commit id) key, .committed => own = [.committed key id]
  | .lookup (.commit id) key, .notFound => own = [.refused key id]
  | .lookup (.write id _ _) key, .written _ => ∃ size, own = [.opened key id size]
  | .lookup (.write id _ _) key, .notFound => own = [.refused key id]
  | _, _ => False

def own (lin : List (Nat × Ev)) (i n : Nat) : List Ev := ((lin.drop n).filter (fun e => e.1 = i)).map (·.2)

theorem own_append (lin l : List (Nat × Ev)) (i n : Nat) (h : n ≤ lin.length) : own (lin ++ l) i n = own lin i n ++ own l i 0 := by
  simp [own, List.drop_append_of_le_length h]

theorem own_events (i : Nat) (evs : List Ev) : own (evs.map (fun e => (i, e))) i 0 = evs := by
  unfold own
  rw [List.drop_zero, List.filter_eq_self.2 (by simp)]
  simp

theorem own_other {i j : Nat} (h : i ≠ j) (evs : List Ev) : own (evs.map (fun e => (i, e))) j 0 = [] := by
  unfold own
  rw [List.drop_zero, List.filter_eq_nil_iff.2 (by simp [h])]
  rfl

theorem explained_iff {lin : List (Nat × Ev)} {a : Ack} : Explained lin a ↔ Says a.start.call a.resp (own (lin.take a.stop) a.id a.start.at_) := by
  unfold Explained own
  rfl

/-- where a call may be, given its own events so far -/
def PcSays (call : Call) (own : List Ev) : PC → Prop
  | .createWrite o _ => own = [] ∧ call = .create o.key o.size
  | .createLink o _ => own = [] ∧ call = .create o.key o.size
  | .walk req key .. => own = [] ∧ call = .lookup req key
  | .writing key id _ => ∃ o l size, call = .lookup (.write id o l) key ∧ own = [.opened key id size]
  | .wait _ _ _ resp => Says call resp own
  | .evict _ resp => Says call resp own
  | .dead => True

structure AI (s : LSt) : Prop where
  ids : ∀ e ∈ s.lin, e.1 < s.nextCall
  thr : ∀ i t, s.thr i = some t → i < s.nextCall ∧ t.start.at_ ≤ s.lin.length ∧ PcSays t.start.call (own s.lin i t.start.at_) t.pc
  acks : ∀ a ∈ s.acks, a.start.at_ ≤ a.stop ∧ a.stop ≤ s.lin.length ∧ Explained s.lin a

theorem AI.build {s s' : LSt} (h : AI s) (i : Nat) (evs : List Ev) (hlin : s'.lin = s.lin ++ evs.map (fun e => (i, e)))
    (hn : s.nextCall ≤ s'.nextCall) (hi : i < s'.nextCall) (hthr : ∀ j, j ≠ i → s'.thr j = s.thr j)
    (ht : ∀ t, s'.thr i = some t → t.start.at_ ≤ s'.lin.length ∧ PcSays t.start.call (own s'.lin i t.start.at_) t.pc)
    (ha : s'.acks = s.acks ∨ ∃ t r, s'.acks = s.acks ++ [⟨i, t, s'.lin.length, r⟩] ∧ t.at_ ≤ s'.lin.length ∧ Says t.call r (own s'.lin i t.at_)) :
    AI s' := by
  have hlen : s.lin.length ≤ s'.lin.length := by rw [hlin]; simp
  have hold : ∀ a ∈ s.acks, a.start.at_ ≤ a.stop ∧ a.stop ≤ s'.lin.length ∧ Explained s'.lin a := by
    intro a ha
    obtain ⟨h1, h2, h3⟩ := h.acks a ha
    refine ⟨h1, by omega, ?_⟩
    rw [explained_iff] at h3 ⊢
    rw [hlin, List.take_append_of_le_length h2]
    exact h3
  refine ⟨?_, ?_, ?_⟩
  · intro e he
    rw [hlin, List.mem_append] at he
    rcases he with he | he
    · exact Nat.lt_of_lt_of_le (h.ids e he) hn
    · obtain ⟨_, _, rfl⟩ := List.mem_map.1 he
      exact hi
  · intro j t hj
    by_cases e : j = i
    · subst e; exact ⟨hi, ht t hj⟩
    · rw [hthr j e] at hj
      obtain ⟨h1, h2, h3⟩ := h.thr j t hj
      refine ⟨by omega, by omega, ?_⟩
      rw [hlin, own_append _ _ _ _ h2, own_other (fun x => e x.symm), List.append_nil]
      exact h3
  · rcases ha with ha | ⟨t, r, ha, h1, h2⟩
    · rw [ha]; exact hold
    · rw [ha]
      intro a hm
      rw [List.mem_append] at hm
      rcases hm with hm | hm
      · exact hold a hm
      · rw [List.mem_singleton] at hm
        subst hm
        refine ⟨h1, Nat.le_refl _, ?_⟩
        rw [explained_iff]
        simpa using h2

/-- call `i` moves on, with these events -/
theorem AI.move {s s' : LSt} (h : AI s) {i : Nat} {t : Thread} (hs : s.thr i = some t) (pc : PC) (evs : List Ev)
    (hlin : s'.lin = s.lin ++ evs.map (fun e => (i, e))) (hn : s'.nextCall = s.nextCall)
    (hthr : s'.thr = upd s.thr i (some ⟨t.start, pc⟩)) (ha : s'.acks = s.acks)
    (hp : PcSays t.start.call (own s.lin i t.start.at_ ++ evs) pc) : AI s' := by
  obtain ⟨h1, h2, h3⟩ := h.thr i t hs
  refine h.build i evs hlin (by omega) (by omega) ?_ ?_ (.inl ha)
  · intro j hj
    rw [hthr]; simp [upd, hj]
  · intro t' ht'
    rw [hthr] at ht'
    simp only [upd, if_true, Option.some.injEq] at ht'
    subst ht'
    refine ⟨by rw [hlin]; simp; omega, ?_⟩
    simp only
    rw [hlin, own_append _ _ _ _ h2, own_events]
    exact hp

/-- call `i` answers, after these events -/
theorem AI.answer {s s' : LSt} (h : AI s) {i : Nat} {t : Thread} (hs : s.thr i = some t) (r : Resp) (evs : List Ev)
    (hlin : s'.lin = s.lin ++ evs.map (fun e => (i, e))) (hn : s'.nextCall = s.nextCall)
    (hthr : s'.thr = upd s.thr i none) (ha : s'.acks = s.acks ++ [⟨i, t.start, s'.lin.length, r⟩])
    (hp : Says t.start.call r (own s.lin i t.start.at_ ++ evs)) : AI s' := by
  obtain ⟨h1, h2, h3⟩ := h.thr i t hs
  refine h.build i evs hlin (by omega) (by omega) ?_ ?_ (.inr ⟨_, _, ha, by rw [hlin]; simp; omega, ?_⟩)
  · intro j hj
    rw [hthr]; simp [upd, hj]
  · intro t' ht'
    rw [hthr] at ht'
    simp [upd] at ht'
  · rw [hlin, own_append _ _ _ _ h2, own_events]
    exact hp

theorem AI.none {s : LSt} (h : AI s) : own s.lin s.nextCall s.lin.length = [] := by simp [own]

/-- a call starts -/
theorem AI.start {s s' : LSt} (h : AI s) {call : Call} {pc : PC} (hlin : s'.lin = s.lin) (hn : s'.nextCall = s.nextCall + 1)
    (hthr : s'.thr = upd s.thr s.nextCall (some ⟨⟨call, s.lin.length⟩, pc⟩)) (ha : s'.acks = s.acks) (hp : PcSays call [] pc) : AI s' := by
  refine h.build s.nextCall [] (by simpa using hlin) (by omega) (by omega) ?_ ?_ (.inl ha)
  · intro j hj
    rw [hthr]; simp [upd, hj]
  · intro t' ht'
    rw [hthr] at ht'
    simp only [upd, if_true, Option.some.injEq] at ht'
    subst ht'
    refine ⟨by rw [hlin], ?_⟩
    simp only
    rw [hlin, h.none]
    exact hp

section
variable {c : LCfg}

theorem commitTxn_same (s : LSt) (idle : Bool) (ws : List (Nat × List Byte)) :
    (commitTxn c s idle ws).1.lin = s.lin ∧ (commitTxn c s idle ws).1.nextCall = s.nextCall ∧
    (commitTxn c s idle ws).1.thr = s.thr ∧ (commitTxn c s idle ws).1.acks = s.acks := by
  simp only [commitTxn]
  split <;> exact ⟨rfl, rfl, rfl, rfl⟩

theorem unlink_same {s s1 : LSt} {b : Nat} {f : Found} {tk : Overlay.Ticket Cell} {ws : List (Nat × List Byte)} {free : List (Nat × Nat)}
    (h : unlink c s b f = some (s1, tk, ws, free)) : s1.lin = s.lin ∧ s1.nextCall = s.nextCall ∧ s1.thr = s.thr ∧ s1.acks = s.acks := by
  unfold unlink at h
  simp only at h
  split at h
  · cases h
  · split at h
    · simp only [Option.some.injEq, Prod.mk.injEq] at h
      obtain ⟨rfl, _⟩ := h
      exact ⟨rfl, rfl, rfl, rfl⟩
    · simp only [Option.some.injEq, Prod.mk.injEq] at h
      obtain ⟨rfl, _⟩ := h
      exact ⟨rfl, rfl, rfl, rfl⟩

theorem ai_found {s : LSt} (h : AI s) {i : Nat} {t : Thread} (hs : s.thr i = some t) {st : Begun} (hst : t.start = st) {req : Req} {key : List Byte}
    {f : Found} (idle : Bool) (ho : own s.lin i t.start.at_ = []) (hcl : t.start.call = .lookup req key) (pc : PC) :
    AI (onFound c s i ⟨st, pc⟩ req key f idle) := by
  subst hst
  unfold onFound
  cases req with
  | look want => exact h.answer hs _ [.found key want (rdId (ofBytes f.raw) 0) (rdSize (ofBytes f.raw) 0)] rfl rfl rfl rfl (by rw [ho, hcl]; rfl)
  | write wid o l =>
    simp only
    split
    · exact h.answer hs _ [.opened key wid (rdSize (ofBytes f.raw) 0)] rfl rfl rfl rfl (by rw [ho, hcl]; exact ⟨_, rfl⟩)
    · split
      · exact h.move hs _ [.opened key wid (rdSize (ofBytes f.raw) 0)] rfl rfl rfl rfl trivial
      · exact h.move hs _ [.opened key wid (rdSize (ofBytes f.raw) 0)] rfl rfl rfl rfl (by rw [ho, hcl]; exact ⟨_, _, _, rfl, rfl⟩)
  | delete want =>
    simp only
    split
    · exact h.move hs _ [] (by simp [setPc]) rfl rfl rfl trivial
    · rename_i s1 tk ws free hu
      obtain ⟨u1, u2, u3, u4⟩ := unlink_same hu
      have k := commitTxn_same (c := c) (event s1 i (.removed key want (rdId (ofBytes f.raw) 0))) idle ws
      refine h.move hs (.wait (commitTxn c (event s1 i (.removed key want (rdId (ofBytes f.raw) 0))) idle ws).2 free [tk] .deleted) [.removed key want (rdId (ofBytes f.raw) 0)] ?_ ?_ ?_ ?_ ?_
      · exact k.1.trans (by simp [event, u1])
      · exact k.2.1.trans u2
      · show upd _ i _ = _
        rw [k.2.2.1]; simp only [event, u3]
      · exact k.2.2.2.trans u4
      · rw [ho, hcl]; exact ⟨_, rfl⟩
  | commit id => exact h

theorem ai_act {s s' : LSt} (h : AI s) {a : Act} (ha : act c s a = some s') : AI s' := by
  cases a with
  | create key size assoc created id =>
    have ha : create c s key size assoc created id = some s' := ha
    unfold create at ha
    split at ha
    · split at ha
      · cases ha
      · simp only at ha
        split at ha
        · cases ha
          refine h.build s.nextCall [] (by simp) (by simp) (by simp) (fun _ _ => rfl) ?_ (.inr ⟨_, _, rfl, Nat.le_refl _, ?_⟩)
          · intro t ht
            have := (h.thr _ t ht).1
            omega
          · simp only [h.none]; rfl
        · split at ha
          · cases ha
            exact h.start rfl rfl rfl rfl trivial
          · split at ha
            · cases ha
              exact h.start rfl rfl rfl rfl ⟨rfl, rfl⟩
            · cases ha
              exact h.start rfl rfl rfl rfl trivial
    · cases ha
  | createWritten i =>
    simp only [act] at ha
    split at ha
    · rename_i hth
      cases ha
      exact h.move hth _ [] (by simp [setPc]) rfl rfl rfl (by rw [List.append_nil]; exact (h.thr _ _ hth).2.2)
    · cases ha
  | createLink i idle =>
    simp only [act] at ha
    split at ha
    · rename_i st o off hth
      split at ha
      · cases ha
        obtain ⟨p1, p2⟩ := (h.thr _ _ hth).2.2
        unfold link
        simp only
        generalize hq : commitTxn c _ idle _ = q
        have k := commitTxn_same (c := c) (event { s with ov := ((s.ov.set (.head (c.bkt o.key)) off).1.set (.next o.id) (getHead c s (c.bkt o.key))).1 } i (.created o.key o.id o.size)) idle
          [(c.bkDev + bucketOff (c.bkt o.key), encHead off), (off + ObjectOffsets.nextNode, beBytes 6 (getHead c s (c.bkt o.key)))]
        rw [hq] at k
        refine h.move hth _ [.created o.key o.id o.size] k.1 k.2.1 (by simp only [setPc, k.2.2.1, event]; rfl) k.2.2.2 ?_
        rw [p1, p2]
        rfl
      · cases ha
    · cases ha
  | lookup req key =>
    simp only [act] at ha
    split at ha
    · cases ha
      exact h.start rfl rfl rfl rfl ⟨rfl, rfl⟩
    · cases ha
  | read i =>
    simp only [act] at ha
    split at ha
    · rename_i hth
      split at ha
      · cases ha
      · cases ha
        exact h.move hth _ [] (by simp [setPc]) rfl rfl rfl (by rw [List.append_nil]; exact (h.thr _ _ hth).2.2)
    · cases ha
  | inode i idle =>
    simp only [act] at ha
    split at ha
    · rename_i st req key cur prev raw inc ex hth
      cases ha
      obtain ⟨p1, p2⟩ := (h.thr _ _ hth).2.2
      have go : ∀ inc ex, AI (setPc s i ⟨st, .dead⟩ (.walk req key (rawNext s raw) (some cur) none inc ex)) :=
        fun inc ex => h.move hth _ [] (by simp [setPc]) rfl rfl rfl (by rw [List.append_nil]; exact ⟨p1, p2⟩)
      have fnd : AI (onFound c s i ⟨st, .dead⟩ req key ⟨cur, prev, raw⟩ idle) := ai_found h hth rfl idle p1 p2 .dead
      unfold onInode
      simp only
      split
      · split
        · exact h.move hth _ [] (by simp [setPc]) rfl rfl rfl trivial
        · cases req with
          | commit id =>
            simp only
            split
            · exact go _ _
            · split <;> exact go _ _
          | look want => simp only; split; exacts [fnd, go _ _]
          | write id o l => simp only; split; exacts [fnd, go _ _]
          | delete want => simp only; split; exacts [fnd, go _ _]
      · exact go _ _
    · cases ha
  | atEnd i idle =>
    simp only [act] at ha
    split at ha
    · rename_i st req key prev inc ex hth
      cases ha
      obtain ⟨p1, p2⟩ := (h.thr _ _ hth).2.2
      simp only at p1 p2
      unfold onEnd
      cases req with
      | look want => exact h.answer hth _ [.missing key want] rfl rfl rfl rfl (by rw [p1, p2]; rfl)
      | write id o l => exact h.answer hth _ [.refused key id] rfl rfl rfl rfl (by rw [p1, p2]; rfl)
      | delete want => exact h.answer hth _ [.missing key want] rfl rfl rfl rfl (by rw [p1, p2]; rfl)
      | commit id =>
        cases inc with
        | none => exact h.answer hth _ [.refused key id] rfl rfl rfl rfl (by rw [p1, p2]; rfl)
        | some f =>
          have fin : ∀ {s1 : LSt} (tickets : List (Overlay.Ticket Cell)) (ws : List (Nat × List Byte)) (free : List (Nat × Nat)),
              (s1.lin = s.lin ∧ s1.nextCall = s.nextCall ∧ s1.thr = s.thr ∧ s1.acks = s.acks) →
              AI (setPc (commitTxn c (event { s1 with ov := (s1.ov.set (.state id) stCommitted).1 } i (.committed key id)) idle ws).1 i ⟨st, .dead⟩
                (.wait (commitTxn c (event { s1 with ov := (s1.ov.set (.state id) stCommitted).1 } i (.committed key id)) idle ws).2 free tickets .committed)) := by
            intro s1 tickets ws free ⟨u1, u2, u3, u4⟩
            have k := commitTxn_same (c := c) (event { s1 with ov := (s1.ov.set (.state id) stCommitted).1 } i (.committed key id)) idle ws
            refine h.move hth (.wait (commitTxn c (event { s1 with ov := (s1.ov.set (.state id) stCommitted).1 } i (.committed key id)) idle ws).2 free tickets .committed) [.committed key id] ?_ ?_ ?_ ?_ ?_
            · exact k.1.trans (by simp [event, u1])
            · exact k.2.1.trans u2
            · show upd _ i _ = _
              rw [k.2.2.1]; simp only [event, u3]
            · exact k.2.2.2.trans u4
            · rw [p1, p2]; rfl
          cases ex with
          | none => exact fin _ _ _ ⟨rfl, rfl, rfl, rfl⟩
          | some e =>
            simp only
            split
            · exact h.move hth _ [] (by simp [setPc]) rfl rfl rfl trivial
            · rename_i s1 tk ws free hd
              split at hd
              · cases hd; exact fin _ _ _ ⟨rfl, rfl, rfl, rfl⟩
              · rw [Option.map_eq_some_iff] at hd
                obtain ⟨⟨s1', tk', ws', free'⟩, hu, hd⟩ := hd
                cases hd
                exact fin _ _ _ (unlink_same hu)
    · cases ha
  | signalled i =>
    simp only [act] at ha
    split at ha
    · rename_i hth
      split at ha
      · split at ha
        · cases ha
          exact h.move hth _ [] (by simp [setPc]) rfl rfl rfl (by rw [List.append_nil]; exact (h.thr _ _ hth).2.2)
        · cases ha
          exact h.move hth _ [] (by simp [setPc]) rfl rfl rfl trivial
      · cases ha
    · cases ha
  | evict i =>
    simp only [act] at ha
    split at ha
    · rename_i hth
      cases ha
      exact h.move hth _ [] (by simp [setPc]) rfl rfl rfl (by rw [List.append_nil]; exact (h.thr _ _ hth).2.2)
    · cases ha
  | respond i =>
    simp only [act] at ha
    split at ha
    · rename_i hth
      cases ha
      exact h.answer hth _ [] (by simp [respond]) rfl rfl rfl (by rw [List.append_nil]; exact (h.thr _ _ hth).2.2)
    · cases ha
  | data i n skip bytes =>
    simp only [act] at ha
    split at ha
    · split at ha
      · split at ha
        · cases ha
          exact ⟨h.ids, h.thr, h.acks⟩
        · cases ha
      · cases ha
    · cases ha
  | writeEnd i r =>
    simp only [act] at ha
    split at ha
    · rename_i hth
      cases ha
      obtain ⟨o, l, size, p1, p2⟩ := (h.thr _ _ hth).2.2
      exact h.answer hth _ [] (by simp [respond]) rfl rfl rfl (by rw [List.append_nil, p1, p2]; exact ⟨_, rfl⟩)
    · cases ha
  | drop i =>
    simp only [act] at ha
    split at ha
    · rename_i hth
      cases ha
      exact h.move hth _ [] (by simp [setPc]) rfl rfl rfl trivial
    · rename_i hth
      cases ha
      exact h.move hth _ [] (by simp [setPc]) rfl rfl rfl trivial
    · cases ha
  | cancel i n bytes =>
    simp only [act] at ha
    split at ha
    · rename_i hth
      split at ha
      · split at ha
        · cases ha
          exact h.move hth _ [] (by simp [setPc]) rfl rfl rfl trivial
        · cases ha
      · cases ha
    · cases ha
  | orphan n =>
    simp only [act] at ha
    split at ha
    · cases ha
      exact ⟨h.ids, h.thr, h.acks⟩
    · cases ha

theorem reach_ai {s : LSt} (h : Reach c s) : AI s := by
  induction h with
  | fresh h =>
    unfold fresh at h
    split at h
    · cases h
      exact ⟨by simp, by simp, by simp⟩
    · cases h
  | step hr hs ih =>
    cases hs with
    | act a ha => exact ai_act ih ha
    | journal hj hh => exact ⟨ih.ids, ih.thr, ih.acks⟩

end
end Lite
end Blobd
