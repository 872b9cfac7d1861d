import Verif.Proofs.LiteChange
set_option autoImplicit false
/-! # Objects that have been unlinked but whose pages are not released yet -/
namespace Blobd
namespace Lite
open Spec

/-- where a list of pages to release comes from -/
def Source (c : LCfg) (s : LSt) (j : Nat) (free : List (Nat × Nat)) (pc : PC) : Prop :=
  free = [] ∨ (∃ st tks resp txn, pc = .wait txn free tks resp ∧ s.thr j = some ⟨st, .wait txn free tks resp⟩) ∨
  (∃ st req key cur prev raw inc ex, s.thr j = some ⟨st, .walk req key cur prev (some raw) inc ex⟩ ∧
    recPages c.pages s.j.dev cur (rdMetaPow2 (ofBytes raw) 0) = some free) ∨
  ∃ st id key cur prev inc f, s.thr j = some ⟨st, .walk (.commit id) key cur prev none inc (some f)⟩ ∧
    recPages c.pages s.j.dev f.off (rdMetaPow2 (ofBytes f.raw) 0) = some free

theorem unlink_free {c : LCfg} {s s1 : LSt} {b : Nat} {f : Found} {tk : Overlay.Ticket Cell} {ws : List (Nat × List Byte)} {free : List (Nat × Nat)}
    (h : unlink c s b f = some (s1, tk, ws, free)) :
    recPages c.pages s.j.dev f.off (rdMetaPow2 (ofBytes f.raw) 0) = some free := by
  unfold unlink at h
  simp only at h
  split at h
  · cases h
  · rename_i fr hfr
    split at h
    · simp only [Option.some.injEq, Prod.mk.injEq] at h
      rw [hfr, h.2.2.2]
    · simp only [Option.some.injEq, Prod.mk.injEq] at h
      rw [hfr, h.2.2.2]

theorem upd_get {β : Type} {f : Nat → β} {k : Nat} {v : β} {j : Nat} {x : β} (h : upd f k v j = x) : j = k ∧ v = x ∨ j ≠ k ∧ f j = x := by
  unfold upd at h
  split at h
  · exact .inl ⟨‹_›, h⟩
  · exact .inr ⟨‹_›, h⟩

/-- how a thread comes to wait -/
theorem act_wait {c : LCfg} {s s' : LSt} {a : Act} (h : act c s a = some s') {j : Nat} {st : Begun} {txn : Option Nat} {free : List (Nat × Nat)}
    {tks : List (Overlay.Ticket Cell)} {resp : Resp} (ht : s'.thr j = some ⟨st, .wait txn free tks resp⟩) :
    Source c s j free (.wait txn free tks resp) := by
  have old : s.thr j = some ⟨st, .wait txn free tks resp⟩ → Source c s j free (.wait txn free tks resp) :=
    fun h => .inr (.inl ⟨st, tks, resp, txn, rfl, h⟩)
  -- a thread changed to something else
  have put : ∀ {f : Nat → Option Thread} {i : Nat} {o : Option Thread}, s'.thr = upd f i o → f = s.thr →
      (∀ t, o = some t → ∀ txn free tks resp, t.pc ≠ .wait txn free tks resp) → Source c s j free (.wait txn free tks resp) := by
    intro f i o h1 h2 h3
    rw [h1] at ht
    rcases upd_get ht with ⟨_, e⟩ | ⟨_, e⟩
    · exact absurd rfl (h3 _ e _ _ _ _)
    · rw [h2] at e; exact old e
  cases a with
  | create key size assoc created id =>
    have h : create c s key size assoc created id = some s' := h
    unfold create at h
    split at h
    · split at h
      · cases h
      · simp only at h
        split at h
        · cases h; exact old ht
        · split at h
          · cases h; exact put rfl rfl (fun t e => by cases e; simp)
          · split at h <;> cases h <;> exact put rfl rfl (fun t e => by cases e; simp)
    · cases h
  | createWritten i =>
    simp only [act] at h
    split at h
    · cases h; exact put rfl rfl (fun t e => by cases e; simp)
    · cases h
  | createLink i idle =>
    simp only [act] at h
    split at h
    · split at h
      · have h := Option.some.inj h
        rw [← h] at ht
        simp only [link, setPc] at ht
        rcases upd_get ht with ⟨_, e⟩ | ⟨_, e⟩
        · cases e; exact .inl rfl
        · rw [(commitTxn_same _ _ _).2.2.1] at e; exact old e
      · cases h
    · cases h
  | lookup req key =>
    simp only [act] at h
    split at h
    · cases h; exact put rfl rfl (fun t e => by cases e; simp)
    · cases h
  | read i =>
    simp only [act] at h
    split at h
    · split at h
      · cases h
      · cases h; exact put rfl rfl (fun t e => by cases e; simp)
    · cases h
  | inode i idle =>
    simp only [act] at h
    split at h
    · rename_i st0 req key cur prev raw inc ex hth
      have h := Option.some.inj h
      have key : ∀ q f, f = ⟨cur, prev, raw⟩ → onFound c s i ⟨st0, .dead⟩ q key f idle = s' → Source c s j free (.wait txn free tks resp) := by
        intro q f hf e
        subst e
        cases q with
        | look want => exact put rfl rfl (fun t e => by cases e)
        | write wid offset len =>
          simp only [onFound] at ht
          split at ht
          · simp only [respond, event] at ht
            rcases upd_get ht with ⟨_, e⟩ | ⟨_, e⟩
            · cases e
            · exact old e
          · split at ht
            · simp only [setPc, event] at ht
              rcases upd_get ht with ⟨_, e⟩ | ⟨_, e⟩
              · cases e
              · exact old e
            · simp only [setPc, event] at ht
              rcases upd_get ht with ⟨_, e⟩ | ⟨_, e⟩
              · cases e
              · exact old e
        | delete want =>
          simp only [onFound] at ht
          split at ht
          · simp only [setPc] at ht
            rcases upd_get ht with ⟨_, e⟩ | ⟨_, e⟩
            · cases e
            · exact old e
          · rename_i s1 tk ws fr hu
            simp only [setPc] at ht
            rcases upd_get ht with ⟨e0, e⟩ | ⟨_, e⟩
            · cases e
              have := unlink_free hu
              rw [hf] at this
              exact .inr (.inr (.inl ⟨_, req, key, cur, prev, raw, inc, ex, by rw [e0]; exact hth, this⟩))
            · rw [(commitTxn_same _ _ _).2.2.1] at e
              simp only [event] at e
              rw [(unlink_same hu).2.2.1] at e
              exact old e
        | commit id => exact old ht
      simp only [onInode] at h
      have go : ∀ pc : PC, (∀ txn free tks resp, pc ≠ .wait txn free tks resp) → setPc s i ⟨st0, .dead⟩ pc = s' → Source c s j free (.wait txn free tks resp) := by
        intro pc hp e
        subst e
        exact put rfl rfl (fun t e => by cases e; exact hp)
      split at h
      · split at h
        · exact go _ (by simp) h
        · split at h
          · split at h
            · exact go _ (by simp) h
            · split at h <;> exact go _ (by simp) h
          · split at h
            · exact key _ _ rfl h
            · exact go _ (by simp) h
      · exact go _ (by simp) h
    · cases h
  | atEnd i idle =>
    simp only [act] at h
    split at h
    · rename_i st0 req key prev inc ex hth
      have h := Option.some.inj h
      subst h
      cases req with
      | look want => exact put rfl rfl (fun t e => by cases e)
      | write wid offset len => exact put rfl rfl (fun t e => by cases e)
      | delete want => exact put rfl rfl (fun t e => by cases e)
      | commit id =>
        cases inc with
        | none => exact put rfl rfl (fun t e => by cases e)
        | some f =>
          cases ex with
          | none =>
            simp only [onEnd, setPc] at ht
            rcases upd_get ht with ⟨_, e⟩ | ⟨_, e⟩
            · cases e; exact .inl rfl
            · rw [(commitTxn_same _ _ _).2.2.1] at e; exact old e
          | some e =>
            simp only [onEnd] at ht
            by_cases hv : c.versioning = true
            · simp only [hv, if_true, setPc] at ht
              rcases upd_get ht with ⟨_, e⟩ | ⟨_, e⟩
              · cases e; exact .inl rfl
              · rw [(commitTxn_same _ _ _).2.2.1] at e; exact old e
            · simp only [if_neg hv] at ht
              cases hu : unlink c s (c.bkt key) e with
              | none =>
                rw [hu] at ht
                simp only [Option.map_none, setPc] at ht
                rcases upd_get ht with ⟨_, e⟩ | ⟨_, e⟩
                · cases e
                · exact old e
              | some q =>
                obtain ⟨s1, tk, ws, fr⟩ := q
                rw [hu] at ht
                simp only [Option.map_some, setPc] at ht
                rcases upd_get ht with ⟨e0, e'⟩ | ⟨_, e'⟩
                · cases e'
                  exact .inr (.inr (.inr ⟨_, id, key, 0, prev, some f, e, by rw [e0]; exact hth, unlink_free hu⟩))
                · rw [(commitTxn_same _ _ _).2.2.1] at e'
                  simp only [event] at e'
                  rw [(unlink_same hu).2.2.1] at e'
                  exact old e'
    · cases h
  | signalled i =>
    simp only [act] at h
    split at h
    · split at h
      · split at h <;> cases h <;> exact put rfl rfl (fun t e => by cases e; simp)
      · cases h
    · cases h
  | evict i =>
    simp only [act] at h
    split at h
    · cases h; exact put rfl rfl (fun t e => by cases e; simp)
    · cases h
  | respond i =>
    simp only [act] at h
    split at h
    · cases h; exact put rfl rfl (fun t e => by cases e)
    · cases h
  | data i n skip bytes =>
    simp only [act] at h
    split at h
    · split at h
      · split at h
        · cases h; exact old ht
        · cases h
      · cases h
    · cases h
  | writeEnd i r =>
    simp only [act] at h
    split at h
    · cases h; exact put rfl rfl (fun t e => by cases e)
    · cases h
  | drop i =>
    simp only [act] at h
    split at h
    · cases h; exact put rfl rfl (fun t e => by cases e; simp)
    · cases h; exact put rfl rfl (fun t e => by cases e; simp)
    · cases h
  | cancel i n bytes =>
    simp only [act] at h
    split at h
    · split at h
      · split at h
        · cases h; exact put rfl rfl (fun t e => by cases e; simp)
        · cases h
      · cases h
    · cases h
  | orphan n =>
    simp only [act] at h
    split at h
    · cases h; exact old ht
    · cases h

/-- the pages a call is about to release are those named by a record on the device -/
def Leav (c : LCfg) (s : LSt) : Prop := ∀ j st txn free tks resp, s.thr j = some ⟨st, .wait txn free tks resp⟩ → free ≠ [] →
  ∃ r : Rec, At r.o s.j.dev r.off ∧ RecFits c.pages r.o ∧ free = regs c.pages r

theorem at_step {c : LCfg} (hc : c.Ok) {s s' : LSt} {base : Mem} {v : V} {leak : List (Nat × Nat)} (h : LInv c s base v leak) (hs : Step c s s')
    {own : Own} {r : Rec} (hr : (own, r) ∈ v.recs) (hown : ∀ i, own ≠ .fresh i) (hat : At r.o s.j.dev r.off) : At r.o s'.j.dev r.off := by
  refine hat.congr ?_
  intro y h1 h2
  have := (h.good.fit _ hr).1.room
  have hy : FixedByte r y := ⟨h1, by simp only at this; omega⟩
  rcases step_bytes hc h hs hr hown (.inl hy) with e | ⟨_, _, ⟨p, p1, p2, p3⟩, _⟩
  · exact e
  · exfalso
    have := (h.geo hc).own _ hr p p1
    unfold PageDisj at this
    simp only at this
    have := hy.1; have := hy.2
    omega

theorem regs_eq {c : LCfg} {r q : Rec} (h : regs c.pages r = regs c.pages q) :
    r.off = q.off ∧ r.o.metaSizePow2 = q.o.metaSizePow2 ∧ dataPgs c.pages r.o = dataPgs c.pages q.o := by
  unfold regs at h
  obtain ⟨h1, h2⟩ := List.append_inj' h rfl
  simp only [List.cons.injEq, Prod.mk.injEq, and_true] at h2
  exact ⟨h2.1, h2.2, h1⟩

theorem reach_leav {c : LCfg} (hc : c.Ok) {s : LSt} (hr : Reach c s) (hf : s.faults = []) : Leav c s := by
  induction hr with
  | fresh h =>
    unfold Lite.fresh at h
    split at h <;> cases h
    intro j st txn free tks resp ht
    cases ht
  | @step s s' hr hs ih =>
    have hf0 : s.faults = [] := by
      cases hs with
      | act a ha => exact act_faults ha hf
      | journal => exact hf
    have ih := ih hf0
    obtain ⟨base, v, leak, h⟩ := reach_inv hc hr hf0
    intro j st txn free tks resp ht hne
    -- the thread was waiting before
    have old : ∀ st, s.thr j = some ⟨st, .wait txn free tks resp⟩ → ∃ r : Rec, At r.o s'.j.dev r.off ∧ RecFits c.pages r.o ∧ free = regs c.pages r := by
      intro st hold
      obtain ⟨r, r1, r2, r3⟩ := ih j st txn free tks resp hold hne
      refine ⟨r, ?_, r2, r3⟩
      rcases ((h.thr j _ hold).2).2 with e | ⟨q, q1, q2, _⟩
      · exact absurd e hne
      · rw [r3] at q2
        obtain ⟨e1, e2, e3⟩ := regs_eq q2
        refine r1.congr ?_
        intro y h1 h2
        have hroom := r2.room
        have hy : FixedByte q y := ⟨by rw [← e1]; exact h1, by rw [← e1, ← e2]; omega⟩
        rcases step_bytes hc h hs q1 (by simp) (.inl hy) with e | ⟨e, _⟩
        · exact e
        · cases e
    -- it has just unlinked a record
    have new : ∀ (q : Rec) (raw : List Byte), (Own.linked, q) ∈ v.recs → Copy v q raw →
        recPages c.pages s.j.dev q.off (rdMetaPow2 (ofBytes raw) 0) = some free →
        ∃ r : Rec, At r.o s'.j.dev r.off ∧ RecFits c.pages r.o ∧ free = regs c.pages r := by
      intro q raw hq hcp hp
      have hat := dev_at hc h.good (h.geo hc) h.jinv h.L h.U hq
      have hfit := (h.good.fit _ hq).1
      rw [hcp.pow2, recPages_eq hc.rw hat hfit, Option.some.injEq] at hp
      exact ⟨q, at_step hc h hs hq (by simp) hat, hfit, hp.symm⟩
    cases hs with
    | journal hj hh => exact old st ht
    | act a ha =>
      rcases act_wait ha ht with e | ⟨st', tks', resp', txn', e1, e2⟩ | ⟨st', req, key, cur, prev, raw, inc, ex, e1, e2⟩ | ⟨st', id, key, cur, prev, inc, f, e1, e2⟩
      · exact absurd e hne
      · cases e1; exact old st' e2
      · obtain ⟨vis, rest, k1, k2, _, k4, _⟩ := (h.thr j _ e1).2
        obtain ⟨q, rest', q1, q2⟩ := k4 raw rfl
        have hq : q ∈ v.ch (c.bkt key) := by rw [k1, q1]; simp
        refine new q raw (linked_of hc h hq) q2 ?_
        rw [q1] at k2
        rw [show q.off = cur from k2.symm]
        exact e2
      · obtain ⟨vis, rest, k1, k2, _, _, k5⟩ := (h.thr j _ e1).2
        obtain ⟨a', q, d, q1, q2, q3, _, q5⟩ := k5.2
        have hq : q ∈ v.ch (c.bkt key) := by rw [k1, q1]; simp
        exact new q f.raw (linked_of hc h hq) q5 (by rw [← q3]; exact e2)

/-- an object in use: its record is on the device, and no step changes its fixed metadata or its contents -/
theorem use_step {c : LCfg} (hc : c.Ok) {s s' : LSt} (hr : Reach c s) (hs : Step c s s') (hf : s'.faults = []) {off : Nat} (hu : InUse c s off) :
    ∃ r : Rec, r.off = off ∧ RecFits c.pages r.o ∧ At r.o s.j.dev r.off ∧
      ∀ y, FixedByte r y ∨ DataByte c r y → s'.j.dev y = s.j.dev y := by
  have hf0 : s.faults = [] := by
    cases hs with
    | act a ha => exact act_faults ha hf
    | journal => exact hf
  obtain ⟨base, v, leak, h⟩ := reach_inv hc hr hf0
  rcases hu with ⟨hl, hst⟩ | hl
  · obtain ⟨r, r1, r2⟩ := (rec_of hc h).1 hl
    refine ⟨r, r1, (h.good.fit _ r2).1, dev_at hc h.good (h.geo hc) h.jinv h.L h.U r2, ?_⟩
    intro y hy
    rcases step_bytes hc h hs r2 (by simp) hy with e | ⟨_, e, _⟩
    · exact e
    · rw [← r1, stateOf_eq hc h r2, e] at hst
      simp [stIncomplete, stCommitted] at hst
  · obtain ⟨i, q, q1, q2⟩ := (rec_of hc h).2 hl
    obtain ⟨i', st, txn, free, tks, resp, pow2, ht, hg⟩ := hl
    have hne : free ≠ [] := by intro e; rw [e] at hg; cases hg
    obtain ⟨r, r1, r2, r3⟩ := reach_leav hc hr hf0 _ _ _ _ _ _ ht hne
    rcases ((h.thr i' _ ht).2).2 with e | ⟨q', q1', q2', _⟩
    · exact absurd e hne
    · rw [r3] at q2'
      obtain ⟨e1, e2, e3⟩ := regs_eq q2'
      refine ⟨r, ?_, r2, r1, ?_⟩
      · rw [r3] at hg
        unfold regs at hg
        simp only [List.getLast?_concat, Option.some.injEq, Prod.mk.injEq] at hg
        exact hg.1
      · intro y hy
        have hy' : FixedByte q' y ∨ DataByte c q' y := by
          rcases hy with ⟨y1, y2⟩ | ⟨p, y1, y2⟩
          · exact .inl ⟨by rw [← e1]; exact y1, by rw [← e1, ← e2]; exact y2⟩
          · exact .inr ⟨p, by rw [← e3]; exact y1, y2⟩
        rcases step_bytes hc h hs q1' (by simp) hy' with e | ⟨e, _⟩
        · exact e
        · cases e

end Lite
end Blobd
