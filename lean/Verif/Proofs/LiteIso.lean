import Verif.Proofs.LiteChain
set_option autoImplicit false
/-! # Which step changes which byte -/
namespace Blobd
namespace Lite
open Spec

/-- how an action changes the device -/
inductive DevChange (a : Act) (s s' : LSt) : Prop
  | same : s'.j.dev = s.j.dev → DevChange a s s'
  | create (i : Nat) (st : Begun) (o : NewObject) (off : Nat) : s.thr i = some ⟨st, .createWrite o off⟩ →
      s'.j.dev = s.j.dev.write off o.encode → DevChange a s s'
  | data (i : Nat) (st : Begun) (key : List Byte) (id : Nat) (targets : List (Nat × Nat)) (t : Nat × Nat) (n skip : Nat) (bytes : List Byte) :
      a = .data i n skip bytes → s.thr i = some ⟨st, .writing key id targets⟩ → targets[n]? = some t → skip + bytes.length ≤ t.1 →
      s'.j.dev = s.j.dev.write (t.2 + skip) bytes → DevChange a s s'
  | found (i : Nat) (st : Begun) (req : Req) (key : List Byte) (cur p : Nat) (raw : List Byte) (inc ex : Option Found) (x : Nat) :
      s.thr i = some ⟨st, .walk req key cur (some p) (some raw) inc ex⟩ →
      s'.j.dev = s.j.dev.write (p + ObjectOffsets.nextNode) (beBytes 6 x) → DevChange a s s'
  | replaced (i : Nat) (st : Begun) (id : Nat) (key : List Byte) (cur p : Nat) (prev : Option Nat) (inc : Option Found) (f : Found) (x : Nat) :
      s.thr i = some ⟨st, .walk (.commit id) key cur prev none inc (some f)⟩ → f.prev = some p →
      s'.j.dev = s.j.dev.write (p + ObjectOffsets.nextNode) (beBytes 6 x) → DevChange a s s'
  | orphan : s.orphans ≠ [] → DevChange a s s'

theorem commitTxn_dev (c : LCfg) (s : LSt) (idle : Bool) (ws : List (Nat × List Byte)) : (commitTxn c s idle ws).1.j.dev = s.j.dev := by
  simp only [commitTxn]
  split
  · rfl
  · rename_i j' h
    simp only [Journal.commit] at h
    split at h
    · cases h
    · split at h <;> cases h <;> rfl

theorem unlink_dev {c : LCfg} {s s1 : LSt} {b : Nat} {f : Found} {tk : Overlay.Ticket Cell} {ws : List (Nat × List Byte)} {free : List (Nat × Nat)}
    (h : unlink c s b f = some (s1, tk, ws, free)) :
    s1.j.dev = s.j.dev ∨ ∃ p x, f.prev = some p ∧ s1.j.dev = s.j.dev.write (p + ObjectOffsets.nextNode) (beBytes 6 x) := by
  unfold unlink at h
  simp only at h
  split at h
  · cases h
  · split at h
    · rename_i p hp
      simp only [Option.some.injEq, Prod.mk.injEq] at h
      obtain ⟨rfl, _⟩ := h
      exact .inr ⟨p, _, hp, rfl⟩
    · simp only [Option.some.injEq, Prod.mk.injEq] at h
      obtain ⟨rfl, _⟩ := h
      exact .inl rfl

theorem act_dev {c : LCfg} {s s' : LSt} {a : Act} (h : act c s a = some s') : DevChange a s s' := by
  cases a with
  | create key size assoc created id =>
    have h : create c s key size assoc created id = some s' := h
    unfold create at h
    split at h
    · split at h
      · cases h
      · simp only at h
        split at h
        · cases h; exact .same rfl
        · split at h
          · cases h; exact .same rfl
          · split at h <;> cases h <;> exact .same rfl
    · cases h
  | createWritten i =>
    simp only [act] at h
    split at h
    · rename_i st o off ht
      cases h
      exact .create i st o off ht rfl
    · cases h
  | createLink i idle =>
    simp only [act] at h
    split at h
    · split at h
      · cases h
        refine .same ?_
        simp only [link, setPc]
        rw [commitTxn_dev]
        rfl
      · cases h
    · cases h
  | lookup req key =>
    simp only [act] at h
    split at h <;> cases h
    exact .same rfl
  | read i =>
    simp only [act] at h
    split at h
    · split at h <;> cases h
      exact .same rfl
    · cases h
  | inode i idle =>
    simp only [act] at h
    split at h
    · rename_i st req key cur prev raw inc ex ht
      have h := Option.some.inj h
      have key : ∀ q f, f = ⟨cur, prev, raw⟩ → onFound c s i ⟨st, .dead⟩ q key f idle = s' → DevChange (.inode i idle) s s' := by
        intro q f hf e
        subst e
        cases q with
        | look want => exact .same rfl
        | write wid offset len =>
          simp only [onFound]
          split
          · exact .same rfl
          · split <;> exact .same rfl
        | delete want =>
          simp only [onFound]
          split
          · exact .same rfl
          · rename_i s1 tk ws free hu
            rcases unlink_dev hu with e | ⟨p, x, e1, e⟩
            · refine .same ?_
              simp only [setPc]
              rw [commitTxn_dev]
              exact e
            · rw [hf] at e1
              simp only at e1
              subst e1
              refine .found i st req key cur p raw inc ex x ht ?_
              simp only [setPc]
              rw [commitTxn_dev]
              exact e
        | commit id => exact .same rfl
      simp only [onInode] at h
      split at h
      · split at h
        · subst h; exact .same rfl
        · split at h
          · split at h
            · subst h; exact .same rfl
            · split at h <;> (subst h; exact .same rfl)
          · split at h
            · exact key _ _ rfl h
            · subst h; exact .same rfl
      · subst h; exact .same rfl
    · cases h
  | atEnd i idle =>
    simp only [act] at h
    split at h
    · rename_i st req key prev inc ex ht
      have h := Option.some.inj h
      subst h
      cases req with
      | look want => exact .same rfl
      | write wid offset len => exact .same rfl
      | delete want => exact .same rfl
      | commit id =>
        cases inc with
        | none => exact .same rfl
        | some f =>
          cases ex with
          | none =>
            refine .same ?_
            simp only [onEnd, setPc]
            rw [commitTxn_dev]
            rfl
          | some e =>
            simp only [onEnd]
            by_cases hv : c.versioning = true
            · simp only [hv, if_true]
              refine .same ?_
              simp only [setPc]
              rw [commitTxn_dev]
              rfl
            · simp only [if_neg hv]
              cases hu : unlink c s (c.bkt key) e with
              | none => exact .same rfl
              | some q =>
                obtain ⟨s1, tk, ws, free⟩ := q
                simp only [Option.map_some]
                rcases unlink_dev hu with e2 | ⟨p, x, e1, e2⟩
                · refine .same ?_
                  simp only [setPc]
                  rw [commitTxn_dev]
                  exact e2
                · refine .replaced i st id key 0 p prev (some f) e x ht e1 ?_
                  simp only [setPc]
                  rw [commitTxn_dev]
                  exact e2
    · cases h
  | signalled i =>
    simp only [act] at h
    split at h
    · split at h
      · split at h <;> cases h <;> exact .same rfl
      · cases h
    · cases h
  | evict i =>
    simp only [act] at h
    split at h <;> cases h
    exact .same rfl
  | respond i =>
    simp only [act] at h
    split at h <;> cases h
    exact .same rfl
  | data i n skip bytes =>
    simp only [act] at h
    split at h
    · rename_i st key id targets ht
      split at h
      · rename_i amount page hn
        split at h <;> cases h
        rename_i hle
        exact .data i _ _ _ targets (amount, page) n skip bytes rfl ht hn hle rfl
      · cases h
    · cases h
  | writeEnd i r =>
    simp only [act] at h
    split at h <;> cases h
    exact .same rfl
  | drop i =>
    simp only [act] at h
    split at h <;> cases h <;> exact .same rfl
  | cancel i n bytes =>
    simp only [act] at h
    split at h
    · split at h
      · split at h <;> cases h
        exact .same rfl
      · cases h
    · cases h
  | orphan n =>
    simp only [act] at h
    split at h
    · rename_i hn
      exact .orphan (by intro e; rw [e] at hn; simp at hn)
    · cases h

/-- the bytes of an object that nothing changes: its record, except state and next pointer -/
def FixedByte (r : Rec) (y : Nat) : Prop := (y = r.off + 1 ∨ r.off + 8 ≤ y) ∧ y < r.off + 2 ^ r.o.metaSizePow2

/-- a byte of a data page -/
def DataByte (c : LCfg) (r : Rec) (y : Nat) : Prop := ∃ p ∈ dataPgs c.pages r.o, p.1 ≤ y ∧ y < p.1 + 2 ^ p.2

/-- a running write to this object has this byte -/
def Writing (s : LSt) (r : Rec) (y : Nat) : Prop := ∃ i st key targets, s.thr i = some ⟨st, .writing key r.o.id targets⟩ ∧
  ∃ t ∈ targets, t.2 ≤ y ∧ y < t.2 + t.1

section
variable {c : LCfg} (hc : c.Ok) {s s' : LSt} {base : Mem} {v : V} {leak : List (Nat × Nat)} (h : LInv c s base v leak)
include hc h

/-- writes to a record's own pages that are not its state or next pointer, by place -/
theorem other_page {x y : Own × Rec} (hx : x ∈ v.recs) (hy : y ∈ v.recs) {p : Nat × Nat} (hp : p ∈ regs c.pages x.2) {z : Nat}
    (h1 : p.1 ≤ z) (h2 : z < p.1 + 2 ^ p.2) (hz : FixedByte y.2 z ∨ DataByte c y.2 z) : x = y := by
  have ge := h.geo hc
  by_contra hne
  have ho : x.2.off ≠ y.2.off := fun e => hne (rec_unique h.good hx hy e)
  rcases hz with hz | ⟨q, hq, q1, q2⟩
  · have := ge.apart x hx y hy ho p hp _ (meta_mem _)
    unfold PageDisj at this
    simp only at this
    have := hz.1; have := hz.2
    omega
  · have := ge.apart x hx y hy ho p hp q (by simp [regs, hq])
    unfold PageDisj at this
    omega

theorem next_page {x y : Own × Rec} (hx : x ∈ v.recs) (hy : y ∈ v.recs) {z : Nat} (hz : FixedByte y.2 z ∨ DataByte c y.2 z) {n : Nat} :
    s.j.dev.write (x.2.off + ObjectOffsets.nextNode) (beBytes 6 n) z = s.j.dev z := by
  have ge := h.geo hc
  apply Mem.write_out
  rw [length_beBytes, show ObjectOffsets.nextNode = 2 from rfl]
  have hpow := (ge.off hx).2.2.2
  by_cases hin : x.2.off ≤ z ∧ z < x.2.off + 2 ^ x.2.o.metaSizePow2
  · have e := other_page hc h hx hy (meta_mem x.2) hin.1 hin.2 hz
    subst e
    rcases hz with hz | ⟨q, hq, q1, q2⟩
    · have := hz.1
      omega
    · have := ge.own x hx q hq
      unfold PageDisj at this
      simp only at this
      omega
  · omega

theorem prev_rec {b : Nat} {vis rest : List Rec} (hch : v.ch b = vis ++ rest) {p : Nat} (hp : some p = prevOff vis) :
    ∃ r, (Own.linked, r) ∈ v.recs ∧ r.off = p := by
  unfold prevOff at hp
  cases hg : vis.getLast? with
  | none => rw [hg] at hp; cases hp
  | some r =>
    rw [hg] at hp
    simp only [Option.map_some, Option.some.injEq] at hp
    refine ⟨r, linked_of hc h (b := b) ?_, hp.symm⟩
    rw [hch]
    exact List.mem_append_left _ (List.mem_of_getLast? hg)

/-- an action changes a byte of a listed or leaving object's contents or fixed metadata only by a piece of a write to it -/
theorem act_data {a : Act} (ha : act c s a = some s') {own : Own} {r : Rec} (hr : (own, r) ∈ v.recs) (hown : ∀ i, own ≠ .fresh i) {y : Nat}
    (hy : FixedByte r y ∨ DataByte c r y) :
    s'.j.dev y = s.j.dev y ∨ ∃ i n skip bytes st key targets t, a = .data i n skip bytes ∧ s.thr i = some ⟨st, .writing key r.o.id targets⟩ ∧
      targets[n]? = some t ∧ skip + bytes.length ≤ t.1 ∧ s'.j.dev = s.j.dev.write (t.2 + skip) bytes ∧ t.2 + skip ≤ y ∧
      y < t.2 + skip + bytes.length ∧ own = .linked ∧ rdState v.L r.off = stIncomplete ∧ DataByte c r y := by
  have ge := h.geo hc
  cases act_dev ha with
  | same e => left; rw [e]
  | create i st o off ht e =>
    left
    rw [e]
    have hp : (Own.fresh i, (⟨off, o⟩ : Rec)) ∈ v.recs := (h.thr i _ ht).2
    apply Mem.write_out
    by_contra hcon
    have hroom := (h.good.fit _ hp).1.room
    have hlen : o.encode.length ≤ 2 ^ o.metaSizePow2 := by
      have e : o.encode.length = o.off.totalSize := by simp [NewObject.encode, Mem.length_read]
      rw [e]
      exact hroom
    have := other_page hc h hp hr (meta_mem _) (z := y) (by simp only; omega) (by simp only; omega) hy
    cases this
    exact hown i rfl
  | data i st key id targets t n skip bytes ea ht hn hle e =>
    have hm := List.mem_of_getElem? hn
    by_cases hin : t.2 + skip ≤ y ∧ y < t.2 + skip + bytes.length
    · right
      obtain ⟨q, q1, ⟨q2, q3⟩, q4, q5⟩ := (h.thr i _ ht).2
      obtain ⟨p, p1, p2, p3⟩ := q5 t hm
      have hql := linked_of hc h q1
      have e2 := other_page hc h hql hr (p := p) (by simp [regs, p1]) (z := y) (by omega) (by omega) hy
      cases e2
      exact ⟨i, n, skip, bytes, st, key, targets, t, ea, by rw [ht, q3], hn, hle, e, hin.1, hin.2, rfl, q4, ⟨p, p1, by omega, by omega⟩⟩
    · left
      rw [e]
      apply Mem.write_out
      omega
  | found i st req key cur p raw inc ex x ht e =>
    left
    obtain ⟨vis, rest, e1, _, e3, _⟩ := (h.thr i _ ht).2
    obtain ⟨q, q1, q2⟩ := prev_rec hc h e1 e3
    rw [e, ← q2]
    exact next_page hc h q1 hr hy
  | replaced i st id key cur p prev inc f x ht hp e =>
    left
    obtain ⟨vis, rest, e1, _, _, _, e5⟩ := (h.thr i _ ht).2
    obtain ⟨a, r', d, f1, f2, f3, f4, _⟩ := e5.2
    rw [hp] at f4
    obtain ⟨q, q1, q2⟩ := prev_rec hc h (vis := a) (rest := r' :: d ++ rest) (by rw [e1, f1]; simp) f4
    rw [e, ← q2]
    exact next_page hc h q1 hr hy
  | orphan e => exact absurd h.orph e

/-- an action changes a byte of a listed or leaving object's contents or fixed metadata only by a write to it -/
theorem act_bytes {a : Act} (ha : act c s a = some s') {own : Own} {r : Rec} (hr : (own, r) ∈ v.recs) (hown : ∀ i, own ≠ .fresh i) {y : Nat}
    (hy : FixedByte r y ∨ DataByte c r y) :
    s'.j.dev y = s.j.dev y ∨ (own = .linked ∧ rdState v.L r.off = stIncomplete ∧ DataByte c r y ∧ Writing s r y) := by
  rcases act_data hc h ha hr hown hy with e | ⟨i, n, skip, bytes, st, key, targets, t, _, ht, hn, hle, _, y1, y2, h1, h2, h3⟩
  · exact .inl e
  · exact .inr ⟨h1, h2, h3, i, st, key, targets, ht, t, List.mem_of_getElem? hn, by omega, by omega⟩

theorem quiet_byte {own : Own} {r : Rec} (hr : (own, r) ∈ v.recs) {y : Nat} (hy : FixedByte r y ∨ DataByte c r y) :
    Quiet s.j y ∧ Journal.Outside c.jc y := by
  have ge := h.geo hc
  constructor
  · intro t ht w hw
    by_contra hcon
    have ht := h.U ▸ ht
    rcases hy with hy | ⟨p, p1, p2, p3⟩
    · obtain ⟨h1, h2⟩ := hy
      have := (pend_at_rec hc h.good ge hr ht hw (y := y) (by omega) (by omega) (by simp only; omega) h2).2
      simp only at this
      rcases this with h | h <;> omega
    · have := pend_at_data hc h.good ge hr p1 ht hw (y := y) (by omega) (by omega)
      omega
  · refine .inr ?_
    have := hc.journal
    rcases hy with hy | ⟨p, p1, p2, p3⟩
    · have := (ge.off hr).1
      simp only at this
      have := hy.1
      omega
    · have := (ge.pg _ hr p (by simp [regs, p1])).1
      omega

theorem journal_bytes {j' : Journal.State} (hs : Journal.Step c.jc s.j j') (hh : j'.hist = s.j.hist) {own : Own} {r : Rec}
    (hr : (own, r) ∈ v.recs) {y : Nat} (hy : FixedByte r y ∨ DataByte c r y) : j'.dev y = s.j.dev y := by
  obtain ⟨done, h1, h2, h3⟩ := h.jinv.step hc.jok hs hh
  obtain ⟨q, o⟩ := quiet_byte hc h hr hy
  rw [h.jinv.dev_eq o q, h1.dev_eq o, logical_step h2]
  intro t ht w hw
  exact q t (by rw [h2]; simp [ht]) w hw

/-- one step of the store -/
theorem step_bytes (hs : Step c s s') {own : Own} {r : Rec} (hr : (own, r) ∈ v.recs) (hown : ∀ i, own ≠ .fresh i) {y : Nat}
    (hy : FixedByte r y ∨ DataByte c r y) :
    s'.j.dev y = s.j.dev y ∨ (own = .linked ∧ rdState v.L r.off = stIncomplete ∧ DataByte c r y ∧ Writing s r y) := by
  cases hs with
  | act a ha => exact act_bytes hc h ha hr hown hy
  | journal hj hh => exact .inl (journal_bytes hc h hj hh hr hy)

end
end Lite
end Blobd
