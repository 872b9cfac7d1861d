import Verif.Proofs.LiteStep6
import Verif.Proofs.LiteAcks
set_option autoImplicit false
/-! # Calls one at a time: none of the recorded faults happens -/
namespace Blobd
namespace Lite
open Spec

def PC.tickets : PC → List (Overlay.Ticket Cell)
  | .wait _ _ ts _ => ts
  | .evict ts _ => ts
  | _ => []

structure SI (s : LSt) : Prop where
  one : ∀ i j t t', s.thr i = some t → s.thr j = some t' → t.pc ≠ .dead → t'.pc ≠ .dead → i = j
  ov : ∀ k n x, s.ov.map k = some (n, x) → ∃ i t, s.thr i = some t ∧ (⟨k, n⟩ : Overlay.Ticket Cell) ∈ t.pc.tickets

/-- only call `i` runs, and holds all the tickets -/
structure Alone (s : LSt) (i : Nat) (ts : List (Overlay.Ticket Cell)) : Prop where
  only : ∀ j t, j ≠ i → s.thr j = some t → t.pc = .dead
  ov : ∀ k n x, s.ov.map k = some (n, x) → (⟨k, n⟩ : Overlay.Ticket Cell) ∈ ts

theorem SI.alone {s : LSt} (h : SI s) {i : Nat} {t : Thread} (ht : s.thr i = some t) (hd : t.pc ≠ .dead) : Alone s i t.pc.tickets := by
  have only : ∀ j t, j ≠ i → s.thr j = some t → t.pc = .dead := by
    intro j t' hj ht'
    by_contra hc
    exact hj (h.one _ _ _ _ ht' ht hc hd)
  refine ⟨only, ?_⟩
  intro k n x hx
  obtain ⟨j, t', ht', hm⟩ := h.ov k n x hx
  by_cases e : j = i
  · subst e; rw [ht] at ht'; cases ht'; exact hm
  · rw [only j t' e ht'] at hm
    cases hm

theorem SI.idle {s : LSt} (h : SI s) (hi : Idle s) (i : Nat) : Alone s i [] := by
  refine ⟨fun j t _ ht => hi j t ht, ?_⟩
  intro k n x hx
  obtain ⟨j, t', ht', hm⟩ := h.ov k n x hx
  rw [hi j t' ht'] at hm
  cases hm

theorem Alone.si {s s' : LSt} {i : Nat} {ts : List (Overlay.Ticket Cell)} (h : Alone s i ts) {o : Option Thread}
    (hthr : s'.thr = upd s.thr i o)
    (hov : ∀ k n x, s'.ov.map k = some (n, x) → ∃ t, o = some t ∧ (⟨k, n⟩ : Overlay.Ticket Cell) ∈ t.pc.tickets) : SI s' := by
  have hne : ∀ j, j ≠ i → s'.thr j = s.thr j := fun j hj => by rw [hthr]; simp [upd, hj]
  refine ⟨?_, ?_⟩
  · intro a b t t' ha hb hda hdb
    by_cases e1 : a = i
    · by_cases e2 : b = i
      · rw [e1, e2]
      · rw [hne b e2] at hb
        exact absurd (h.only b t' e2 hb) hdb
    · rw [hne a e1] at ha
      exact absurd (h.only a t e1 ha) hda
  · intro k n x hx
    obtain ⟨t, ht, hm⟩ := hov k n x hx
    exact ⟨i, t, by rw [hthr]; simp [upd, ht], hm⟩

theorem Alone.empty {s : LSt} {i : Nat} (h : Alone s i []) (k : Cell) : s.ov.map k = none := by
  cases hx : s.ov.map k with
  | none => rfl
  | some p => exact absurd (h.ov k p.1 p.2 hx) (by simp)

/-- same overlay, nothing in it -/
theorem Alone.quiet {s s' : LSt} {i : Nat} (h : Alone s i []) {o : Option Thread} (hthr : s'.thr = upd s.thr i o) (hov : s'.ov = s.ov) : SI s' :=
  h.si hthr (fun k n x hx => by rw [hov, h.empty k] at hx; cases hx)

section
variable {c : LCfg}

theorem commitTxn_ov (s : LSt) (idle : Bool) (ws : List (Nat × List Byte)) :
    (commitTxn c s idle ws).1.ov = s.ov ∧ (commitTxn c s idle ws).1.faults = s.faults := by
  simp only [commitTxn]
  split <;> exact ⟨rfl, rfl⟩

theorem unlink_ov {s s1 : LSt} {b : Nat} {f : Found} {tk : Overlay.Ticket Cell} {ws : List (Nat × List Byte)} {free : List (Nat × Nat)}
    (h : unlink c s b f = some (s1, tk, ws, free)) (he : ∀ k, s.ov.map k = none) :
    s1.faults = s.faults ∧ ∀ k n x, s1.ov.map k = some (n, x) → tk = ⟨k, n⟩ := by
  unfold unlink at h
  simp only at h
  have hset : ∀ k' v k n x, (s.ov.set k' v).1.map k = some (n, x) → (s.ov.set k' v).2 = ⟨k, n⟩ := by
    intro k' v k n x hx
    simp only [Overlay.Ov.set] at hx ⊢
    split at hx
    · rename_i e
      simp only [Option.some.injEq, Prod.mk.injEq] at hx
      rw [e, hx.1]
    · rw [he] at hx; cases hx
  split at h
  · cases h
  · split at h
    · simp only [Option.some.injEq, Prod.mk.injEq] at h
      obtain ⟨rfl, rfl, _⟩ := h
      refine ⟨by simp [Overlay.Ov.get, he], fun k n x hx => hset _ _ _ _ _ hx⟩
    · simp only [Option.some.injEq, Prod.mk.injEq] at h
      obtain ⟨rfl, rfl, _⟩ := h
      exact ⟨rfl, fun k n x hx => hset _ _ _ _ _ hx⟩

/-- with an empty overlay the journal has nothing pending for a linked inode -/
theorem pendingAt_false (hc : c.Ok) {s : LSt} {base : Mem} {v : V} {leak : List (Nat × Nat)} (h : LInv c s base v leak)
    (he : ∀ k, s.ov.map k = none) {r : Rec} (hr : (Own.linked, r) ∈ v.recs) : pendingAt s.j r.off = false := by
  have ge := h.geo hc
  unfold pendingAt
  rw [← h.U, List.any_eq_false]
  intro t ht hcon
  rw [List.any_eq_true] at hcon
  obtain ⟨w, hw, hwo⟩ := hcon
  simp only [decide_eq_true_eq] at hwo
  have hlen : 0 < w.2.length := by
    rcases h.good.pend t ht w hw with ⟨b, hb, e1, e2⟩ | ⟨x', hx', hf, hcase⟩
    · omega
    · rcases hcase with h | h <;> omega
  have hoff := ge.off hr
  simp only at hoff
  have := (pend_at_rec hc h.good ge hr ht hw (y := w.1) (Nat.le_refl _) (by omega) hwo.1 (by simp only; omega)).2
  simp only at this
  have hov := fun k => (congrArg (fun o => Overlay.Ov.map o k) h.ov).trans (he k)
  rcases this with e | e
  · obtain ⟨n, hn, _⟩ := h.good.quiet (.state r.o.id) r.off ⟨r, hr, rfl, rfl⟩ (hov _) t ht w hw e.2.1
    cases hn
  · obtain ⟨n, hn, _⟩ := h.good.quiet (.next r.o.id) (r.off + 2) ⟨r, hr, rfl, rfl⟩ (hov _) t ht w hw e.2.1
    cases hn

theorem si_found (hc : c.Ok) {s : LSt} {base : Mem} {v : V} {leak : List (Nat × Nat)} (h : LInv c s base v leak) {i : Nat} (t : Thread)
    (ha : Alone s i []) {req : Req} {key : List Byte} {f : Found} (idle : Bool) (hreq : ∀ id, req ≠ .commit id) {r : Rec}
    (hr : (Own.linked, r) ∈ v.recs) (hoff : f.off = r.off) :
    SI (onFound c s i t req key f idle) ∧ (onFound c s i t req key f idle).faults = s.faults := by
  unfold onFound
  cases req with
  | look want => exact ⟨ha.quiet rfl rfl, rfl⟩
  | write wid o l =>
    simp only
    split
    · exact ⟨ha.quiet rfl rfl, rfl⟩
    · split <;> exact ⟨ha.quiet rfl rfl, rfl⟩
  | delete want =>
    simp only
    split
    · exact ⟨ha.quiet rfl rfl, rfl⟩
    · rename_i s1 tk ws free hu
      obtain ⟨u1, u2⟩ := unlink_ov hu ha.empty
      obtain ⟨_, _, u3, _⟩ := unlink_same hu
      have k := commitTxn_ov (c := c) (event s1 i (.removed key want (rdId (ofBytes f.raw) 0))) idle ws
      have k' := commitTxn_same (c := c) (event s1 i (.removed key want (rdId (ofBytes f.raw) 0))) idle ws
      refine ⟨ha.si (o := some ⟨t.start, .wait (commitTxn c (event s1 i (.removed key want (rdId (ofBytes f.raw) 0))) idle ws).2 free [tk] .deleted⟩) ?_ ?_, ?_⟩
      · simp only [setPc, k'.2.2.1]
        simp only [event, u3]
      · intro kk n x hx
        refine ⟨_, rfl, ?_⟩
        simp only [setPc, k.1] at hx
        simp only [event] at hx
        rw [u2 _ _ _ hx]
        simp [PC.tickets]
      · simp only [setPc, k.2, hoff, pendingAt_false hc h ha.empty hr]
        simp [event, u1]
  | commit id => exact absurd rfl (hreq id)

theorem si_act (hc : c.Ok) {s s' : LSt} {base : Mem} {v : V} {leak : List (Nat × Nat)} (h : LInv c s base v leak) (hs : SI s) {a : Act}
    (ha : act c s a = some s') (hst : a.starts → Idle s) (hnc : ∀ i n bytes, a ≠ .cancel i n bytes) : SI s' ∧ s'.faults = s.faults := by
  have hal : ∀ {i : Nat} {t : Thread}, s.thr i = some t → t.pc ≠ .dead → Alone s i t.pc.tickets := fun h1 h2 => hs.alone h1 h2
  cases a with
  | create key size assoc created id =>
    have ha : create c s key size assoc created id = some s' := ha
    have hi := hs.idle (hst trivial) s.nextCall
    unfold create at ha
    split at ha
    · split at ha
      · cases ha
      · simp only at ha
        split at ha
        · cases ha
          exact ⟨⟨hs.one, hs.ov⟩, rfl⟩
        · split at ha
          · cases ha
            exact ⟨hi.quiet rfl rfl, rfl⟩
          · split at ha <;> (cases ha; exact ⟨hi.quiet rfl rfl, rfl⟩)
    · cases ha
  | createWritten i =>
    simp only [act] at ha
    split at ha
    · rename_i hth
      cases ha
      exact ⟨(hal hth (by simp)).quiet rfl rfl, rfl⟩
    · cases ha
  | createLink i idle =>
    simp only [act] at ha
    split at ha
    · rename_i st o off hth
      split at ha
      · cases ha
        have hA : Alone s i [] := hal hth (by simp)
        unfold link
        simp only
        generalize hq : commitTxn c _ idle _ = q
        have k := commitTxn_ov (c := c) (event { s with ov := ((s.ov.set (.head (c.bkt o.key)) off).1.set (.next o.id) (getHead c s (c.bkt o.key))).1 } i (.created o.key o.id o.size)) idle
          [(c.bkDev + bucketOff (c.bkt o.key), encHead off), (off + ObjectOffsets.nextNode, beBytes 6 (getHead c s (c.bkt o.key)))]
        have k' := commitTxn_same (c := c) (event { s with ov := ((s.ov.set (.head (c.bkt o.key)) off).1.set (.next o.id) (getHead c s (c.bkt o.key))).1 } i (.created o.key o.id o.size)) idle
          [(c.bkDev + bucketOff (c.bkt o.key), encHead off), (off + ObjectOffsets.nextNode, beBytes 6 (getHead c s (c.bkt o.key)))]
        rw [hq] at k k'
        refine ⟨hA.si (by simp only [setPc, k'.2.2.1, event]; rfl) ?_, by simp only [setPc, k.2]; rfl⟩
        intro kk n x hx
        refine ⟨_, rfl, ?_⟩
        simp only [setPc, k.1, event, Overlay.Ov.set] at hx
        simp only [PC.tickets, Overlay.Ov.set, List.mem_cons, Overlay.Ticket.mk.injEq]
        split at hx
        · cases hx; right; left; exact ⟨by assumption, rfl⟩
        · split at hx
          · cases hx; left; exact ⟨by assumption, rfl⟩
          · rw [hA.empty] at hx; cases hx
      · cases ha
    · cases ha
  | lookup req key =>
    have hi := hs.idle (hst trivial) s.nextCall
    simp only [act] at ha
    split at ha
    · cases ha
      exact ⟨hi.quiet rfl rfl, rfl⟩
    · cases ha
  | read i =>
    simp only [act] at ha
    split at ha
    · rename_i hth
      split at ha
      · cases ha
      · cases ha
        exact ⟨(hal hth (by simp)).quiet rfl rfl, rfl⟩
    · cases ha
  | inode i idle =>
    simp only [act] at ha
    split at ha
    · rename_i st req key cur prev raw inc ex hth
      cases ha
      have hA : Alone s i [] := hal hth (by simp)
      have go : ∀ inc ex, SI (setPc s i ⟨st, .dead⟩ (.walk req key (rawNext s raw) (some cur) none inc ex)) ∧ s.faults = s.faults :=
        fun inc ex => ⟨hA.quiet rfl rfl, rfl⟩
      have hpc := (h.thr i _ hth).2
      obtain ⟨vis, rest, q1, q2, _, q4, _⟩ := hpc
      obtain ⟨r, rest', r1, hcp⟩ := q4 raw rfl
      subst r1
      have fnd : (∀ id, req ≠ .commit id) → SI (onFound c s i ⟨st, .dead⟩ req key ⟨cur, prev, raw⟩ idle) ∧ (onFound c s i ⟨st, .dead⟩ req key ⟨cur, prev, raw⟩ idle).faults = s.faults :=
        fun hreq => si_found hc h _ hA idle hreq (linked_of hc h (b := c.bkt key) (r := r) (by rw [q1]; simp)) q2
      unfold onInode
      simp only
      split
      · split
        · exact ⟨hA.quiet rfl rfl, rfl⟩
        · cases req with
          | commit id =>
            simp only
            split
            · exact go _ _
            · split <;> exact go _ _
          | look want => simp only; split; exacts [fnd (by simp), go _ _]
          | write id o l => simp only; split; exacts [fnd (by simp), go _ _]
          | delete want => simp only; split; exacts [fnd (by simp), go _ _]
      · exact go _ _
    · cases ha
  | atEnd i idle =>
    simp only [act] at ha
    split at ha
    · rename_i st req key prev inc ex hth
      cases ha
      have hA : Alone s i [] := hal hth (by simp)
      unfold onEnd
      cases req with
      | look want => exact ⟨hA.quiet rfl rfl, rfl⟩
      | write id o l => exact ⟨hA.quiet rfl rfl, rfl⟩
      | delete want => exact ⟨hA.quiet rfl rfl, rfl⟩
      | commit id =>
        cases inc with
        | none => exact ⟨hA.quiet rfl rfl, rfl⟩
        | some f =>
          have fin : ∀ {s1 : LSt} (tickets : List (Overlay.Ticket Cell)) (ws : List (Nat × List Byte)) (free : List (Nat × Nat)),
              s1.thr = s.thr → s1.faults = s.faults → (∀ k n x, s1.ov.map k = some (n, x) → (⟨k, n⟩ : Overlay.Ticket Cell) ∈ tickets) →
              SI (setPc (commitTxn c (event { s1 with ov := (s1.ov.set (.state id) stCommitted).1 } i (.committed key id)) idle ws).1 i ⟨st, .dead⟩
                (.wait (commitTxn c (event { s1 with ov := (s1.ov.set (.state id) stCommitted).1 } i (.committed key id)) idle ws).2 free
                  ((s1.ov.set (.state id) stCommitted).2 :: tickets) .committed)) ∧
              (setPc (commitTxn c (event { s1 with ov := (s1.ov.set (.state id) stCommitted).1 } i (.committed key id)) idle ws).1 i ⟨st, .dead⟩
                (.wait (commitTxn c (event { s1 with ov := (s1.ov.set (.state id) stCommitted).1 } i (.committed key id)) idle ws).2 free
                  ((s1.ov.set (.state id) stCommitted).2 :: tickets) .committed)).faults = s.faults := by
            intro s1 tickets ws free u1 u2 u3
            have k := commitTxn_ov (c := c) (event { s1 with ov := (s1.ov.set (.state id) stCommitted).1 } i (.committed key id)) idle ws
            have k' := commitTxn_same (c := c) (event { s1 with ov := (s1.ov.set (.state id) stCommitted).1 } i (.committed key id)) idle ws
            refine ⟨hA.si (o := some ⟨st, .wait (commitTxn c (event { s1 with ov := (s1.ov.set (.state id) stCommitted).1 } i (.committed key id)) idle ws).2 free
                  ((s1.ov.set (.state id) stCommitted).2 :: tickets) .committed⟩) (by simp only [setPc, k'.2.2.1]; simp only [event, u1]) ?_, by simp only [setPc, k.2]; simp only [event, u2]⟩
            intro kk n x hx
            refine ⟨_, rfl, ?_⟩
            simp only [setPc, k.1] at hx
            simp only [event, Overlay.Ov.set] at hx
            simp only [PC.tickets, Overlay.Ov.set, List.mem_cons, Overlay.Ticket.mk.injEq]
            split at hx
            · cases hx; left; exact ⟨by assumption, rfl⟩
            · right; exact u3 _ _ _ hx
          have hemp : ∀ k n x, s.ov.map k = some (n, x) → (⟨k, n⟩ : Overlay.Ticket Cell) ∈ ([] : List (Overlay.Ticket Cell)) := hA.ov
          cases ex with
          | none => exact fin _ _ _ rfl rfl hemp
          | some e =>
            simp only
            split
            · exact ⟨hA.quiet rfl rfl, rfl⟩
            · rename_i s1 tk ws free hd
              split at hd
              · cases hd; exact fin _ _ _ rfl rfl hemp
              · rw [Option.map_eq_some_iff] at hd
                obtain ⟨⟨s1', tk', ws', free'⟩, hu, hd⟩ := hd
                cases hd
                obtain ⟨u1, u2⟩ := unlink_ov hu hA.empty
                exact fin _ _ _ (unlink_same hu).2.2.1 u1 (fun k n x hx => by rw [u2 _ _ _ hx]; simp)
    · cases ha
  | signalled i =>
    simp only [act] at ha
    split at ha
    · rename_i st txn free tickets resp hth
      have hA : Alone s i tickets := hal hth (by simp)
      split at ha
      · obtain ⟨a', he⟩ := release_ok h hth rfl
        rw [he] at ha
        cases ha
        exact ⟨hA.si rfl (fun k n x hx => ⟨_, rfl, hA.ov k n x hx⟩), rfl⟩
      · cases ha
    · cases ha
  | evict i =>
    simp only [act] at ha
    split at ha
    · rename_i st tk ks resp hth
      cases ha
      have hA : Alone s i (tk :: ks) := hal hth (by simp)
      refine ⟨hA.si rfl ?_, ?_⟩
      · intro k n x hx
        refine ⟨_, rfl, ?_⟩
        simp only [setPc, Overlay.Ov.evict] at hx
        have key : ∀ n x, s.ov.map k = some (n, x) → (k ≠ tk.key ∨ n ≠ tk.serial) → (⟨k, n⟩ : Overlay.Ticket Cell) ∈ ks := by
          intro n x hx hne
          rcases List.mem_cons.1 (hA.ov k n x hx) with e | e
          · exfalso
            rw [← e] at hne
            simp at hne
          · exact e
        split at hx
        · rename_i e
          split at hx
          · rename_i n' x' hm
            split at hx
            · cases hx
            · rename_i hne
              cases hx
              exact key n x (e ▸ hm) (.inr hne)
          · cases hx
        · rename_i e
          exact key n x hx (.inl e)
      · have : copyHeld s tk.key = false := by
          unfold copyHeld
          rw [List.any_eq_false]
          intro j _
          cases hj : s.thr j with
          | none => simp
          | some t =>
            by_cases e : j = i
            · subst e
              rw [hth] at hj
              cases hj
              simp [PC.raws]
            · simp [hA.only j t e hj, PC.raws]
        simp [setPc, this]
    · cases ha
  | respond i =>
    simp only [act] at ha
    split at ha
    · rename_i hth
      cases ha
      exact ⟨(hal hth (by simp)).quiet rfl rfl, rfl⟩
    · cases ha
  | data i n skip bytes =>
    simp only [act] at ha
    split at ha
    · split at ha
      · split at ha
        · cases ha
          exact ⟨⟨hs.one, hs.ov⟩, rfl⟩
        · cases ha
      · cases ha
    · cases ha
  | writeEnd i r =>
    simp only [act] at ha
    split at ha
    · rename_i hth
      cases ha
      exact ⟨(hal hth (by simp)).quiet rfl rfl, rfl⟩
    · cases ha
  | drop i =>
    simp only [act] at ha
    split at ha
    · rename_i hth
      cases ha
      exact ⟨(hal hth (by simp)).quiet rfl rfl, rfl⟩
    · rename_i hth
      cases ha
      exact ⟨(hal hth (by simp)).quiet rfl rfl, rfl⟩
    · cases ha
  | cancel i n bytes => exact absurd rfl (hnc i n bytes)
  | orphan n =>
    simp only [act] at ha
    split at ha
    · cases ha
      exact ⟨⟨hs.one, hs.ov⟩, rfl⟩
    · cases ha

theorem SeqReach.reach {s : LSt} (h : SeqReach c s) : Reach c s := by
  induction h with
  | fresh h => exact .fresh h
  | act a _ ha _ _ ih => exact .step ih (.act a ha)
  | journal _ hj hh ih => exact .step ih (.journal hj hh)

theorem seq_faults (hc : c.Ok) {s : LSt} (h : SeqReach c s) : SI s ∧ s.faults = [] := by
  induction h with
  | fresh h =>
    unfold fresh at h
    split at h
    · cases h
      exact ⟨⟨by simp, by simp⟩, rfl⟩
    · cases h
  | act a hr ha hst hnc ih =>
    obtain ⟨base, v, leak, hi⟩ := reach_inv hc hr.reach ih.2
    obtain ⟨k1, k2⟩ := si_act hc hi ih.1 ha hst hnc
    exact ⟨k1, k2.trans ih.2⟩
  | journal _ hj hh ih => exact ⟨⟨ih.1.one, ih.1.ov⟩, ih.2⟩

end
end Lite
end Blobd
