import Verif.Proofs.LiteCreates
set_option autoImplicit false
/-! # Buckets in which a delete is pending -/
namespace Blobd
namespace Lite
open Spec

variable {c : LCfg}

theorem commitTxn_lin' (s : LSt) (idle : Bool) (ws : List (Nat × List Byte)) : (commitTxn c s idle ws).1.lin = s.lin := (commitTxn_lin _ _ _).1

theorem unlink_lin' {s s1 : LSt} {b : Nat} {f : Found} {tk : Overlay.Ticket Cell} {ws : List (Nat × List Byte)} {free : List (Nat × Nat)}
    (h : unlink c s b f = some (s1, tk, ws, free)) : s1.lin = s.lin := by
  unfold unlink at h
  simp only at h
  split at h
  · cases h
  · split at h <;> (simp only [Option.some.injEq, Prod.mk.injEq] at h; obtain ⟨rfl, _⟩ := h; rfl)

/-- the step in which a delete takes effect through the journal -/
structure RemovedAct (c : LCfg) (s s' : LSt) (i n : Nat) (k : List Byte) (want : Option Nat) (id : Nat) (free : List (Nat × Nat)) : Prop where
  ex : ∃ st cur raw inc ex, s.thr i = some ⟨st, .walk (.delete want) k cur none (some raw) inc ex⟩ ∧ id = rdId (ofBytes raw) 0 ∧
    rdKey (ofBytes raw) 0 = k ∧ rawState s raw = stCommitted ∧ recPages c.pages s.j.dev cur (rdMetaPow2 (ofBytes raw) 0) = some free
  dev : s'.j.dev = s.j.dev
  num : n = s.j.hist.length
  hist : ∃ t, s'.j.hist = s.j.hist ++ [t] ∧ ∀ w ∈ t.writes, w.1 = c.bkDev + bucketOff (c.bkt k)

theorem removed_act {s s' : LSt} {a : Act} (ha : act c s a = some s') {i n : Nat} {k : List Byte} {want : Option Nat} {id : Nat}
    {st : Begun} {free : List (Nat × Nat)} {ts : List (Overlay.Ticket Cell)} {rs : Resp}
    (hl : s'.lin = s.lin ++ [(i, .removed k want id)]) (hw : s'.thr i = some ⟨st, .wait (some n) free ts rs⟩) :
    RemovedAct c s s' i n k want id free := by
  have no : ∀ {P : Prop}, s'.lin = s.lin → P := by
    intro P e
    rw [e] at hl
    simp at hl
  have no1 : ∀ {P : Prop} {j : Nat} {e : Ev}, s'.lin = s.lin ++ [(j, e)] → (∀ k w id, e ≠ .removed k w id) → P := by
    intro P j e h1 h2
    rw [h1] at hl
    simp only [List.append_cancel_left_eq, List.cons.injEq, Prod.mk.injEq, and_true] at hl
    exact absurd hl.2 (h2 _ _ _)
  cases a with
  | create key size assoc created id =>
    have h : create c s key size assoc created id = some s' := ha
    unfold create at h
    split at h
    · split at h
      · cases h
      · simp only at h
        split at h
        · cases h; exact no rfl
        · split at h
          · cases h; exact no rfl
          · split at h <;> cases h <;> exact no rfl
    · cases h
  | createWritten i =>
    simp only [act] at ha
    split at ha <;> cases ha
    exact no rfl
  | createLink i idle =>
    simp only [act] at ha
    split at ha
    · split at ha
      · cases ha
        rename_i o off _ _
        refine no1 (j := i) (e := .created o.key o.id o.size) ?_ (fun _ _ _ h => by cases h)
        simp only [link, setPc]
        rw [commitTxn_lin']
        rfl
      · cases ha
    · cases ha
  | lookup req key =>
    simp only [act] at ha
    split at ha <;> cases ha
    exact no rfl
  | read i =>
    simp only [act] at ha
    split at ha
    · split at ha <;> cases ha
      exact no rfl
    · cases ha
  | inode i' idle =>
    simp only [act] at ha
    split at ha
    · rename_i st0 req key cur prev raw inc ex ht
      have h := Option.some.inj ha
      have key1 : ∀ q, rdKey (ofBytes raw) 0 = key → req = q → rawState s raw = q.expects.1 → onFound c s i' ⟨st0, .dead⟩ q key ⟨cur, prev, raw⟩ idle = s' →
          RemovedAct c s s' i n k want id free := by
        intro q hkey hq hst h
        subst h
        cases q with
        | look w => exact no1 (j := i') (e := .found key w _ _) rfl (fun _ _ _ h => by cases h)
        | write wid offset len =>
          simp only [onFound] at hl
          split at hl
          · simp [respond, event] at hl
          · split at hl <;> simp [setPc, event] at hl
        | commit id => exact no rfl
        | delete w =>
          cases hu : unlink c s (c.bkt key) ⟨cur, prev, raw⟩ with
          | none =>
            refine no ?_
            simp only [onFound, hu, setPc]
          | some q =>
            obtain ⟨s1, tk, ws, fr⟩ := q
            simp only [onFound, hu] at hl hw ⊢
            simp only [setPc, commitTxn_lin', event, unlink_lin' hu, List.append_cancel_left_eq, List.cons.injEq, Prod.mk.injEq, and_true,
              Ev.removed.injEq] at hl
            obtain ⟨rfl, rfl, rfl, rfl⟩ := hl
            simp only [setPc, upd, if_pos, Option.some.injEq, Thread.mk.injEq, PC.wait.injEq] at hw
            obtain ⟨_, hn, rfl, _⟩ := hw
            unfold unlink at hu
            simp only at hu
            cases hp : recPages c.pages s.j.dev cur (rdMetaPow2 (ofBytes raw) 0) with
            | none => rw [hp] at hu; cases hu
            | some fr' =>
              rw [hp] at hu
              cases prev with
              | some p =>
                simp only [Option.some.injEq, Prod.mk.injEq] at hu
                obtain ⟨rfl, rfl, rfl, rfl⟩ := hu
                simp [commitTxn, Journal.commit] at hn
              | none =>
                simp only [Option.some.injEq, Prod.mk.injEq] at hu
                obtain ⟨rfl, rfl, rfl, rfl⟩ := hu
                subst hq
                refine ⟨⟨_, _, _, _, _, ht, rfl, hkey, hst, hp⟩, ?_, ?_, ?_⟩
                · simp only [setPc]; rw [commitTxn_dev]; rfl
                · simp only [commitTxn] at hn
                  split at hn
                  · cases hn
                  · rename_i j' hj
                    cases hn
                    rw [fold_id]
                    rfl
                · simp only [commitTxn, setPc] at hn ⊢
                  split at hn
                  · cases hn
                  · rename_i j' hj
                    refine ⟨_, (Overlay.commit_hist hj).1, ?_⟩
                    simp only [List.foldl_cons, List.foldl_nil, Journal.Txn.write]
                    split
                    · simp
                    · simp
      simp only [onInode] at h
      split at h
      · rename_i hkey
        split at h
        · subst h; exact no rfl
        · split at h
          · split at h
            · subst h; exact no rfl
            · split at h <;> (subst h; exact no rfl)
          · split at h
            · rename_i hcond
              exact key1 _ hkey rfl hcond.1 h
            · subst h; exact no rfl
      · subst h; exact no rfl
    · cases ha
  | atEnd i' idle =>
    simp only [act] at ha
    split at ha
    · rename_i st0 req key prev inc ex ht
      have h := Option.some.inj ha
      subst h
      cases req with
      | look want => exact no1 (by rfl) (fun _ _ _ h => by cases h)
      | write wid offset len => exact no1 (by rfl) (fun _ _ _ h => by cases h)
      | delete want => exact no1 (by rfl) (fun _ _ _ h => by cases h)
      | commit id' =>
        cases inc with
        | none => exact no1 (by rfl) (fun _ _ _ h => by cases h)
        | some f =>
          cases ex with
          | none =>
            refine no1 ?_ (j := i') (e := .committed key id') (fun _ _ _ h => by cases h)
            simp only [onEnd, setPc]
            rw [commitTxn_lin']
            rfl
          | some e =>
            by_cases hv : c.versioning = true
            · refine no1 ?_ (j := i') (e := .committed key id') (fun _ _ _ h => by cases h)
              simp only [onEnd, hv, if_true, setPc]
              rw [commitTxn_lin']
              rfl
            · cases hu : unlink c s (c.bkt key) e with
              | none =>
                refine no ?_
                simp only [onEnd, if_neg hv, hu, Option.map_none, setPc]
              | some q =>
                obtain ⟨s1, tk, ws, fr⟩ := q
                refine no1 ?_ (j := i') (e := .committed key id') (fun _ _ _ h => by cases h)
                simp only [onEnd, if_neg hv, hu, Option.map_some, setPc]
                rw [commitTxn_lin']
                simp only [event, unlink_lin' hu]
    · cases ha
  | signalled i =>
    simp only [act] at ha
    split at ha
    · split at ha
      · split at ha <;> cases ha <;> exact no rfl
      · cases ha
    · cases ha
  | evict i =>
    simp only [act] at ha
    split at ha <;> cases ha
    exact no rfl
  | respond i =>
    simp only [act] at ha
    split at ha <;> cases ha
    exact no rfl
  | data i n skip bytes =>
    simp only [act] at ha
    split at ha
    · split at ha
      · split at ha <;> cases ha
        exact no rfl
      · cases ha
    · cases ha
  | writeEnd i r =>
    simp only [act] at ha
    split at ha <;> cases ha
    exact no rfl
  | drop i =>
    simp only [act] at ha
    split at ha <;> cases ha <;> exact no rfl
  | cancel i n bytes =>
    simp only [act] at ha
    split at ha
    · split at ha
      · split at ha <;> cases ha
        exact no rfl
      · cases ha
    · cases ha
  | orphan n =>
    simp only [act] at ha
    split at ha <;> cases ha
    exact no rfl

/-- versions keep the size their create had -/
theorem abs_made {vs : Bool} {evs : List Ev} : ∀ {a : Abs}, absRun vs evs = some a → ∀ k, ∀ v ∈ a k, Ev.created k v.id v.size ∈ evs := by
  induction evs using List.reverseRecOn with
  | nil =>
    intro a h k v hv
    cases h
    cases hv
  | append_singleton evs e ih =>
    intro a h k v hv
    cases h0 : absRun vs evs with
    | none =>
      unfold absRun at h h0
      rw [List.foldlM_append, h0] at h
      cases h
    | some a0 =>
      rw [absRun_snoc h0] at h
      have up : ∀ {v : Ver}, v ∈ a0 k → Ev.created k v.id v.size ∈ evs ++ [e] := fun hv => List.mem_append_left _ (ih h0 k _ hv)
      cases e with
      | created k' id size =>
        simp only [absStep, Option.some.injEq] at h
        subst h
        unfold Abs.set at hv
        split at hv
        · rename_i e
          subst e
          rcases List.mem_cons.1 hv with rfl | hv
          · simp
          · exact up hv
        · exact up hv
      | committed k' id =>
        simp only [absStep] at h
        split at h
        · cases h
          unfold Abs.set at hv
          split at hv
          · rename_i e
            subst e
            obtain ⟨v0, h1, rfl⟩ := List.mem_map.1 hv
            have := up (List.mem_filter.1 h1).1
            split <;> exact this
          · exact up hv
        · cases h
      | removed k' want id =>
        simp only [absStep] at h
        split at h
        · split at h
          · cases h
            unfold Abs.set at hv
            split at hv
            · rename_i e
              subst e
              exact up (List.mem_filter.1 hv).1
            · exact up hv
          · cases h
        · cases h
      | found k' want id size =>
        simp only [absStep] at h
        split at h
        · split at h <;> cases h
          exact up hv
        · cases h
      | missing k' want =>
        simp only [absStep] at h
        split at h <;> cases h
        exact up hv
      | opened k' id size =>
        simp only [absStep] at h
        split at h
        · split at h <;> cases h
          exact up hv
        · cases h
      | refused k' id =>
        simp only [absStep] at h
        split at h <;> cases h
        exact up hv

section
variable (hc : c.Ok) {s : LSt} {base : Mem} {v : V} {leak : List (Nat × Nat)} (h : LInv c s base v leak)
include hc h

theorem other_rec {x y : Own × Rec} (hx : x ∈ v.recs) (hy : y ∈ v.recs) (hne : x ≠ y) {p : Nat × Nat} (hp : p ∈ regs c.pages x.2) {z : Nat}
    (h1 : p.1 ≤ z) (h2 : z < p.1 + 2 ^ p.2) : ¬ (y.2.off ≤ z ∧ z < y.2.off + 2 ^ y.2.o.metaSizePow2) := by
  have ge := h.geo hc
  have ho : x.2.off ≠ y.2.off := fun e => hne (rec_unique h.good hx hy e)
  have := ge.apart x hx y hy ho p hp _ (meta_mem _)
  unfold PageDisj at this
  simp only at this
  omega

/-- calls do not write into the record of an object whose pages are about to be released -/
theorem act_rec {s' : LSt} {a : Act} (ha : act c s a = some s') {i : Nat} {r : Rec} (hr : (Own.dying i, r) ∈ v.recs) {y : Nat}
    (h1 : r.off ≤ y) (h2 : y < r.off + 2 ^ r.o.metaSizePow2) : s'.j.dev y = s.j.dev y := by
  have ge := h.geo hc
  have ptr : ∀ {p x : Nat}, (∃ q, (Own.linked, q) ∈ v.recs ∧ q.off = p) → s'.j.dev = s.j.dev.write (p + ObjectOffsets.nextNode) (beBytes 6 x) →
      s'.j.dev y = s.j.dev y := by
    intro p x hq e
    obtain ⟨q, q1, q2⟩ := hq
    have hpow := (ge.off q1).2.2.2
    simp only at hpow
    rw [e]
    apply Mem.write_out
    rw [length_beBytes, show ObjectOffsets.nextNode = 2 from rfl]
    apply Classical.byContradiction
    intro hcon
    exact other_rec hc h q1 hr (fun e => by cases e) (meta_mem _) (z := y) (by simp only; omega) (by simp only; omega) ⟨h1, h2⟩
  cases act_dev ha with
  | same e => exact congrFun e _
  | create i' st o off ht e =>
    obtain ⟨a1, a2, a3⟩ := record_in hc h ht
    rw [e]
    apply Mem.write_out
    apply Classical.byContradiction
    intro hcon
    exact other_rec hc h a1 hr (fun e => by cases e) (meta_mem _) (z := y) (by simp only; omega) (by simp only; omega) ⟨h1, h2⟩
  | data i' st key id targets t n skip bytes ea ht hn hle e =>
    obtain ⟨q, p, b1, b2, b3, b4, b5⟩ := part_in hc h ht (List.mem_of_getElem? hn)
    rw [e]
    apply Mem.write_out
    apply Classical.byContradiction
    intro hcon
    exact other_rec hc h b1 hr (fun e => by cases e) (p := p) (by simp [regs, b3]) (z := y) (by omega) (by omega) ⟨h1, h2⟩
  | found i' st req key cur p raw inc ex x ht e =>
    obtain ⟨vis, rest, e1, _, e3, _⟩ := (h.thr i' _ ht).2
    exact ptr (prev_rec hc h e1 e3) e
  | replaced i' st id key cur p prev inc f x ht hp e =>
    obtain ⟨vis, rest, e1, _, _, _, e5⟩ := (h.thr i' _ ht).2
    obtain ⟨a, r', d, f1, f2, f3, f4, _⟩ := e5.2
    rw [hp] at f4
    exact ptr (prev_rec hc h (vis := a) (rest := r' :: d ++ rest) (by rw [e1, f1]; simp) f4) e
  | orphan e => exact absurd h.orph e

/-- … and neither does the journal, when it has nothing for it -/
theorem journal_rec {j' : Journal.State} (hs : Journal.Step c.jc s.j j') (hh : j'.hist = s.j.hist) {i : Nat} {r : Rec} (hr : (Own.dying i, r) ∈ v.recs)
    (hq : ∀ t ∈ unacked s.j, ∀ w ∈ t.writes, w.1 ≠ r.off ∧ w.1 ≠ r.off + 2) {y : Nat} (y1 : r.off ≤ y) (y2 : y < r.off + 2 ^ r.o.metaSizePow2) :
    j'.dev y = s.j.dev y := by
  have ge := h.geo hc
  have ho := (ge.off hr).1
  simp only at ho
  have q : Quiet s.j y := by
    intro t ht w hw
    apply Classical.byContradiction
    intro hcon
    have := (pend_at_rec hc h.good ge hr (h.U ▸ ht) hw (y := y) (by omega) (by omega) y1 y2).2
    have := hq t ht w hw
    simp only at *
    omega
  have o : Journal.Outside c.jc y := outside_heap hc h.good ge h.jinv h.L h.U (by omega)
  obtain ⟨done, g1, g2, g3⟩ := h.jinv.step hc.jok hs hh
  rw [h.jinv.dev_eq o q, g1.dev_eq o, logical_step g2]
  intro t ht w hw
  exact q t (by rw [g2]; simp [ht]) w hw

/-- a call that waits to release the pages of `r` -/
theorem dying_of {i n : Nat} {st : Begun} {r : Rec} {ts : List (Overlay.Ticket Cell)} {rs : Resp}
    (ht : s.thr i = some ⟨st, .wait (some n) (regs c.pages r) ts rs⟩) :
    ∃ q, (Own.dying i, q) ∈ v.recs ∧ q.off = r.off ∧ q.o.metaSizePow2 = r.o.metaSizePow2 ∧ Done v.U (some n) r.off ∧ Done v.U (some n) (r.off + 2) := by
  obtain ⟨_, h2⟩ := (h.thr i _ ht).2
  rcases h2 with h2 | ⟨q, q1, q2, q3, q4⟩
  · exact absurd h2 (by simp [regs])
  · have e := congrArg List.getLast? q2
    simp only [regs, List.getLast?_append, List.getLast?_singleton, Option.some_or, Option.some.injEq, Prod.mk.injEq] at e
    rw [e.1, e.2]
    exact ⟨q, q1, rfl, rfl, q3, q4⟩

end

/-- the pending delete `i` -/
structure PendingDelete (c : LCfg) (s : LSt) (v : V) (i n : Nat) (k : List Byte) (d : Nat) (r : Rec) : Prop where
  call : ∀ t, s.thr i = some t → callKey t.start.call = k ∧ callChanges t.start.call = true
  thr : ∃ st ts rs, s.thr i = some ⟨st, .wait (some n) (regs c.pages r) ts rs⟩
  fit : RecFits c.pages r.o
  id : r.o.id = d
  key : r.o.key = k
  made : Ev.created k d r.o.size ∈ s.lin.map (·.2)
  lt : n < s.j.hist.length
  before : ∀ t ∈ unacked s.j, t.id < n → ∀ w ∈ t.writes, w.1 ≠ c.bkDev + bucketOff (c.bkt k)
  quiet : ∀ t ∈ unacked s.j, t.id ≤ n → ∀ w ∈ t.writes, w.1 ≠ r.off ∧ w.1 ≠ r.off + 2
  head : ¬ Flying s.j n → rdHead s.j.dev c.bkDev (c.bkt k) = r.off
  kept : At r.o s.j.dev r.off
  state : rdState s.j.dev r.off = stCommitted
  next : rdNext s.j.dev r.off = headOff (v.ch (c.bkt k))
  states : ∀ q ∈ v.ch (c.bkt k), s.ov.map (.state q.o.id) = none
  nexts : ∀ q ∈ v.ch (c.bkt k), s.ov.map (.next q.o.id) = none
  first : ∃ pre post want y l, s.lin = pre ++ (i, .removed k want d) :: post ∧ absRun c.versioning (pre.map (·.2)) = some y ∧
    y k = ⟨d, r.o.size, true⟩ :: l

/-- every delete that waits for the journal is such -/
def Deletes (c : LCfg) (s : LSt) (v : V) : Prop :=
  ∀ i t n k want id, s.thr i = some t → t.pc.waiting = some n → n ∉ s.j.acked → (i, .removed k want id) ∈ s.lin →
    ∃ r, PendingDelete c s v i n k id r

/-- the record as a whole is as it was -/
theorem rec_kept {m m' : Mem} {r : Rec} (hf : r.o.off.totalSize ≤ 2 ^ r.o.metaSizePow2) (h8 : 8 ≤ 2 ^ r.o.metaSizePow2)
    (he : ∀ y, r.off ≤ y → y < r.off + 2 ^ r.o.metaSizePow2 → m' y = m y) :
    (At r.o m r.off → At r.o m' r.off) ∧ rdState m' r.off = rdState m r.off ∧ rdNext m' r.off = rdNext m r.off := by
  refine ⟨fun h => h.congr ?_, rdState_congr (he _ (Nat.le_refl _) (by omega)), rdNext_congr ?_⟩
  · intro x h1 h2
    exact he x (by omega) (by omega)
  · intro x h1 h2
    exact he x (by omega) (by omega)

theorem deletes_act (hc : c.Ok) {s s' : LSt} (hr : Reach c s) (hf : s.faults = []) (hd : DI c s) (hr' : Reach c s') (hf' : s'.faults = []) (hd' : DI c s')
    {base base' : Mem} {v v' : V} {leak leak' : List (Nat × Nat)} (h : LInv c s base v leak) (q : QB c s v) (h' : LInv c s' base' v' leak')
    (hrel : ChRel c v v' s.lin s'.lin) {a : Act} (ha : act c s a = some s') (ht : TkEff c s s') (hk : Deletes c s v) : Deletes c s' v' := by
  have ai := reach_ai hr
  obtain ⟨did, ja⟩ := act_did ha
  have hjt := act_j ha (fun i t ht => (h.thr i t ht).1)
  have bound : ∀ k, c.bkt k < 2 ^ c.bits := fun k => bkt_lt hc k
  have ge := h.geo hc
  -- transactions of `s'`
  have hun : ∀ t ∈ unacked s'.j, t ∈ unacked s.j ∨ t.id = s.j.hist.length := by
    intro t htu
    rcases hjt with ⟨h1, h2, _⟩ | ⟨i, e, idle, tx, m, t0, t1, g1, g2, g3, _⟩
    · left
      unfold unacked at htu ⊢
      rwa [h1, h2] at htu
    · obtain ⟨c1, c2⟩ := Overlay.commit_hist g2
      have hu : unacked s'.j = unacked s.j ++ [tx] := by
        unfold unacked
        rw [c1, c2]
        exact List.drop_append_of_le_length h.jinv.len
      rw [hu, List.mem_append, List.mem_singleton] at htu
      rcases htu with htu | rfl
      · exact .inl htu
      · exact .inr g3
  obtain ⟨hl, hhist⟩ := ja.hist
  have hfly : ∀ n, Flying s'.j n ↔ Flying s.j n := by
    intro n; unfold Flying; rw [ja.phase]
  have hlinsub : ∀ e, e ∈ s.lin.map (·.2) → e ∈ s'.lin.map (·.2) := by
    intro e he
    rcases hrel with ⟨e', _⟩ | ⟨_, _, e', _⟩
    · rw [e']; exact he
    · rw [e', List.map_append]; exact List.mem_append_left _ he
  -- a call that is not touched
  have same : ∀ {i n : Nat} {k : List Byte} {id : Nat} {r : Rec}, PendingDelete c s v i n k id r → (∃ t, s.thr i = some t ∧ t.pc ≠ .dead) →
      s'.thr i = s.thr i → v'.ch (c.bkt k) = v.ch (c.bkt k) → PendingDelete c s' v' i n k id r := by
    intro i n k id r hp hlive hti hch
    obtain ⟨ti, hti0, hlv⟩ := hlive
    have none_keep : ∀ {kc : Cell} {q : Rec}, q ∈ v.ch (c.bkt k) → (kc = .state q.o.id ∨ kc = .next q.o.id) → s.ov.map kc = none → s'.ov.map kc = none := by
      intro kc qr hqm hkc hnone
      cases ht with
      | keep e1 _ _ => rw [e1]; exact hnone
      | evict _ _ _ tk _ _ _ e1 _ => rw [e1]; exact evict_sub hnone
      | set j tj tj' e x g1 g2 g3 g4 g5 g6 g7 g8 g9 =>
        cases hm : s'.ov.map kc with
        | none => rfl
        | some p =>
          exfalso
          rcases g6 kc p.1 p.2 hm with ho | ⟨htk, _⟩
          · rw [hnone] at ho; cases ho
          · have hne : i ≠ j := by
              rintro rfl
              rw [g3] at hti
              unfold upd at hti
              rw [if_pos rfl, g1] at hti
              cases hti
              rw [g2] at htk
              cases htk
            have hj' : s'.thr j = some tj' := by rw [g3]; simp [upd]
            have ok := hd'.tk j tj' hj' _ htk
            obtain ⟨k1, n1, q1, q2⟩ := ok.made qr.o.id hkc
            obtain ⟨k2, n2, q3, q4⟩ := made_of hc hr' hf' h' (b := c.bkt k) (r := qr) (by rw [hch]; exact hqm)
            have hbk : c.bkt (callKey ti.start.call) = c.bkt (callKey tj'.start.call) := by
              rw [← q2, created_unique hc hr' hf' q1 q3, q4, (hp.call ti hti0).1]
            have := hd'.one i j ti tj' (by rw [hti]; exact hti0) hj' hlv (tks_live (List.ne_nil_of_mem htk)) hne hbk
            rw [(hp.call ti hti0).2] at this
            cases this
    obtain ⟨st, ts, rs, hth⟩ := hp.thr
    obtain ⟨qd, d1, d2, d3, _, _⟩ := dying_of hc h hth
    have h8 := (ge.off d1).2.2.2
    simp only [d3] at h8
    obtain ⟨w1, w2, w3⟩ := rec_kept (m := s.j.dev) (m' := s'.j.dev) (r := r) hp.fit.room (by omega) (fun y y1 y2 =>
      act_rec hc h ha d1 (by rw [d2]; exact y1) (by rw [d2, d3]; exact y2))
    refine ⟨by rw [hti]; exact hp.call, ⟨st, ts, rs, by rw [hti]; exact hth⟩, hp.fit, hp.id, hp.key, hlinsub _ hp.made,
      by rw [hhist, List.length_append]; have := hp.lt; omega, ?_, ?_, ?_, w1 hp.kept, w2.trans hp.state, by rw [w3, hch]; exact hp.next, ?_, ?_, ?_⟩
    · intro t htu hlt
      rcases hun t htu with htu | e
      · exact hp.before t htu hlt
      · have := hp.lt; omega
    · intro t htu hlt
      rcases hun t htu with htu | e
      · exact hp.quiet t htu hlt
      · have := hp.lt; omega
    · intro hnf
      rw [act_heads hc h ha (bound k)]
      exact hp.head (fun e => hnf ((hfly n).2 e))
    · intro qr hq
      rw [hch] at hq
      exact none_keep hq (.inl rfl) (hp.states qr hq)
    · intro qr hq
      rw [hch] at hq
      exact none_keep hq (.inr rfl) (hp.nexts qr hq)
    · obtain ⟨pre, post, want, y, l, z1, z2, z3⟩ := hp.first
      rcases hrel with ⟨e', _⟩ | ⟨i', e, e', _⟩
      · exact ⟨pre, post, want, y, l, by rw [e']; exact z1, z2, z3⟩
      · exact ⟨pre, post ++ [(i', e)], want, y, l, by rw [e', z1]; simp, z2, z3⟩
  intro i t n k want id hi hw hna hev
  obtain ⟨f, ts, rs, hpc⟩ := waiting_wait hw
  have hna0 : n ∉ s.j.acked := by rw [← ja.acked]; exact hna
  have nolin : s'.lin = s.lin → v'.ch = v.ch := by
    intro e
    rcases hrel with ⟨_, e'⟩ | ⟨_, _, e', _⟩
    · exact e'
    · rw [e] at e'; exact absurd (congrArg List.length e') (by simp)
  have calm : ∀ {j : Nat} {evs : List Ev}, s'.lin = s.lin ++ evs.map (fun e => (j, e)) → (∀ e ∈ evs, ¬ e.alters) → v'.ch = v.ch := by
    intro j evs hl he
    rcases hrel with ⟨_, e'⟩ | ⟨i', e, e', hce⟩
    · exact e'
    · rw [hl] at e'
      have := List.append_cancel_left e'
      match evs, this with
      | [e0], this =>
        simp only [List.map_cons, List.map_nil, List.cons.injEq, Prod.mk.injEq, and_true] at this
        exact chEff_calm hce (by rw [← this.2]; exact he e0 (by simp))
  have other : ∀ {j : Nat} {evs : List Ev}, s'.lin = s.lin ++ evs.map (fun e => (j, e)) → i ≠ j → (i, Ev.removed k want id) ∈ s.lin := by
    intro j evs hl hne
    rw [hl, List.mem_append] at hev
    rcases hev with hev | hev
    · exact hev
    · obtain ⟨_, _, e⟩ := List.mem_map.1 hev
      cases e
      exact absurd rfl hne
  have live : t.pc ≠ .dead := by rw [hpc]; simp
  cases did with
  | silent e1 e2 _ =>
    rw [e1] at hi
    obtain ⟨r, hp⟩ := hk i t n k want id hi hw hna0 (by rw [← e2]; exact hev)
    exact ⟨r, same hp ⟨t, hi, live⟩ (by rw [e1]) (by rw [nolin e2])⟩
  | start t0 e1 e2 e3 =>
    have hne : i ≠ s.nextCall := by
      rintro rfl
      rw [e1] at hi
      simp only [upd, if_pos] at hi
      cases hi
      exact e3 _ _ _ _ hpc
    have hti : s'.thr i = s.thr i := by rw [e1]; simp [upd, hne]
    rw [hti] at hi
    obtain ⟨r, hp⟩ := hk i t n k want id hi hw hna0 (by rw [← e2]; exact hev)
    exact ⟨r, same hp ⟨t, hi, live⟩ hti (by rw [nolin e2])⟩
  | answer j tj evs ak e1 e2 e3 e4 _ _ _ _ =>
    have hne : i ≠ j := by
      rintro rfl
      rw [e2] at hi
      simp [upd] at hi
    have hti : s'.thr i = s.thr i := by rw [e2]; simp [upd, hne]
    rw [hti] at hi
    obtain ⟨r, hp⟩ := hk i t n k want id hi hw hna0 (other e3 hne)
    exact ⟨r, same hp ⟨t, hi, live⟩ hti (by rw [calm e3 e4])⟩
  | move j tj pc' evs e1 e2 e3 e4 =>
    by_cases hne : i = j
    · subst hne
      have hti : s'.thr i = some ⟨tj.start, pc'⟩ := by rw [e2]; simp [upd]
      rw [hti] at hi
      cases hi
      obtain ⟨st, pcj⟩ := tj
      simp only at hpc hw e4 e1 hti
      subst hpc
      cases e4 with
      | link hlock hlt =>
        exfalso
        have hold : ∀ e, (i, e) ∉ s.lin := (reach_single hr i _ e1).1 trivial
        rw [e3, List.mem_append] at hev
        rcases hev with hev | hev
        · exact hold _ hev
        · simp at hev
      | change hx _ hkey hlt =>
        rename_i req key cur prev raw inc ex e
        have hold : ∀ e, (i, e) ∉ s.lin := (reach_single hr i _ e1).1 trivial
        rw [e3, List.mem_append] at hev
        rcases hev with hev | hev
        · exact absurd hev (hold _)
        simp only [List.map_cons, List.map_nil, List.mem_singleton, Prod.mk.injEq, true_and] at hev
        subst hev
        have e3' : s'.lin = s.lin ++ [(i, .removed k want id)] := e3
        have ra := removed_act ha e3' hti
        obtain ⟨st1, cur1, raw1, inc1, ex1, r1, r2, r3, r4, r5⟩ := ra.ex
        rw [e1] at r1
        cases r1
        have hcall : st.call = .lookup (.delete want) k := ((ai.thr i _ e1).2.2).2
        have hkey : callKey st.call = k := by rw [hcall]; rfl
        have hlone : ∀ kc, CellOf v (c.bkt k) kc → s.ov.map kc = none := fun kc hkc =>
          lone hc hr hf h q hd e1 rfl (by simp) (by simp only [hkey]; exact hkc)
        obtain ⟨vis, rest, p1, p2, p3, p4, _⟩ := (h.thr i _ e1).2
        have hvis : vis = [] := by
          unfold prevOff at p3
          cases hv : vis.getLast? with
          | none => exact List.getLast?_eq_none_iff.1 hv
          | some _ => rw [hv] at p3; cases p3
        subst hvis
        obtain ⟨r, rest', p5, hcp⟩ := p4 _ rfl
        subst p5
        simp only [List.nil_append] at p1
        rw [p2, show headOff (r :: rest') = r.off from rfl] at r5
        have hrm : r ∈ v.ch (c.bkt k) := by rw [p1]; simp
        have hrl := linked_of hc h hrm
        have hfit := (h.good.fit _ hrl).1
        have hat := dev_at hc h.good ge h.jinv h.L h.U hrl
        have hfree : f = regs c.pages r := by
          rw [hcp.pow2, recPages_eq hc.rw hat hfit] at r5
          exact (Option.some.inj r5).symm
        subst hfree
        have hid : r.o.id = id := by rw [r2, hcp.id]
        have hkk : r.o.key = k := by rw [← r3, hcp.key]
        have hnd := h.good.chn (c.bkt k)
        have hch : v'.ch (c.bkt k) = rest' := by
          rcases hrel with ⟨e', _⟩ | ⟨i', e, e', hce⟩
          · rw [e'] at e3; simp at e3
          · rw [e3'] at e'
            have := List.append_cancel_left e'
            simp only [List.cons.injEq, Prod.mk.injEq, and_true] at this
            obtain ⟨rfl, rfl⟩ := this
            obtain ⟨pre, r2', post, c1, c2, c3, c4⟩ := hce
            have hr2 : r2' = r := by
              have := h.good.uniqId (linked_of hc h (b := c.bkt k) (r := r2') (by rw [c1]; simp)) hrl (c2.trans hid.symm)
              cases this
              rfl
            subst hr2
            have hpre : pre = [] := by
              cases pre with
              | nil => rfl
              | cons x l =>
                exfalso
                rw [p1] at c1
                simp only [List.cons_append, List.cons.injEq] at c1
                rw [p1] at hnd
                simp only [List.map_cons, List.nodup_cons, c1.2] at hnd
                exact hnd.1 (by simp)
            subst hpre
            rw [p1] at c1
            simp only [List.nil_append, List.cons.injEq, true_and] at c1
            rw [c4, ← c1]
            simp [upd]
        have hmid : ∀ qr ∈ rest', qr.o.id ≠ r.o.id := by
          intro qr hqr e
          have := h.good.uniqId (linked_of hc h (b := c.bkt k) (r := qr) (by rw [p1]; simp [hqr])) hrl e
          cases this
          rw [p1] at hnd
          simp only [List.map_cons, List.nodup_cons] at hnd
          exact hnd.1 (List.mem_map.2 ⟨_, hqr, rfl⟩)
        have hlr : ∀ kc, kc = .state r.o.id ∨ kc = .next r.o.id → s.ov.map kc = none := fun kc hkc => hlone kc (.inr ⟨r, hrm, hkc⟩)
        have setby : ∀ {kc : Cell}, s.ov.map kc = none → s'.ov.map kc ≠ none → kc = .head (c.bkt k) ∨ kc = .next id := by
          intro kc h0 h1
          cases hm : s'.ov.map kc with
          | none => exact absurd hm h1
          | some p =>
            cases ht with
            | keep w _ _ => rw [w, h0] at hm; cases hm
            | evict _ _ _ tk _ _ _ w _ => rw [w, evict_sub h0] at hm; cases hm
            | set j tj tj' e x g1 g2 g3 g4 g5 g6 g7 g8 g9 =>
              rw [g4] at e3'
              have := List.append_cancel_left e3'
              simp only [List.cons.injEq, Prod.mk.injEq, and_true] at this
              obtain ⟨rfl, rfl⟩ := this
              rcases g6 kc p.1 p.2 hm with w | ⟨_, w⟩
              · rw [h0] at w; cases w
              · rcases w with ⟨w, _⟩ | w
                · exact .inl w
                · exact .inr w
        have hunew : ∀ t ∈ unacked s'.j, t ∈ unacked s.j ∨ ∀ w ∈ t.writes, w.1 = c.bkDev + bucketOff (c.bkt k) := by
          intro t htu
          obtain ⟨tx, x1, x2⟩ := ra.hist
          have hu : unacked s'.j = unacked s.j ++ [tx] := by
            unfold unacked
            rw [x1, ja.acked]
            exact List.drop_append_of_le_length h.jinv.len
          rw [hu, List.mem_append, List.mem_singleton] at htu
          rcases htu with htu | rfl
          · exact .inl htu
          · exact .inr x2
        refine ⟨r, ?_, ⟨st, _, _, hti⟩, hfit, hid, hkk, hlinsub _ ?_, hlt n rfl, ?_, ?_, ?_, by rw [ra.dev]; exact hat, ?_, ?_, ?_, ?_, ?_⟩
        · intro t htt
          rw [hti] at htt
          cases htt
          exact ⟨hkey, by simp only [hcall]; rfl⟩
        · have := abs_made h.abs _ _ (mem_abs hc h hrm)
          rw [hkk] at this
          rw [← hid]
          exact this
        · intro t htu hltn w hw' hwe
          rcases hun t htu with htu | e
          · obtain ⟨m, hm, _⟩ := h.good.quiet (.head (c.bkt k)) _ ⟨bound _, rfl⟩ (by rw [h.ov]; exact hlone _ (.inl rfl)) t (by rw [h.U]; exact htu) w hw' hwe
            cases hm
          · have := ra.num
            omega
        · intro t htu _ w hw'
          rcases hunew t htu with htu | e
          · constructor
            · intro e
              obtain ⟨m, hm, _⟩ := h.good.quiet (.state r.o.id) r.off ⟨r, hrl, rfl, rfl⟩ (by rw [h.ov]; exact hlr _ (.inl rfl)) t (by rw [h.U]; exact htu) w hw' e
              cases hm
            · intro e
              obtain ⟨m, hm, _⟩ := h.good.quiet (.next r.o.id) (r.off + 2) ⟨r, hrl, rfl, rfl⟩ (by rw [h.ov]; exact hlr _ (.inr rfl)) t (by rw [h.U]; exact htu) w hw' e
              cases hm
          · have e := e w hw'
            have := bound k
            have hbk := hc.buckets
            have hjn := hc.journal
            have := (ge.off hrl).1
            unfold bucketOff at e
            simp only at this
            omega
        · intro _
          rw [act_heads hc h ha (bound _), dev_head hc h.good ge h.jinv h.L h.U (bound _) (by rw [h.ov]; exact hlone _ (.inl rfl)),
            chain_head hc h (bound _), p1]
          rfl
        · rw [ra.dev, dev_state hc h.good ge h.jinv h.L h.U hrl (by rw [h.ov]; exact hlr _ (.inl rfl)),
            ← hcp.state (by rw [h.ov]; exact hlr _ (.inl rfl)), ← r4]
          unfold rawState
          rw [hcp.id]
          have : s.ov.get (.state r.o.id) = none := by simp [Overlay.Ov.get, hlr _ (.inl rfl)]
          rw [this]
          rfl
        · rw [ra.dev, dev_next hc h.good ge h.jinv h.L h.U hrl (by rw [h.ov]; exact hlr _ (.inr rfl)), hch]
          have hseg := h.good.chain _ (bound k)
          rw [p1] at hseg
          exact Seg.head hseg.2
        · intro qr hq
          rw [hch] at hq
          cases hm : s'.ov.map (.state qr.o.id) with
          | none => rfl
          | some p =>
            exfalso
            rcases setby (hlone _ (.inr ⟨qr, by rw [p1]; simp [hq], .inl rfl⟩)) (by rw [hm]; simp) with w | w <;> cases w
        · intro qr hq
          rw [hch] at hq
          cases hm : s'.ov.map (.next qr.o.id) with
          | none => rfl
          | some p =>
            exfalso
            rcases setby (hlone _ (.inr ⟨qr, by rw [p1]; simp [hq], .inr rfl⟩)) (by rw [hm]; simp) with w | w
            · cases w
            · exact hmid qr hq ((Cell.next.inj w).trans hid.symm)
        · have hstL : rdState v.L r.off = stCommitted := by
            rw [← hcp.state (by rw [h.ov]; exact hlr _ (.inl rfl)), ← r4]
            unfold rawState
            rw [hcp.id]
            have : s.ov.get (.state r.o.id) = none := by simp [Overlay.Ov.get, hlr _ (.inl rfl)]
            rw [this]
            rfl
          refine ⟨s.lin, [], want, _, (rest'.filter (fun r => r.o.key = k)).map (ver v.L), e3', h.abs, ?_⟩
          unfold absOf
          rw [p1, List.filter_cons, if_pos (by simpa using hkk), List.map_cons]
          congr 1
          unfold ver
          rw [hid, hstL]
          rfl
    · have hti : s'.thr i = s.thr i := by rw [e2]; simp [upd, hne]
      rw [hti] at hi
      obtain ⟨r, hp⟩ := hk i t n k want id hi hw hna0 (other e3 hne)
      refine ⟨r, same hp ⟨t, hi, live⟩ hti ?_⟩
      have bk : ∀ e0, evs = [e0] → e0.key = callKey tj.start.call → tj.pc ≠ .dead → v'.ch (c.bkt k) = v.ch (c.bkt k) := by
        intro e0 hevs hkey hlj
        rcases hrel with ⟨_, e'⟩ | ⟨i', e, e', hce⟩
        · rw [e']
        · rw [e3, hevs] at e'
          have := List.append_cancel_left e'
          simp only [List.map_cons, List.map_nil, List.cons.injEq, Prod.mk.injEq, and_true] at this
          obtain ⟨rfl, rfl⟩ := this
          refine chEff_away hce ?_
          intro hbk
          have := hd.one i j t tj hi e1 live hlj hne (by rw [(hp.call t hi).1, ← hbk, hkey])
          rw [(hp.call t hi).2] at this
          cases this
      have hai := (ai.thr j _ e1).2.2
      obtain ⟨st, pcj⟩ := tj
      simp only at e4 hai bk
      cases e4 with
      | link _ _ => exact bk _ rfl (by rw [hai.2]; rfl) (by simp)
      | change _ _ hkey _ => exact bk _ rfl (by rw [hai.2, hkey]; rfl) (by simp)
      | dies hx he => rw [calm e3 he]
      | opens => rw [calm e3 (by intro e he; simp only [List.mem_singleton] at he; subst he; exact fun x => x)]
      | _ => rw [calm e3 (by simp)]

theorem apart_deletes (hc : c.Ok) {s : LSt} (hr : ApartReach c s) :
    ∃ base v leak, LInv c s base v leak ∧ QB c s v ∧ Deletes c s v := by
  induction hr with
  | @fresh _ s h =>
    obtain ⟨base, v, leak, hi⟩ := fresh_inv hc h
    refine ⟨base, v, leak, hi, ?_, ?_⟩
    · unfold fresh at h
      split at h
      · cases h
        exact ⟨(fun a ha => by cases ha), (fun b k _ n y hm => by cases hm)⟩
      · cases h
    · unfold fresh at h
      split at h
      · cases h
        intro i t n k want id ht
        cases ht
      · cases h
  | @act s s' a hr ha hst hnc ih =>
    obtain ⟨base, v, leak, hi, hq, hk⟩ := ih
    have hr1 : ApartReach c s' := .act a hr ha hst hnc
    obtain ⟨d, f⟩ := apart_inv hc hr
    obtain ⟨d', f'⟩ := apart_inv hc hr1
    obtain ⟨b', v', l', h', hrel⟩ := step_act hc hi ha f'
    obtain ⟨e1, e2⟩ := act_tk (c := c) (fun i t ht => (hi.thr i t ht).1) (fun i st txn free tks r ht => release_ok hi ht rfl) ha
    exact ⟨b', v', l', h', qb_act hc hi h' hrel e2 e1 hq, deletes_act hc hr.reach f d hr1.reach f' d' hi hq h' hrel ha e2 hk⟩
  | @journal s j' hr h hh ih =>
    obtain ⟨base, v, leak, hi, hq, hk⟩ := ih
    obtain ⟨b', v', h', e⟩ := step_journal hc hi h hh
    refine ⟨b', v', leak, h', ⟨hq.ack, ?_⟩, ?_⟩
    · intro b k hk n y hm
      exact hq.cell b k (hk.sub (fun b r hr => by rw [e] at hr; exact hr)) n y hm
    · obtain ⟨done, _, d2, d3⟩ := hi.jinv.step hc.jok h hh
      intro i t n k want id ht hw hna hev
      have hna0 : n ∉ s.j.acked := fun hx => hna (d3.subset hx)
      obtain ⟨r, hp⟩ := hk i t n k want id ht hw hna0 hev
      obtain ⟨st, ts, rs, hth⟩ := hp.thr
      obtain ⟨qd, q1, q2, q3, q4, q5⟩ := dying_of hc hi hth
      have h8 := ((hi.geo hc).off q1).2.2.2
      simp only [q3] at h8
      have quiet : ∀ t ∈ unacked s.j, ∀ w ∈ t.writes, w.1 ≠ qd.off ∧ w.1 ≠ qd.off + 2 := by
        intro t htu w hw
        rw [q2]
        have hle : ∀ {a : Nat}, Done v.U (some n) a → w.1 = a → t.id ≤ n := by
          intro a hd e
          obtain ⟨m, hm, hle⟩ := hd t (hi.U ▸ htu) w hw e
          cases hm
          exact hle
        constructor
        · intro e
          exact (hp.quiet t htu (hle q4 e) w hw).1 e
        · intro e
          exact (hp.quiet t htu (hle q5 e) w hw).2 e
      obtain ⟨w1, w2, w3⟩ := rec_kept (m := s.j.dev) (m' := j'.dev) (r := r) hp.fit.room (by omega) (fun y y1 y2 =>
        journal_rec hc hi h hh q1 quiet (by rw [q2]; exact y1) (by rw [q2, q3]; exact y2))
      refine ⟨r, hp.call, hp.thr, hp.fit, hp.id, hp.key, hp.made, by show n < j'.hist.length; rw [hh]; exact hp.lt, ?_, ?_, ?_, w1 hp.kept, w2.trans hp.state,
        by rw [e]; exact w3.trans hp.next, by rw [e]; exact hp.states, by rw [e]; exact hp.nexts, hp.first⟩
      · intro t' ht'
        exact hp.before t' (by rw [d2]; exact List.mem_append_right _ ht')
      · intro t' ht'
        exact hp.quiet t' (by rw [d2]; exact List.mem_append_right _ ht')
      · intro hnf
        obtain ⟨q1, q2⟩ := journal_head hc hi h hh (bkt_lt hc k) hna hp.lt hp.before hnf
        exact q2.trans (hp.head q1)

section
variable (hc : c.Ok) {s : LSt} {base : Mem} {v : V} {leak : List (Nat × Nat)} (h : LInv c s base v leak)
include hc h

/-- the list the device has from the head of a part `l` of bucket `b` on -/
theorem chain_part {b : Nat} {l : List Rec} (hsub : ∀ r ∈ l, r ∈ v.ch b) (hseg : Seg v.L (headOff l) l 0)
    (hst : ∀ r ∈ l, rdState s.j.dev r.off = rdState v.L r.off) (hnx : ∀ r ∈ l, rdNext s.j.dev r.off = rdNext v.L r.off) :
    DevChain s.j.dev (headOff l) (l.map Rec.off) ∧ (∀ off ∈ l.map Rec.off, rdState s.j.dev off = stIncomplete ∨ rdState s.j.dev off = stCommitted) ∧
    ∀ k, ((l.map Rec.off).filter (fun off => rdKey s.j.dev off = k)).map
      (fun off => (⟨rdId s.j.dev off, rdSize s.j.dev off, decide (rdState s.j.dev off = stCommitted)⟩ : Ver)) =
      (l.filter (fun r => r.o.key = k)).map (ver v.L) := by
  have ge := h.geo hc
  have hl : ∀ r ∈ l, (Own.linked, r) ∈ v.recs := fun r hr => linked_of hc h (hsub r hr)
  have hch : DevChain s.j.dev (headOff l) (l.map Rec.off) := by
    have hpos : ∀ r ∈ l, r.off ≠ 0 := by
      intro r hr
      have := ge.off (hl r hr)
      have := hc.heapPos
      simp only at *
      omega
    generalize headOff l = hd at hseg
    clear hsub hst hl
    induction l generalizing hd with
    | nil =>
      have : hd = 0 := hseg
      subst this
      exact .nil
    | cons r l ih =>
      obtain ⟨e1, e2⟩ := hseg
      subst e1
      refine .cons (hpos r (by simp)) ?_
      rw [hnx r (by simp)]
      exact ih (fun r hr => hnx r (by simp [hr])) (fun r hr => hpos r (by simp [hr])) _ e2
  refine ⟨hch, ?_, ?_⟩
  · intro off ho
    obtain ⟨r, hr, rfl⟩ := List.mem_map.1 ho
    rw [hst r hr]; exact (h.good.att r (hl r hr)).2
  intro k
  have hm : ∀ r ∈ l, rdKey s.j.dev r.off = r.o.key ∧
      (⟨rdId s.j.dev r.off, rdSize s.j.dev r.off, decide (rdState s.j.dev r.off = stCommitted)⟩ : Ver) = ver v.L r := by
    intro r hr
    have hf := inode_fields hc h (hl r hr)
    refine ⟨hf.2.1, ?_⟩
    unfold ver
    rw [hf.1, hf.2.2, hst r hr]
  clear hst hnx hch hl hsub hseg
  induction l with
  | nil => rfl
  | cons r l ih =>
    have h1 := hm r (by simp)
    have ih := ih (fun r hr => hm r (by simp [hr]))
    simp only [List.map_cons, List.filter_cons, h1.1]
    split
    · simp only [List.map_cons, ih, h1.2]
    · exact ih

end

/-- a bucket in which only deletes are unanswered is on the device with or without the object being deleted -/
theorem deletes_bucket (hc : c.Ok) {s : LSt} (hr : ApartReach c s) (hna : ¬ Applying s) {b : Nat} (hb : b < 2 ^ c.bits) (hq : OnlyDeletes c s b) :
    ∃ x, absRun c.versioning (s.lin.map (·.2)) = some x ∧ (BucketShows c s.j.dev x b ∨
      ∃ i key want id n, (i, .removed key want id) ∈ s.lin ∧ c.bkt key = b ∧ (∀ a ∈ s.acks, a.id ≠ i) ∧
        (.created key id n ∈ s.lin.map (·.2) ∧
          ∃ pre post want y l, s.lin = pre ++ (i, .removed key want id) :: post ∧ absRun c.versioning (pre.map (·.2)) = some y ∧
            y key = ⟨id, n, true⟩ :: l) ∧
        BucketShows c s.j.dev (x.set key (⟨id, n, true⟩ :: x key)) b) := by
  obtain ⟨base, v, leak, h, q, hk⟩ := apart_deletes hc hr
  obtain ⟨hd, hf⟩ := apart_inv hc hr
  have ge := h.geo hc
  refine ⟨_, h.abs, ?_⟩
  have habs : ∀ k, c.bkt k = b → absOf c v k = ((v.ch b).filter (fun r => r.o.key = k)).map (ver v.L) := by
    intro k hkb; unfold absOf; rw [hkb]
  -- a cell of the bucket in the overlay belongs to a running delete of the bucket
  have cell : ∀ {kc : Cell}, CellOf v b kc → ∀ p, s.ov.map kc = some p → ∃ i key want id t, (i, Ev.removed key want id) ∈ s.lin ∧ c.bkt key = b ∧
      s.thr i = some t ∧ (⟨kc, p.1⟩ : Overlay.Ticket Cell) ∈ t.pc.tks ∧ MaySet c s.lin i (.removed key want id) kc := by
    intro kc hkc p hm
    obtain ⟨i, e, t, g1, g2, g3, g4, g5⟩ := q.cell b kc hkc p.1 p.2 hm
    by_cases hcr : ∃ key want id, e = .removed key want id
    · obtain ⟨key, want, id, rfl⟩ := hcr
      exact ⟨i, key, want, id, t, g1, g3.1, g4, g5, g3.2⟩
    · exfalso
      obtain ⟨a, ha, rfl⟩ := hq i e g1 g3.1 (by
        cases e with
        | created key id n => exact .inl ⟨_, _, _, rfl⟩
        | committed key id => exact .inr ⟨_, _, rfl⟩
        | removed key w id => exact absurd ⟨_, _, _, rfl⟩ hcr
        | _ => exact g2.elim)
      rw [(q.ack a ha).2] at g4
      cases g4
  have hst : ∀ r ∈ v.ch b, rdState s.j.dev r.off = rdState v.L r.off := by
    intro r hrm
    refine dev_state hc h.good ge h.jinv h.L h.U (linked_of hc h hrm) ?_
    rw [h.ov]
    cases hm : s.ov.map (.state r.o.id) with
    | none => rfl
    | some p =>
      obtain ⟨_, _, _, _, _, _, _, _, _, hms⟩ := cell (.inr ⟨r, hrm, .inl rfl⟩) p hm
      obtain ⟨_, e⟩ := hms
      cases e
  have hseg := h.good.chain b hb
  rw [chain_head hc h hb] at hseg
  by_cases hw : ∃ i t n k want id, s.thr i = some t ∧ t.pc.waiting = some n ∧ n ∉ s.j.acked ∧ (i, Ev.removed k want id) ∈ s.lin ∧ c.bkt k = b
  · obtain ⟨i, t, n, k, want, id, w1, w2, w3, w4, w5⟩ := hw
    obtain ⟨r, hp⟩ := hk i t n k want id w1 w2 w3 w4
    obtain ⟨fr, ts, rs, hpc⟩ := waiting_wait w2
    have hnx : ∀ q ∈ v.ch b, rdNext s.j.dev q.off = rdNext v.L q.off := fun qr hqr =>
      dev_next hc h.good ge h.jinv h.L h.U (linked_of hc h (b := b) hqr) (by rw [h.ov]; exact hp.nexts qr (by rw [w5]; exact hqr))
    by_cases hfl : Flying s.j n
    · left
      -- pending writes of the bucket's head are not after the delete's
      have done : Done v.U (some n) (c.bkDev + bucketOff b) := by
        cases hm : s.ov.map (.head b) with
        | none =>
          intro t' ht' w' hw' e
          obtain ⟨m, hm', _⟩ := h.good.quiet (.head b) _ ⟨hb, rfl⟩ (by rw [h.ov]; exact hm) t' ht' w' hw' e
          cases hm'
        | some p =>
          obtain ⟨i', key', wt', id', t', g1, g2, g3, g4, _⟩ := cell (.inl rfl) p hm
          have ok := hd.tk i' t' g3 _ g4
          have hbk : c.bkt (callKey t'.start.call) = b := (ok.head _ rfl).symm
          have hii : i' = i := by
            apply Classical.byContradiction
            intro hne
            have := hd.one i' i t' t g3 w1 (tks_live (List.ne_nil_of_mem g4)) (by rw [hpc]; simp) hne (by rw [hbk, (hp.call t w1).1, w5])
            rw [ok.chg] at this
            cases this
          subst hii
          rw [w1] at g3
          cases g3
          have hpo := (h.thr _ _ w1).2
          rw [hpc] at hpo g4
          exact (hpo.1 _ g4).2 p.2 (by rw [h.ov]; exact hm) _ ⟨hb, rfl⟩
      have hbk := hc.buckets
      refine shows_part hc h (l := v.ch b) (fun _ hx => hx) (h.good.chn b) ?_ hseg hst hnx habs
      rw [← chain_head hc h hb]
      apply rdHead_congr
      intro y y1 y2
      refine flown_eq h hfl hna (.inl (by omega)) ?_
      intro t' ht' w' hw' l1 l2
      have hat := pend_at_head hc h.good ge hb (h.U ▸ ht') hw' (y := y) l1 l2 y1 y2
      obtain ⟨m, hm, hle⟩ := done t' (h.U ▸ ht') w' hw' hat.1
      cases hm
      exact hle
    · right
      refine ⟨i, k, want, id, r.o.size, w4, w5, ?_, ⟨hp.made, hp.first⟩, ?_⟩
      · rintro a ha rfl
        rw [(q.ack a ha).2] at w1
        cases w1
      · have hhead := hp.head hfl
        have hnext := hp.next
        rw [w5] at hhead hnext
        obtain ⟨st, ts', rs', hth⟩ := hp.thr
        obtain ⟨qd, q1, q2, q3, _, _⟩ := dying_of hc h hth
        obtain ⟨c1, c2, c3⟩ := chain_part hc h (l := v.ch b) (fun _ hx => hx) hseg hst hnx
        obtain ⟨_, f2, f3, _, f5⟩ := hp.kept.fields hp.fit
        have hpos : r.off ≠ 0 := by
          have := ge.off q1
          have := hc.heapPos
          simp only [q2] at *
          omega
        refine ⟨r.off :: (v.ch b).map Rec.off, ?_, ?_, ?_, ?_⟩
        · rw [hhead]
          exact .cons hpos (by rw [hnext]; exact c1)
        · rw [List.nodup_cons]
          refine ⟨?_, h.good.chn b⟩
          intro hm
          obtain ⟨qr, hqr, e⟩ := List.mem_map.1 hm
          have := rec_unique h.good (linked_of hc h hqr) q1 (by simp only; rw [e, q2])
          cases this
        · intro off ho
          rcases List.mem_cons.1 ho with rfl | ho
          · exact .inr hp.state
          · exact c2 off ho
        · intro k' hk'
          rw [List.filter_cons]
          unfold Abs.set
          by_cases hkk : k' = k
          · subst hkk
            rw [if_pos (by simp [f5, hp.key]), if_pos rfl, List.map_cons, c3, habs _ hk', f3, f2, hp.id, hp.state]
            simp
          · rw [if_neg (by simp only [f5, hp.key, decide_eq_true_eq]; exact fun e => hkk e.symm), if_neg hkk, c3, habs _ hk']
  · left
    have done : ∀ {kc : Cell} {a : Nat}, CellOf v b kc → CellAt c v kc a → Done v.U none a := by
      intro kc a hkc hat
      cases hm : s.ov.map kc with
      | none => exact h.good.quiet kc a hat (by rw [h.ov]; exact hm)
      | some p =>
        obtain ⟨i, key, want, id, t, g1, g2, g3, g4, _⟩ := cell hkc p hm
        have hpo := (h.thr _ _ g3).2
        obtain ⟨st, pc⟩ := t
        cases pc with
        | wait txn fr ts rs =>
          have hdn := (hpo.1 _ g4).2 p.2 (by rw [h.ov]; exact hm) a hat
          cases txn with
          | none => exact hdn
          | some m =>
            have hm' : m ∈ s.j.acked := Classical.byContradiction fun hx => hw ⟨i, _, m, key, want, id, g3, rfl, hx, g1, g2⟩
            intro t' ht' w' hw' e
            obtain ⟨m', hmm, hle⟩ := hdn t' ht' w' hw' e
            cases hmm
            have := h.jinv.acked_lt hm' (h.U ▸ ht')
            omega
        | evict ts rs => exact (hpo _ g4).2 p.2 (by rw [h.ov]; exact hm) a hat
        | _ => cases g4
    refine shows_part hc h (l := v.ch b) (fun _ hx => hx) (h.good.chn b) ?_ hseg hst ?_ habs
    · rw [dev_head' hc h hb (done (.inl rfl) ⟨hb, rfl⟩)]; exact chain_head hc h hb
    · intro r hrm
      exact dev_next' hc h (linked_of hc h hrm) (done (.inr ⟨r, hrm, .inr rfl⟩) ⟨r, linked_of hc h hrm, rfl, rfl⟩)

end Lite
end Blobd
