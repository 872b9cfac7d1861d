import Verif.Proofs.LiteQuiet
import Verif.Proofs.LiteIo
import Verif.Proofs.LiteMoves
import Verif.Proofs.LiteAcks
set_option autoImplicit false
/-! # Buckets in which only commits are pending -/
namespace Blobd
namespace Lite
open Spec

variable {c : LCfg}

/-- pending transactions change states only to "committed" -/
theorem reach_vals (hc : c.Ok) {s : LSt} (hr : Reach c s) (hf : s.faults = []) : ∀ t ∈ unacked s.j, Vals t := by
  induction hr with
  | fresh h =>
    unfold fresh at h
    split at h
    · cases h
      intro t ht
      simp [unacked] at ht
    · cases h
  | @step s s' hr hs ih =>
    cases hs with
    | act a ha =>
      have hf0 := act_faults ha hf
      obtain ⟨base, v, leak, hi⟩ := reach_inv hc hr hf0
      have ih := ih hf0
      rcases act_j ha (fun i t ht => (hi.thr i t ht).1) with ⟨h1, h2, h3⟩ | ⟨i, e, idle, tx, m, t0, t1, g1, g2, g3, g4, g5, g6, g7, g8, _, _, _, _, _, g9⟩
      · have hu : unacked s'.j = unacked s.j := by unfold unacked; rw [h1, h2]
        rw [hu]
        exact ih
      · obtain ⟨c1, c2⟩ := Overlay.commit_hist g2
        intro t ht
        have hu : unacked s'.j = unacked s.j ++ [tx] := by
          unfold unacked
          rw [c1, c2]
          exact List.drop_append_of_le_length hi.jinv.len
        rw [hu, List.mem_append, List.mem_singleton] at ht
        rcases ht with ht | rfl
        · exact ih t ht
        · exact g9
    | journal hj hh =>
      obtain ⟨base, v, leak, hi⟩ := reach_inv hc hr hf
      obtain ⟨done, _, d2, _⟩ := hi.jinv.step hc.jok hj hh
      intro t ht
      exact ih hf t (by rw [d2]; simp [ht])

/-- writes that all put the same value at `x` -/
theorem writeAll_val {b : Byte} {x : Nat} : ∀ {ws : List (Nat × List Byte)} {m : Mem},
    (∀ w ∈ ws, w.1 ≤ x → x < w.1 + w.2.length → w.1 = x ∧ w.2 = [b]) → (∃ w ∈ ws, w.1 ≤ x ∧ x < w.1 + w.2.length) → m.writeAll ws x = b := by
  intro ws
  induction ws with
  | nil => rintro m _ ⟨w, hw, _⟩; cases hw
  | cons w ws ih =>
    intro m h hex
    rw [Mem.writeAll_cons]
    by_cases hin : ∃ w ∈ ws, w.1 ≤ x ∧ x < w.1 + w.2.length
    · exact ih (fun w hw => h w (by simp [hw])) hin
    · rw [Mem.writeAll_out]
      · obtain ⟨w', hw', h1, h2⟩ := hex
        rcases List.mem_cons.1 hw' with rfl | hw'
        · obtain ⟨e1, e2⟩ := h w' (by simp) h1 h2
          rw [Mem.write_in h1 h2]
          simp [e2, e1]
        · exact absurd ⟨w', hw', h1, h2⟩ hin
      · intro w' hw'
        apply Classical.byContradiction
        intro hcon
        exact hin ⟨w', hw', by omega, by omega⟩

section
variable (hc : c.Ok) {s : LSt} {base : Mem} {v : V} {leak : List (Nat × Nat)} (h : LInv c s base v leak) (hv : ∀ t ∈ unacked s.j, Vals t)
include hc h hv

/-- pending writes at a listed inode's state -/
theorem pend_state {r : Rec} (hr : (Own.linked, r) ∈ v.recs) {t : Journal.Txn} (ht : t ∈ unacked s.j) {w : Nat × List Byte} (hw : w ∈ t.writes)
    (h1 : w.1 ≤ r.off) (h2 : r.off < w.1 + w.2.length) : w.1 = r.off ∧ w.2 = [2] := by
  have hp := (pend_at_rec hc h.good (h.geo hc) hr (by rw [h.U]; exact ht) hw h1 h2 (Nat.le_refl _) (by
    have := Nat.two_pow_pos r.o.metaSizePow2
    simp only; omega)).2
  simp only at hp
  rcases hp with ⟨_, e1, e2⟩ | ⟨_, e1, _⟩
  · exact ⟨e1, hv t ht w hw e2⟩
  · omega

omit hc h hv in
theorem state_of_byte {m : Mem} {d : Nat} (h : m d = 2) : rdState m d = stCommitted := by
  unfold rdState
  rw [consts.1]
  simp [Mem.read, h]
  rfl

/-- a pending change of a state makes it "committed" -/
theorem covered_state {r : Rec} (hr : (Own.linked, r) ∈ v.recs) (hx : ∃ t ∈ unacked s.j, ∃ w ∈ t.writes, w.1 ≤ r.off ∧ r.off < w.1 + w.2.length) :
    rdState v.L r.off = stCommitted := by
  apply state_of_byte
  rw [h.L]
  refine writeAll_val ?_ ?_
  · intro w hw h1 h2
    simp only [Journal.writesOf, List.mem_flatMap] at hw
    obtain ⟨t, ht, hw⟩ := hw
    exact pend_state hc h hv hr ht hw h1 h2
  · obtain ⟨t, ht, w, hw, h1, h2⟩ := hx
    exact ⟨w, List.mem_flatMap.2 ⟨t, ht, hw⟩, h1, h2⟩

/-- a state on the device differs from the current one only while a commit of that object is pending -/
theorem state_differs {r : Rec} (hr : (Own.linked, r) ∈ v.recs) (hne : rdState s.j.dev r.off ≠ rdState v.L r.off) :
    rdState v.L r.off = stCommitted ∧ s.ov.map (.state r.o.id) ≠ none := by
  have hov : s.ov.map (.state r.o.id) ≠ none := by
    intro hn
    exact hne (dev_state hc h.good (h.geo hc) h.jinv h.L h.U hr (by rw [h.ov]; exact hn))
  refine ⟨covered_state hc h hv hr ?_, hov⟩
  apply Classical.byContradiction
  intro hno
  apply hne
  apply rdState_congr
  rw [h.L]
  have ho := (h.geo hc).off hr
  simp only at ho
  refine h.jinv.dev_eq (outside_heap hc h.good (h.geo hc) h.jinv h.L h.U (by omega)) ?_
  intro t ht w hw
  apply Classical.byContradiction
  intro hcon
  exact hno ⟨t, ht, w, hw, by omega, by omega⟩

/-- the journal changes a listed inode's state only to "committed" -/
theorem journal_state {j' : Journal.State} (hj : Journal.Step c.jc s.j j') {r : Rec} (hr : (Own.linked, r) ∈ v.recs) :
    rdState j'.dev r.off = rdState s.j.dev r.off ∨ rdState j'.dev r.off = stCommitted := by
  have ge := h.geo hc
  have hof := ge.off hr
  simp only at hof
  have hbk := hc.buckets
  have hjn := hc.journal
  have keep : j'.dev r.off = s.j.dev r.off → rdState j'.dev r.off = rdState s.j.dev r.off ∨ rdState j'.dev r.off = stCommitted := fun e => Or.inl (rdState_congr (m' := j'.dev) (m := s.j.dev) (d := r.off) e)
  have ent : ∀ {b : Journal.Batch} {todo : Merge.Writes} {e : Nat × List Byte}, s.j.phase = .entries b todo → e ∈ todo →
      ∀ (h1 : e.1 ≤ r.off) (h2 : r.off < e.1 + e.2.length), e.2[r.off - e.1]'(by omega) = 2 := by
    intro b todo e hp he h1 h2
    have hph := phase_of h
    rw [hp] at hph
    obtain ⟨hb, hsub, _⟩ := hph
    rw [← Journal.image_in_entry hb base [] (hsub e he) h1 h2]
    have hU : ∀ t ∈ b.txns, t ∈ unacked s.j := by
      intro t ht
      rw [h.jinv.acc]
      have : held s.j = [] ++ (Journal.inFlight s.j ++ (s.j.queue.flatMap Journal.Batch.txns ++ s.j.pending.txns)) := h.jinv.inv.hist
      rw [this]
      simp only [Journal.inFlight, hp]
      simp [ht]
    refine writeAll_val ?_ ?_
    · intro w hw h1 h2
      simp only [List.nil_append, Journal.writesOf, List.mem_flatMap] at hw
      obtain ⟨t, ht, hw⟩ := hw
      exact pend_state hc h hv hr (hU t ht) hw h1 h2
    · have htouch : Journal.Touches (Merge.mergeAll (Journal.writesOf b.txns)) r.off := ⟨e, by rw [← hb.entries]; exact hsub e he, h1, h2⟩
      obtain ⟨w, hw, w1, w2⟩ := Journal.merged_touches htouch
      exact ⟨w, by simpa using hw, w1, w2⟩
  cases hj with
  | commit idle t hcm =>
    simp only [Journal.commit] at hcm
    split at hcm
    · cases hcm
    · split at hcm <;> (cases hcm; exact keep rfl)
  | timer => exact keep rfl
  | recv => exact keep rfl
  | ack => exact keep rfl
  | @journalPart b hp i n =>
    refine keep (Mem.write_out ?_)
    have hph := phase_of h
    rw [hp] at hph
    have := hph.1.len
    have := Journal.buf_length hc.jok b
    simp only [List.length_take, List.length_drop]
    omega
  | @journalDone b hp =>
    refine keep (Mem.write_out ?_)
    have hph := phase_of h
    rw [hp] at hph
    have := hph.1.len
    have := Journal.buf_length hc.jok b
    omega
  | blankPart hp i n =>
    refine keep (Mem.write_out ?_)
    have := Journal.blank_length hc.jok
    have := hc.jok.cap
    simp only [List.length_take, List.length_drop]
    omega
  | blankDone hp =>
    refine keep (Mem.write_out ?_)
    have := Journal.blank_length hc.jok
    have := hc.jok.cap
    omega
  | @entryPart b todo hp e he i n =>
    by_cases hin : e.1 + i ≤ r.off ∧ r.off < e.1 + i + ((e.2.drop i).take n).length
    · right
      apply state_of_byte
      have hl := hin.2
      simp only [List.length_take, List.length_drop] at hl
      have := ent hp he (by omega) (by omega)
      refine Eq.trans (Mem.write_in hin.1 hin.2) ?_
      simp only [List.getElem_take, List.getElem_drop]
      rw [← this]
      congr 1; omega
    · exact keep (Mem.write_out (by omega))
  | @entryDone b todo hp e he =>
    by_cases hin : e.1 ≤ r.off ∧ r.off < e.1 + e.2.length
    · right
      apply state_of_byte
      exact (Mem.write_in hin.1 hin.2).trans (ent hp he hin.1 hin.2)
    · exact keep (Mem.write_out (by omega))

omit hv in
/-- calls do not write a listed inode's state on the device themselves -/
theorem act_state {s' : LSt} {a : Act} (ha : act c s a = some s') {r : Rec} (hr : (Own.linked, r) ∈ v.recs) :
    rdState s'.j.dev r.off = rdState s.j.dev r.off := by
  have ge := h.geo hc
  apply rdState_congr
  have ptr : ∀ {p x : Nat}, (∃ q, (Own.linked, q) ∈ v.recs ∧ q.off = p) → s'.j.dev = s.j.dev.write (p + ObjectOffsets.nextNode) (beBytes 6 x) →
      s'.j.dev r.off = s.j.dev r.off := by
    intro p x hq e
    obtain ⟨q, q1, q2⟩ := hq
    rw [e]
    apply Mem.write_out
    rw [length_beBytes, show ObjectOffsets.nextNode = 2 from rfl]
    by_cases ho : q.off = r.off
    · omega
    · have := ge.metas q1 hr ho
      have := (ge.off q1).2.2.2
      have := (ge.off hr).2.2.2
      simp only at *
      omega
  cases act_dev ha with
  | same e => exact congrFun e _
  | create i st o off ht e =>
    obtain ⟨a1, a2, a3⟩ := record_in hc h ht
    have ho : off ≠ r.off := by
      intro e
      have := rec_unique h.good a1 hr e
      simp at this
    have := ge.metas a1 hr ho
    have := Nat.two_pow_pos r.o.metaSizePow2
    rw [e]
    apply Mem.write_out
    simp only at *
    omega
  | data i st key id targets t n skip bytes ea ht hn hle e =>
    obtain ⟨q, p, b1, b2, b3, b4, b5⟩ := part_in hc h ht (List.mem_of_getElem? hn)
    have hd : PageDisj p (r.off, r.o.metaSizePow2) := by
      by_cases ho : q.off = r.off
      · have := rec_unique h.good b1 hr ho
        cases this
        exact ge.own _ b1 p b3
      · exact ge.apart _ b1 _ hr ho p (by simp [regs, b3]) _ (meta_mem _)
    have := Nat.two_pow_pos r.o.metaSizePow2
    unfold PageDisj at hd
    simp only at hd
    rw [e]
    apply Mem.write_out
    omega
  | found i st req key cur p raw inc ex x ht e =>
    obtain ⟨vis, rest, e1, _, e3, _⟩ := (h.thr i _ ht).2
    exact ptr (prev_rec hc h e1 e3) e
  | replaced i st id key cur p prev inc f x ht hp e =>
    obtain ⟨vis, rest, e1, _, _, _, e5⟩ := (h.thr i _ ht).2
    obtain ⟨a, r', d, f1, f2, f3, f4, _⟩ := e5.2
    rw [hp] at f4
    exact ptr (prev_rec hc h (vis := a) (rest := r' :: d ++ rest) (by rw [e1, f1]; simp) f4) e
  | orphan e => exact absurd h.orph e

end

/-- states on the device are one of the two the code knows -/
def DevStates (m : Mem) (v : V) : Prop := ∀ b, ∀ r ∈ v.ch b, rdState m r.off = stIncomplete ∨ rdState m r.off = stCommitted

theorem reach_ds (hc : c.Ok) {s : LSt} (hr : Reach c s) (hf : s.faults = []) :
    ∃ base v leak, LInv c s base v leak ∧ QB c s v ∧ DevStates s.j.dev v := by
  induction hr with
  | @fresh _ s h =>
    obtain ⟨base, v, leak, hi⟩ := fresh_inv hc h
    have hov : s.ov.map = fun _ => none := by
      unfold fresh at h
      split at h
      · cases h; rfl
      · cases h
    refine ⟨base, v, leak, hi, ⟨?_, ?_⟩, ?_⟩
    · unfold fresh at h
      split at h
      · cases h; exact fun a ha => by cases ha
      · cases h
    · intro b k _ n y hm; rw [hov] at hm; cases hm
    · intro b r hr
      have hl := linked_of hc hi hr
      rw [dev_state hc hi.good (hi.geo hc) hi.jinv hi.L hi.U hl (by rw [hi.ov, hov])]
      exact (hi.good.att r hl).2
  | @step s s' hr hs ih =>
    cases hs with
    | act a h =>
      have hf0 := act_faults h hf
      obtain ⟨base, v, leak, hi, hq, hds⟩ := ih hf0
      obtain ⟨b', v', l', h', hrel⟩ := step_act hc hi h hf
      obtain ⟨e1, e2⟩ := act_tk (c := c) (fun i t ht => (hi.thr i t ht).1) (fun i st txn free tks r ht => release_ok hi ht rfl) h
      refine ⟨b', v', l', h', qb_act hc hi h' hrel e2 e1 hq, ?_⟩
      intro b r hrm
      by_cases hold : ∃ b0, r ∈ v.ch b0
      · obtain ⟨b0, h0⟩ := hold
        rw [act_state hc hi h (linked_of hc hi h0)]
        exact hds b0 r h0
      · have hl := linked_of hc h' hrm
        have key : ∀ {k : List Byte} {id size i : Nat}, s'.lin = s.lin ++ [(i, .created k id size)] → ChEff c v v' (.created k id size) → s'.ov.map (.state r.o.id) = none := by
          intro k id size i hlin he
          obtain ⟨r0, p1, p2, p3, p4⟩ := he
          have hre : r = r0 := by
            rw [p4] at hrm
            unfold upd at hrm
            split at hrm
            · rcases List.mem_cons.1 hrm with e | e
              · exact e
              · exact absurd ⟨_, e⟩ hold
            · exact absurd ⟨_, hrm⟩ hold
          subst hre
          cases e2 with
          | keep _ _ q =>
            rcases q with q | ⟨_, _, q, q'⟩
            · rw [q] at hlin; simp at hlin
            · rw [q] at hlin
              have := List.append_cancel_left hlin
              cases this
              exact absurd trivial q'
          | evict _ _ _ _ _ _ _ _ q => rw [q] at hlin; simp at hlin
          | set i' t t' e x g1 g2 g3 g4 g5 g6 g7 g8 g9 =>
            rw [g4] at hlin
            have := List.append_cancel_left hlin
            cases this
            obtain ⟨st, o, off, t1, t2⟩ := g8 _ _ _ rfl
            have hfr := (hi.thr _ _ t1).2.1
            cases hm : s'.ov.map (.state r.o.id) with
            | none => rfl
            | some p =>
              exfalso
              obtain ⟨n, y⟩ := p
              rcases g6 _ n y hm with ho | ⟨_, hset⟩
              · exact (hi.good.ovid r.o.id (.inl (by rw [hi.ov, ho]; simp))).2 _ _ hfr (by simp only; rw [t2, p1])
              · rcases hset with ⟨q, _⟩ | q
                · cases q
                · cases q
        have hov : s'.ov.map (.state r.o.id) = none := by
          rcases hrel with ⟨_, e⟩ | ⟨i, e, hlin, he⟩
          · rw [e] at hrm; exact absurd ⟨_, hrm⟩ hold
          · cases e with
            | created k id size => exact key hlin he
            | committed k id =>
              exfalso
              rcases he with he | ⟨pre, r0, post, q1, _, _, _, q2⟩
              · rw [he] at hrm; exact hold ⟨_, hrm⟩
              · exact hold ⟨_, upd_sub q1 q2 _ _ hrm⟩
            | removed k w id =>
              obtain ⟨pre, r0, post, q1, _, _, q2⟩ := he
              exact absurd ⟨_, upd_sub q1 q2 _ _ hrm⟩ hold
            | _ =>
              have he : v'.ch = v.ch := he
              rw [he] at hrm; exact absurd ⟨_, hrm⟩ hold
        rw [dev_state hc h'.good (h'.geo hc) h'.jinv h'.L h'.U hl (by rw [h'.ov]; exact hov)]
        exact (h'.good.att r hl).2
    | journal h hh =>
      obtain ⟨base, v, leak, hi, hq, hds⟩ := ih hf
      obtain ⟨b', v', h', e⟩ := step_journal hc hi h hh
      refine ⟨b', v', leak, h', ⟨hq.ack, ?_⟩, ?_⟩
      · intro b k hk n y hm
        exact hq.cell b k (hk.sub (fun b r hr => by rw [e] at hr; exact hr)) n y hm
      · intro b r hrm
        rw [e] at hrm
        rcases journal_state hc hi (reach_vals hc hr hf) h (linked_of hc hi hrm) with q | q
        · show rdState _ r.off = _ ∨ rdState _ r.off = _
          rw [q]; exact hds b r hrm
        · exact .inr q

/-- the list of bucket `b` on the device when the overlay has nothing about its pointers -/
theorem bucket_commits (hc : c.Ok) {s : LSt} {base : Mem} {v : V} {leak : List (Nat × Nat)} (h : LInv c s base v leak) {b : Nat} (hb : b < 2 ^ c.bits)
    (hds : DevStates s.j.dev v) (hv : ∀ t ∈ unacked s.j, Vals t)
    (hq : ∀ k, CellOf v b k → (∀ id, k ≠ .state id) → s.ov.map k = none) :
    ∃ D, (∀ id ∈ D, ∃ r ∈ v.ch b, r.o.id = id ∧ s.ov.map (.state id) ≠ none) ∧ BucketShows c s.j.dev ((absOf c v).without D) b := by
  have ge := h.geo hc
  have hl : ∀ r ∈ v.ch b, (Own.linked, r) ∈ v.recs := fun r hr => linked_of hc h hr
  have hnx : ∀ r ∈ v.ch b, rdNext s.j.dev r.off = rdNext v.L r.off := fun r hr =>
    dev_next hc h.good ge h.jinv h.L h.U (hl r hr) (by rw [h.ov]; exact hq _ (.inr ⟨r, hr, .inr rfl⟩) (by simp))
  have hhd : rdHead s.j.dev c.bkDev b = rdHead v.L c.bkDev b := dev_head hc h.good ge h.jinv h.L h.U hb (by rw [h.ov]; exact hq _ (.inl rfl) (by simp))
  have hch : DevChain s.j.dev (rdHead s.j.dev c.bkDev b) ((v.ch b).map Rec.off) := by
    have hseg := h.good.chain b hb
    rw [← hhd] at hseg
    have hpos : ∀ r ∈ v.ch b, r.off ≠ 0 := by
      intro r hr
      have := ge.off (hl r hr)
      have := hc.heapPos
      simp only at *
      omega
    generalize rdHead s.j.dev c.bkDev b = hd at hseg
    generalize v.ch b = l at hseg hnx hpos
    induction l generalizing hd with
    | nil =>
      have : hd = 0 := hseg
      subst this
      exact .nil
    | cons r l ih =>
      obtain ⟨e1, e2⟩ := hseg
      subst e1
      refine .cons (hpos r (by simp)) ?_
      rw [hnx r (by simp)]
      refine ih _ ?_ ?_ ?_
      all_goals first | exact e2 | exact fun r hr => hnx r (by simp [hr]) | exact fun r hr => hpos r (by simp [hr])
  have hsd : ∀ r ∈ v.ch b, rdState s.j.dev r.off ≠ rdState v.L r.off → rdState v.L r.off = stCommitted ∧ s.ov.map (.state r.o.id) ≠ none :=
    fun r hr => state_differs hc h hv (hl r hr)
  refine ⟨((v.ch b).filter (fun r => decide (rdState s.j.dev r.off ≠ rdState v.L r.off))).map (fun r => r.o.id), ?_, ?_⟩
  · intro id hid
    obtain ⟨r, hrm, rfl⟩ := List.mem_map.1 hid
    obtain ⟨h1, h2⟩ := List.mem_filter.1 hrm
    exact ⟨r, h1, rfl, (hsd r h1 (by simpa using h2)).2⟩
  generalize hD : ((v.ch b).filter (fun r => decide (rdState s.j.dev r.off ≠ rdState v.L r.off))).map (fun r => r.o.id) = D
  have hmem : ∀ r ∈ v.ch b, (r.o.id ∈ D ↔ rdState s.j.dev r.off ≠ rdState v.L r.off) := by
    intro r hr
    rw [← hD]
    constructor
    · intro hm
      obtain ⟨r', h1, h2⟩ := List.mem_map.1 hm
      obtain ⟨h3, h4⟩ := List.mem_filter.1 h1
      have := h.good.uniqId (hl r' h3) (hl r hr) h2
      cases this
      simpa using h4
    · intro hne
      exact List.mem_map.2 ⟨r, List.mem_filter.2 ⟨hr, by simpa using hne⟩, rfl⟩
  refine ⟨_, hch, h.good.chn b, ?_, ?_⟩
  · intro off ho
    obtain ⟨r, hr, rfl⟩ := List.mem_map.1 ho
    exact hds b r hr
  intro k hk
  unfold Abs.without absOf
  rw [hk]
  have hm : ∀ r ∈ v.ch b, rdKey s.j.dev r.off = r.o.key ∧
      (⟨rdId s.j.dev r.off, rdSize s.j.dev r.off, decide (rdState s.j.dev r.off = stCommitted)⟩ : Ver) =
        if (ver v.L r).id ∈ D then ⟨(ver v.L r).id, (ver v.L r).size, false⟩ else ver v.L r := by
    intro r hr
    have hf := inode_fields hc h (hl r hr)
    refine ⟨hf.2.1, ?_⟩
    have he : ver v.L r = ⟨r.o.id, r.o.size, decide (rdState v.L r.off = stCommitted)⟩ := rfl
    rw [he, hf.1, hf.2.2]
    by_cases hne : rdState s.j.dev r.off ≠ rdState v.L r.off
    · rw [if_pos ((hmem r hr).2 hne)]
      have := (hsd r hr hne).1
      rw [this] at hne
      simp [hne]
    · rw [if_neg (fun hin => hne ((hmem r hr).1 hin))]
      have : rdState s.j.dev r.off = rdState v.L r.off := Classical.byContradiction hne
      rw [this]
  generalize v.ch b = l at hm
  clear hnx hch hl hsd hmem hD
  induction l with
  | nil => rfl
  | cons r l ih =>
    have h1 := hm r (by simp)
    have ih := ih (fun r hr => hm r (by simp [hr]))
    simp only [List.map_cons, List.filter_cons, h1.1]
    split
    · simp only [List.map_cons, ih, h1.2]
    · exact ih

/-- a call that has not done anything yet -/
def PC.early : PC → Prop
  | .createWrite .. => True
  | .createLink .. => True
  | .walk .. => True
  | _ => False

/-- a running call makes at most one change -/
theorem reach_single {s : LSt} (h : Reach c s) : ∀ i t, s.thr i = some t → (t.pc.early → ∀ e, (i, e) ∉ s.lin) ∧
    ∀ e e', (i, e) ∈ s.lin → (i, e') ∈ s.lin → e.alters → e'.alters → e = e' := by
  induction h with
  | fresh h =>
    unfold fresh at h
    split at h
    · cases h
      intro i t ht
      cases ht
    · cases h
  | @step s s' hr hs ih =>
    have ai := reach_ai hr
    have other : ∀ {i : Nat} {evs : List Ev}, s'.lin = s.lin ++ evs.map (fun e => (i, e)) → ∀ {j : Nat}, j ≠ i → ∀ e, (j, e) ∈ s'.lin ↔ (j, e) ∈ s.lin := by
      intro i evs hl j hj e
      rw [hl, List.mem_append]
      constructor
      · rintro (h | h)
        · exact h
        · obtain ⟨_, _, q⟩ := List.mem_map.1 h
          cases q
          exact absurd rfl hj
      · exact .inl
    cases step_did hs with
    | silent h1 h2 h3 => rw [h1, h2]; exact ih
    | start t h1 h2 h3 =>
      rw [h1, h2]
      intro i u hu
      unfold upd at hu
      split at hu
      · rename_i e
        have hno : ∀ e, (i, e) ∉ s.lin := fun e he => by
          have := ai.ids _ he
          simp only at this
          omega
        exact ⟨fun _ => hno, fun e e' h => absurd h (hno e)⟩
      · exact ih i u hu
    | answer i t evs a h1 h2 h3 h4 h5 h6 h7 h8 =>
      intro j u hu
      rw [h2] at hu
      unfold upd at hu
      split at hu
      · cases hu
      · rename_i hj
        have := ih j u hu
        simp only [other h3 hj]
        exact this
    | move i t pc' evs h1 h2 h3 h4 =>
      intro j u hu
      rw [h2] at hu
      unfold upd at hu
      split at hu
      · rename_i hj
        subst hj
        cases hu
        obtain ⟨g1, g2⟩ := ih j t h1
        have none' : ∀ {e : Ev}, evs = [] → ((j, e) ∈ s'.lin ↔ (j, e) ∈ s.lin) := by
          intro e he; rw [h3, he]; simp
        have one : ∀ {e0 : Ev}, evs = [e0] → t.pc.early → ∀ e, (j, e) ∈ s'.lin → e = e0 := by
          intro e0 he hpc e hm
          rw [h3, he, List.mem_append] at hm
          rcases hm with hm | hm
          · exact absurd hm (g1 hpc e)
          · simpa using hm
        generalize hpc : t.pc = pc at *
        cases h4 with
        | written => simp only [none' rfl]; exact ⟨fun _ => g1 trivial, g2⟩
        | read => simp only [none' rfl]; exact ⟨fun _ => g1 trivial, g2⟩
        | next => simp only [none' rfl]; exact ⟨fun _ => g1 trivial, g2⟩
        | link => exact ⟨fun h => h.elim, fun e e' a b _ _ => (one rfl trivial e a).trans (one rfl trivial e' b).symm⟩
        | opens => exact ⟨fun h => h.elim, fun e e' a b _ _ => (one rfl trivial e a).trans (one rfl trivial e' b).symm⟩
        | change => exact ⟨fun h => h.elim, fun e e' a b _ _ => (one rfl trivial e a).trans (one rfl trivial e' b).symm⟩
        | signalled => simp only [none' rfl]; exact ⟨fun h => h.elim, g2⟩
        | evict => simp only [none' rfl]; exact ⟨fun h => h.elim, g2⟩
        | dies q1 q2 =>
          refine ⟨fun h => h.elim, ?_⟩
          have old : ∀ e, e.alters → (j, e) ∈ s'.lin → (j, e) ∈ s.lin := by
            intro e ha hm
            rw [h3, List.mem_append] at hm
            rcases hm with hm | hm
            · exact hm
            · obtain ⟨e', he', q⟩ := List.mem_map.1 hm
              cases q
              exact absurd ha (q2 _ he')
          exact fun e e' a b ha hb => g2 e e' (old e ha a) (old e' hb b) ha hb
      · rename_i hj
        have := ih j u hu
        simp only [other h3 hj]
        exact this

/-- a bucket in which only commits that replaced nothing are unanswered is on the device but for some of these commits -/
theorem commits_bucket (hc : c.Ok) {s : LSt} (hr : Reach c s) (hf : s.faults = []) {b : Nat} (hb : b < 2 ^ c.bits) (hq : OnlyCommits c s b) :
    ∃ x D, absRun c.versioning (s.lin.map (·.2)) = some x ∧
      (∀ id ∈ D, ∃ i key, (i, .committed key id) ∈ s.lin ∧ c.bkt key = b ∧ (∀ a ∈ s.acks, a.id ≠ i) ∧
        (∃ t tk, s.thr i = some t ∧ tk ∈ t.pc.tks ∧ tk.key = .state id) ∧
        ∃ base v leak r, LInv c s base v leak ∧ r ∈ v.ch b ∧ r.o.id = id) ∧ BucketShows c s.j.dev (x.without D) b := by
  obtain ⟨base, v, leak, h, q, hds⟩ := reach_ds hc hr hf
  obtain ⟨D, h1, h2⟩ := bucket_commits hc h hb hds (reach_vals hc hr hf) (by
    intro k hk hns
    cases hm : s.ov.map k with
    | none => rfl
    | some p =>
      obtain ⟨n, y⟩ := p
      obtain ⟨i, e, t, g1, g2, g3, g4, _⟩ := q.cell b k hk n y hm
      have hms : (∃ key id n, e = .created key id n) ∨ (∃ key w id, e = .removed key w id) ∨ ReplacedIn c s.lin i e := by
        cases k with
        | state id => exact absurd rfl (hns id)
        | _ => exact g3.2
      obtain ⟨a, ha, rfl⟩ := hq i e g1 g3.1 (by
        rcases hms with h | h | h
        · exact .inl h
        · exact .inr (.inr h)
        · exact .inr (.inl h))
      rw [(q.ack a ha).2] at g4
      cases g4)
  refine ⟨_, D, h.abs, ?_, h2⟩
  intro id hid
  obtain ⟨r, hrm, rfl, hov⟩ := h1 id hid
  cases hm : s.ov.map (.state r.o.id) with
  | none => exact absurd hm hov
  | some p =>
    obtain ⟨n, y⟩ := p
    obtain ⟨i, e, t, g1, g2, g3, g4, g5⟩ := q.cell b _ (.inr ⟨r, hrm, .inl rfl⟩) n y hm
    obtain ⟨key, rfl⟩ := g3.2
    refine ⟨i, key, g1, g3.1, ?_, ⟨t, _, g4, g5, rfl⟩, _, _, _, r, h, hrm, rfl⟩
    rintro a ha rfl
    rw [(q.ack a ha).2] at g4
    cases g4

end Lite
end Blobd
