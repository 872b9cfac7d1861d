import Verif.Proofs.LiteCommits
import Verif.Proofs.LiteApart
import Verif.Proofs.LiteLists
set_option autoImplicit false
/-! # Buckets in which a create is pending -/
namespace Blobd
namespace Lite
open Spec

variable {c : LCfg}

section
variable (hc : c.Ok) {s : LSt} {base : Mem} {v : V} {leak : List (Nat × Nat)} (h : LInv c s base v leak)
include hc h

/-- calls do not write the bucket heads on the device themselves -/
theorem act_heads {s' : LSt} {a : Act} (ha : act c s a = some s') {b : Nat} (hb : b < 2 ^ c.bits) :
    rdHead s'.j.dev c.bkDev b = rdHead s.j.dev c.bkDev b := by
  have ge := h.geo hc
  have hbk := hc.buckets
  have hjn := hc.journal
  apply rdHead_congr
  intro y h1 h2
  have ptr : ∀ {p x : Nat}, (∃ q, (Own.linked, q) ∈ v.recs ∧ q.off = p) → s'.j.dev = s.j.dev.write (p + ObjectOffsets.nextNode) (beBytes 6 x) →
      s'.j.dev y = s.j.dev y := by
    intro p x hq e
    obtain ⟨q, q1, q2⟩ := hq
    have := ge.off q1
    rw [e]
    apply Mem.write_out
    simp only at *
    omega
  cases act_dev ha with
  | same e => exact congrFun e _
  | create i st o off ht e =>
    obtain ⟨a1, a2, a3⟩ := record_in hc h ht
    have := ge.off a1
    rw [e]
    apply Mem.write_out
    simp only at *
    omega
  | data i st key id targets t n skip bytes ea ht hn hle e =>
    obtain ⟨q, p, b1, b2, b3, b4, b5⟩ := part_in hc h ht (List.mem_of_getElem? hn)
    obtain ⟨p1, _⟩ := ge.pg _ b1 p (by simp [regs, b3])
    rw [e]
    apply Mem.write_out
    omega
  | found i st req key cur p raw inc ex x ht e =>
    obtain ⟨vis, rest, e1, _, e3, _⟩ := (h.thr i _ ht).2
    exact ptr (prev_rec hc h e1 e3) e
  | replaced i st id key cur p prev inc f x ht hp e =>
    obtain ⟨vis, rest, e1, _, _, _, e5⟩ := (h.thr i _ ht).2
    obtain ⟨a, r', d, f1, f2, f3, f4, _⟩ := e5.2
    rw [hp] at f4
    exact ptr (prev_rec hc h (vis := a) (rest := r' :: d ++ rest) (by rw [e1, f1]; simp) f4) e
  | orphan e => exact absurd h.orph e

/-- a next pointer for which nothing is pending -/
theorem dev_next' {r : Rec} (hr : (Own.linked, r) ∈ v.recs) (hd : Done v.U none (r.off + 2)) : rdNext s.j.dev r.off = rdNext v.L r.off := by
  have ge := h.geo hc
  have ho' := ge.off hr
  simp only at ho'
  apply rdNext_congr
  intro y h1 h2
  rw [h.L]
  apply h.jinv.dev_eq (outside_heap hc h.good ge h.jinv h.L h.U (by omega))
  intro t ht w hw
  apply Classical.byContradiction
  intro hcon
  have q := (pend_at_rec hc h.good ge hr (h.U ▸ ht) hw (y := y) (by omega) (by omega) (by simp only; omega) (by simp only; omega)).2
  simp only at q
  rcases q with q | q
  · omega
  · obtain ⟨n, hn, _⟩ := hd t (h.U ▸ ht) w hw q.2.1
    cases hn

/-- a bucket head for which nothing is pending -/
theorem dev_head' {b : Nat} (hb : b < 2 ^ c.bits) (hd : Done v.U none (c.bkDev + bucketOff b)) : rdHead s.j.dev c.bkDev b = rdHead v.L c.bkDev b := by
  have ge := h.geo hc
  apply rdHead_congr
  intro y h1 h2
  rw [h.L]
  apply h.jinv.dev_eq (.inl (by have := hc.buckets; omega))
  intro t ht w hw
  apply Classical.byContradiction
  intro hcon
  have q := pend_at_head hc h.good ge hb (h.U ▸ ht) hw (y := y) (by omega) (by omega) h1 h2
  obtain ⟨n, hn, _⟩ := hd t (h.U ▸ ht) w hw q.1
  cases hn

/-- the list the device has when its head is that of a part `l` of bucket `b` -/
theorem shows_part {b : Nat} {l : List Rec} (hsub : ∀ r ∈ l, r ∈ v.ch b) (hnd : (l.map Rec.off).Nodup)
    (hhd : rdHead s.j.dev c.bkDev b = headOff l) (hseg : Seg v.L (headOff l) l 0)
    (hst : ∀ r ∈ l, rdState s.j.dev r.off = rdState v.L r.off) (hnx : ∀ r ∈ l, rdNext s.j.dev r.off = rdNext v.L r.off)
    {x : Abs} (hx : ∀ k, c.bkt k = b → x k = (l.filter (fun r => r.o.key = k)).map (ver v.L)) : BucketShows c s.j.dev x b := by
  have ge := h.geo hc
  have hl : ∀ r ∈ l, (Own.linked, r) ∈ v.recs := fun r hr => linked_of hc h (hsub r hr)
  have hch : DevChain s.j.dev (rdHead s.j.dev c.bkDev b) (l.map Rec.off) := by
    rw [← hhd] at hseg
    have hpos : ∀ r ∈ l, r.off ≠ 0 := by
      intro r hr
      have := ge.off (hl r hr)
      have := hc.heapPos
      simp only at *
      omega
    generalize rdHead s.j.dev c.bkDev b = hd at hseg
    clear hsub hnd hhd hst hx hl
    induction l generalizing hd with
    | nil =>
      have : hd = 0 := hseg
      subst this
      exact .nil
    | cons r l ih =>
      obtain ⟨e1, e2⟩ := hseg
      subst e1
      refine .cons (hpos r (by simp)) ?_
      rw [hnx r (by simp)]
      exact ih (fun r hr => hnx r (by simp [hr])) (fun r hr => hpos r (by simp [hr])) _ e2
  refine ⟨_, hch, hnd, ?_, ?_⟩
  · intro off ho
    obtain ⟨r, hr, rfl⟩ := List.mem_map.1 ho
    rw [hst r hr]; exact (h.good.att r (hl r hr)).2
  intro k hk
  rw [hx k hk]
  have hm : ∀ r ∈ l, rdKey s.j.dev r.off = r.o.key ∧
      (⟨rdId s.j.dev r.off, rdSize s.j.dev r.off, decide (rdState s.j.dev r.off = stCommitted)⟩ : Ver) = ver v.L r := by
    intro r hr
    have hf := inode_fields hc h (hl r hr)
    refine ⟨hf.2.1, ?_⟩
    unfold ver
    rw [hf.1, hf.2.2, hst r hr]
  clear hst hnx hch hl hsub hnd hhd hseg hx
  induction l with
  | nil => rfl
  | cons r l ih =>
    have h1 := hm r (by simp)
    have ih := ih (fun r hr => hm r (by simp [hr]))
    simp only [List.map_cons, List.filter_cons, h1.1]
    split
    · simp only [List.map_cons, ih, h1.2]
    · exact ih

end

/-- transaction `n` is among those being written to their places -/
def Flying (j : Journal.State) (n : Nat) : Prop := ∃ bt todo, j.phase = .entries bt todo ∧ ∃ t ∈ bt.txns, t.id = n

/-- the pending create `i` -/
structure PendingCreate (c : LCfg) (s : LSt) (v : V) (i n : Nat) (k : List Byte) (id : Nat) (r : Rec) (rest : List Rec) : Prop where
  call : ∀ t, s.thr i = some t → callKey t.start.call = k ∧ callChanges t.start.call = true
  ch : v.ch (c.bkt k) = r :: rest
  id : r.o.id = id
  lt : n < s.j.hist.length
  before : ∀ t ∈ unacked s.j, t.id < n → ∀ w ∈ t.writes, w.1 ≠ c.bkDev + bucketOff (c.bkt k)
  head : ¬ Flying s.j n → rdHead s.j.dev c.bkDev (c.bkt k) = headOff rest
  states : ∀ q ∈ v.ch (c.bkt k), s.ov.map (.state q.o.id) = none
  nexts : ∀ q ∈ rest, s.ov.map (.next q.o.id) = none

/-- every create that waits for the journal is such -/
def Creates (c : LCfg) (s : LSt) (v : V) : Prop :=
  ∀ i t n k id sz, s.thr i = some t → t.pc.waiting = some n → n ∉ s.j.acked → (i, .created k id sz) ∈ s.lin →
    ∃ r rest, PendingCreate c s v i n k id r rest

theorem waiting_wait {pc : PC} {n : Nat} (h : pc.waiting = some n) : ∃ f ts r, pc = .wait (some n) f ts r := by
  cases pc with
  | wait txn f ts r =>
    cases txn with
    | none => cases h
    | some m => cases h; exact ⟨f, ts, r, rfl⟩
  | _ => cases h

/-- the journal does not change a bucket head before it gets to the create's transaction -/
theorem journal_head (hc : c.Ok) {s : LSt} {base : Mem} {v : V} {leak : List (Nat × Nat)} (h : LInv c s base v leak) {j' : Journal.State}
    (hj : Journal.Step c.jc s.j j') (hh : j'.hist = s.j.hist) {b n : Nat} (hb : b < 2 ^ c.bits) (hn : n ∉ j'.acked) (hlt : n < s.j.hist.length)
    (hbef : ∀ t ∈ unacked s.j, t.id < n → ∀ w ∈ t.writes, w.1 ≠ c.bkDev + bucketOff b) (hfl : ¬ Flying j' n) :
    ¬ Flying s.j n ∧ rdHead j'.dev c.bkDev b = rdHead s.j.dev c.bkDev b := by
  have hbk := hc.buckets
  have hjn := hc.journal
  have ge := h.geo hc
  have keep : (∀ y, c.bkDev + 5 * b ≤ y → y < c.bkDev + 5 * b + 5 → j'.dev y = s.j.dev y) → rdHead j'.dev c.bkDev b = rdHead s.j.dev c.bkDev b :=
    fun e => rdHead_congr e
  have nf : ∀ p, s.j.phase = p → (∀ bt todo, p ≠ .entries bt todo) → ¬ Flying s.j n := by
    rintro p hp hne ⟨bt, todo, e, _⟩
    exact hne bt todo (hp.symm.trans e)
  have ent : ∀ {bt : Journal.Batch} {todo : Merge.Writes} {e : Nat × List Byte}, s.j.phase = .entries bt todo → e ∈ todo → n ∉ s.j.acked →
      ¬ Flying s.j n → ∀ y, c.bkDev + 5 * b ≤ y → y < c.bkDev + 5 * b + 5 → e.1 ≤ y → y < e.1 + e.2.length → False := by
    intro bt todo e hp he hna hnf y y1 y2 h1 h2
    have hph := phase_of h
    rw [hp] at hph
    obtain ⟨hbo, hsub, _⟩ := hph
    have htouch : Journal.Touches (Merge.mergeAll (Journal.writesOf bt.txns)) y := ⟨e, by rw [← hbo.entries]; exact hsub e he, h1, h2⟩
    obtain ⟨w, hw, w1, w2⟩ := Journal.merged_touches htouch
    simp only [Journal.writesOf, List.mem_flatMap] at hw
    obtain ⟨t, ht, hw⟩ := hw
    have hU : unacked s.j = bt.txns ++ (s.j.queue.flatMap Journal.Batch.txns ++ s.j.pending.txns) := by
      rw [h.jinv.acc]
      have : held s.j = [] ++ (Journal.inFlight s.j ++ (s.j.queue.flatMap Journal.Batch.txns ++ s.j.pending.txns)) := h.jinv.inv.hist
      rw [this]
      simp only [Journal.inFlight, hp, List.nil_append]
    have htU : t ∈ unacked s.j := by rw [hU]; simp [ht]
    have hat := pend_at_head hc h.good ge hb (h.U ▸ htU) hw (y := y) w1 w2 y1 y2
    refine hbef t htU ?_ w hw hat.1
    obtain ⟨p, hp1⟩ := List.mem_iff_getElem?.1 ht
    have hpl : p < bt.txns.length := by
      rcases Nat.lt_or_ge p bt.txns.length with q | q
      · exact q
      · rw [List.getElem?_eq_none q] at hp1; cases hp1
    have hp2 : s.j.hist[s.j.acked.length + p]? = some t := by
      rw [← List.getElem?_drop]
      show (unacked s.j)[p]? = some t
      rw [hU, List.getElem?_append_left hpl]; exact hp1
    have hid := h.jinv.ids _ _ hp2
    apply Classical.byContradiction
    intro hge
    rw [h.jinv.acked, List.mem_range] at hna
    have hT : (unacked s.j)[n - s.j.acked.length]? = bt.txns[n - s.j.acked.length]? := by
      rw [hU, List.getElem?_append_left (by omega)]
    have hT2 : (unacked s.j)[n - s.j.acked.length]? = s.j.hist[n]? := by
      unfold unacked
      rw [List.getElem?_drop]
      congr 1; omega
    rw [hT2, List.getElem?_eq_getElem hlt] at hT
    refine hnf ⟨bt, todo, hp, s.j.hist[n], ?_, ?_⟩
    · exact List.mem_of_getElem? hT.symm
    · exact h.jinv.ids _ _ (List.getElem?_eq_getElem hlt)
  cases hj with
  | commit idle t hcm =>
    have := (Overlay.commit_hist hcm).1
    rw [hh] at this
    exact absurd (congrArg List.length this) (by simp)
  | timer => exact ⟨hfl, rfl⟩
  | recv hp hq => exact ⟨nf _ hp (by simp), rfl⟩
  | @ack bt hp =>
    refine ⟨?_, rfl⟩
    rintro ⟨bt', todo, e, t, ht, rfl⟩
    rw [hp] at e
    cases e
    exact hn (List.mem_append_right _ (List.mem_map.2 ⟨t, ht, rfl⟩))
  | @journalPart bt hp i m =>
    refine ⟨nf _ hp (by simp), keep ?_⟩
    intro y h1 h2
    refine Mem.write_out ?_
    have := hjn
    omega
  | @journalDone bt hp =>
    refine ⟨nf _ hp (by simp), keep ?_⟩
    intro y h1 h2
    refine Mem.write_out ?_
    omega
  | blankPart hp i m =>
    refine ⟨nf _ hp (by simp), keep ?_⟩
    intro y h1 h2
    refine Mem.write_out ?_
    omega
  | blankDone hp =>
    refine ⟨nf _ hp (by simp), keep ?_⟩
    intro y h1 h2
    refine Mem.write_out ?_
    omega
  | @entryPart bt todo hp e he i m =>
    have hnf : ¬ Flying s.j n := hfl
    refine ⟨hnf, keep ?_⟩
    intro y h1 h2
    refine Mem.write_out ?_
    simp only [List.length_take, List.length_drop]
    apply Classical.byContradiction
    intro hcon
    exact ent hp he hn hnf y h1 h2 (by omega) (by omega)
  | @entryDone bt todo hp e he =>
    have hnf : ¬ Flying s.j n := by
      rintro ⟨bt', todo', q, t, ht, q2⟩
      rw [hp] at q
      cases q
      exact hfl ⟨_, _, rfl, t, ht, q2⟩
    refine ⟨hnf, keep ?_⟩
    intro y h1 h2
    refine Mem.write_out ?_
    apply Classical.byContradiction
    intro hcon
    exact ent hp he hn hnf y h1 h2 (by omega) (by omega)

theorem evict_sub {o : Overlay.Ov Cell Nat} {t : Overlay.Ticket Cell} {k : Cell} (h : o.map k = none) : (o.evict t).map k = none := by
  unfold Overlay.Ov.evict
  simp only
  split
  · rename_i e
    subst e
    rw [h]
  · exact h

/-- an event changes the list of its own bucket only -/
theorem chEff_away {v v' : V} {e : Ev} {b : Nat} (h : ChEff c v v' e) (hb : c.bkt e.key ≠ b) : v'.ch b = v.ch b := by
  have u : ∀ {B : Nat} {l : List Rec}, B ≠ b → v'.ch = upd v.ch B l → v'.ch b = v.ch b := by
    intro B l hB e
    rw [e]; unfold upd; rw [if_neg (fun q => hB q.symm)]
  cases e with
  | created k id size => obtain ⟨r, _, _, _, e⟩ := h; exact u hb e
  | removed k w id => obtain ⟨pre, r, post, _, _, _, e⟩ := h; exact u hb e
  | committed k id =>
    rcases h with e | ⟨pre, r, post, _, _, _, _, e⟩
    · rw [e]
    · exact u hb e
  | _ => exact congrFun h b

theorem creates_act (hc : c.Ok) {s s' : LSt} (hr : Reach c s) (hf : s.faults = []) (hd : DI c s) (hr' : Reach c s') (hf' : s'.faults = []) (hd' : DI c s')
    {base base' : Mem} {v v' : V} {leak leak' : List (Nat × Nat)} (h : LInv c s base v leak) (q : QB c s v) (h' : LInv c s' base' v' leak')
    (hrel : ChRel c v v' s.lin s'.lin) {a : Act} (ha : act c s a = some s') (ht : TkEff c s s') (hk : Creates c s v) : Creates c s' v' := by
  have ai := reach_ai hr
  obtain ⟨did, ja⟩ := act_did ha
  have hjt := act_j ha (fun i t ht => (h.thr i t ht).1)
  have bound : ∀ k, c.bkt k < 2 ^ c.bits := fun k => bkt_lt hc k
  -- transactions of `s'`
  have hun : ∀ t ∈ unacked s'.j, t ∈ unacked s.j ∨ t.id = s.j.hist.length := by
    intro t htu
    rcases hjt with ⟨h1, h2, _⟩ | ⟨i, e, idle, tx, m, t0, t1, g1, g2, g3, _⟩
    · left
      unfold unacked at htu ⊢
      rwa [h1, h2] at htu
    · obtain ⟨c1, c2⟩ := Overlay.commit_hist g2
      have hu : unacked s'.j = unacked s.j ++ [tx] := by
        unfold unacked
        rw [c1, c2]
        exact List.drop_append_of_le_length h.jinv.len
      rw [hu, List.mem_append, List.mem_singleton] at htu
      rcases htu with htu | rfl
      · exact .inl htu
      · exact .inr g3
  obtain ⟨hl, hhist⟩ := ja.hist
  have hfly : ∀ n, Flying s'.j n ↔ Flying s.j n := by
    intro n; unfold Flying; rw [ja.phase]
  -- a call that is not touched
  have same : ∀ {i n : Nat} {k : List Byte} {id : Nat} {r : Rec} {rest : List Rec}, PendingCreate c s v i n k id r rest → (∃ t, s.thr i = some t ∧ t.pc ≠ .dead) →
      s'.thr i = s.thr i → v'.ch (c.bkt k) = v.ch (c.bkt k) → PendingCreate c s' v' i n k id r rest := by
    intro i n k id r rest hp hlive hti hch
    obtain ⟨ti, hti0, hlv⟩ := hlive
    have none_keep : ∀ {kc : Cell} {q : Rec}, q ∈ v.ch (c.bkt k) → (kc = .state q.o.id ∨ kc = .next q.o.id) → s.ov.map kc = none → s'.ov.map kc = none := by
      intro kc qr hqm hkc hnone
      cases ht with
      | keep e1 _ _ => rw [e1]; exact hnone
      | evict _ _ _ tk _ _ _ e1 _ => rw [e1]; exact evict_sub hnone
      | set j tj tj' e x g1 g2 g3 g4 g5 g6 g7 g8 g9 =>
        cases hm : s'.ov.map kc with
        | none => rfl
        | some p =>
          exfalso
          rcases g6 kc p.1 p.2 hm with ho | ⟨htk, _⟩
          · rw [hnone] at ho; cases ho
          · have hne : i ≠ j := by
              rintro rfl
              rw [g3] at hti
              unfold upd at hti
              rw [if_pos rfl, g1] at hti
              cases hti
              rw [g2] at htk
              cases htk
            have hj' : s'.thr j = some tj' := by rw [g3]; simp [upd]
            have ok := hd'.tk j tj' hj' _ htk
            obtain ⟨k1, n1, q1, q2⟩ := ok.made qr.o.id hkc
            obtain ⟨k2, n2, q3, q4⟩ := made_of hc hr' hf' h' (b := c.bkt k) (r := qr) (by rw [hch]; exact hqm)
            have hbk : c.bkt (callKey ti.start.call) = c.bkt (callKey tj'.start.call) := by
              rw [← q2, created_unique hc hr' hf' q1 q3, q4, (hp.call ti hti0).1]
            have := hd'.one i j ti tj' (by rw [hti]; exact hti0) hj' hlv (tks_live (List.ne_nil_of_mem htk)) hne hbk
            rw [(hp.call ti hti0).2] at this
            cases this
    refine ⟨by rw [hti]; exact hp.call, by rw [hch]; exact hp.ch, hp.id, by rw [hhist, List.length_append]; have := hp.lt; omega, ?_, ?_, ?_, ?_⟩
    · intro t htu hlt
      rcases hun t htu with htu | e
      · exact hp.before t htu hlt
      · have := hp.lt; omega
    · intro hnf
      rw [act_heads hc h ha (bound k)]
      exact hp.head (fun e => hnf ((hfly n).2 e))
    · intro qr hq
      rw [hch] at hq
      exact none_keep hq (.inl rfl) (hp.states qr hq)
    · intro qr hq
      exact none_keep (by rw [hp.ch]; simp [hq]) (.inr rfl) (hp.nexts qr hq)
  intro i t n k id sz hi hw hna hev
  obtain ⟨f, ts, rs, hpc⟩ := waiting_wait hw
  have hna0 : n ∉ s.j.acked := by rw [← ja.acked]; exact hna
  have nolin : s'.lin = s.lin → v'.ch = v.ch := by
    intro e
    rcases hrel with ⟨_, e'⟩ | ⟨_, _, e', _⟩
    · exact e'
    · rw [e] at e'; exact absurd (congrArg List.length e') (by simp)
  have calm : ∀ {j : Nat} {evs : List Ev}, s'.lin = s.lin ++ evs.map (fun e => (j, e)) → (∀ e ∈ evs, ¬ e.alters) → v'.ch = v.ch := by
    intro j evs hl he
    rcases hrel with ⟨_, e'⟩ | ⟨i', e, e', hce⟩
    · exact e'
    · rw [hl] at e'
      have := List.append_cancel_left e'
      match evs, this with
      | [e0], this =>
        simp only [List.map_cons, List.map_nil, List.cons.injEq, Prod.mk.injEq, and_true] at this
        exact chEff_calm hce (by rw [← this.2]; exact he e0 (by simp))
  have other : ∀ {j : Nat} {evs : List Ev}, s'.lin = s.lin ++ evs.map (fun e => (j, e)) → i ≠ j → (i, Ev.created k id sz) ∈ s.lin := by
    intro j evs hl hne
    rw [hl, List.mem_append] at hev
    rcases hev with hev | hev
    · exact hev
    · obtain ⟨_, _, e⟩ := List.mem_map.1 hev
      cases e
      exact absurd rfl hne
  have live : t.pc ≠ .dead := by rw [hpc]; simp
  cases did with
  | silent e1 e2 _ =>
    rw [e1] at hi
    obtain ⟨r, rest, hp⟩ := hk i t n k id sz hi hw hna0 (by rw [← e2]; exact hev)
    exact ⟨r, rest, same hp ⟨t, hi, live⟩ (by rw [e1]) (by rw [nolin e2])⟩
  | start t0 e1 e2 e3 =>
    have hne : i ≠ s.nextCall := by
      rintro rfl
      rw [e1] at hi
      simp only [upd, if_pos] at hi
      cases hi
      exact e3 _ _ _ _ hpc
    have hti : s'.thr i = s.thr i := by rw [e1]; simp [upd, hne]
    rw [hti] at hi
    obtain ⟨r, rest, hp⟩ := hk i t n k id sz hi hw hna0 (by rw [← e2]; exact hev)
    exact ⟨r, rest, same hp ⟨t, hi, live⟩ hti (by rw [nolin e2])⟩
  | answer j tj evs ak e1 e2 e3 e4 _ _ _ _ =>
    have hne : i ≠ j := by
      rintro rfl
      rw [e2] at hi
      simp [upd] at hi
    have hti : s'.thr i = s.thr i := by rw [e2]; simp [upd, hne]
    rw [hti] at hi
    obtain ⟨r, rest, hp⟩ := hk i t n k id sz hi hw hna0 (other e3 hne)
    exact ⟨r, rest, same hp ⟨t, hi, live⟩ hti (by rw [calm e3 e4])⟩
  | move j tj pc' evs e1 e2 e3 e4 =>
    by_cases hne : i = j
    · subst hne
      have hti : s'.thr i = some ⟨tj.start, pc'⟩ := by rw [e2]; simp [upd]
      rw [hti] at hi
      cases hi
      obtain ⟨st, pcj⟩ := tj
      simp only at hpc hw e4 e1 hti
      subst hpc
      cases e4 with
      | change hx _ hkey hlt =>
        rename_i req key cur prev raw inc ex e
        exfalso
        have hold : ∀ e, (i, e) ∉ s.lin := (reach_single hr i _ e1).1 trivial
        rw [e3, List.mem_append] at hev
        rcases hev with hev | hev
        · exact hold _ hev
        · simp only [List.map_cons, List.map_nil, List.mem_singleton, Prod.mk.injEq, true_and] at hev
          subst hev
          cases ht with
          | keep _ _ q =>
            rcases q with q | ⟨_, _, q, q'⟩
            · rw [q] at e3; simp at e3
            · rw [q] at e3
              have := List.append_cancel_left e3
              simp only [List.map_cons, List.map_nil, List.cons.injEq, Prod.mk.injEq, and_true] at this
              rw [this.2] at q'
              exact q' trivial
          | evict _ _ _ _ _ _ _ _ q => rw [q] at e3; simp at e3
          | set i' t0 t1 e x g1 g2 g3 g4 g5 g6 g7 g8 g9 =>
            rw [g4] at e3
            have := List.append_cancel_left e3
            simp only [List.map_cons, List.map_nil, List.cons.injEq, Prod.mk.injEq, and_true] at this
            obtain ⟨rfl, rfl⟩ := this
            obtain ⟨st', o, off, w1, _⟩ := g8 _ _ _ rfl
            rw [e1] at w1
            cases w1
      | link hlock hlt =>
        rename_i o off t1 t2
        have hold : ∀ e, (i, e) ∉ s.lin := (reach_single hr i _ e1).1 trivial
        rw [e3, List.mem_append] at hev
        rcases hev with hev | hev
        · exact absurd hev (hold _)
        simp only [List.map_cons, List.map_nil, List.mem_singleton, Prod.mk.injEq, true_and, Ev.created.injEq] at hev
        obtain ⟨rfl, rfl, rfl⟩ := hev
        have hcall : st.call = .create o.key o.size := ((ai.thr i _ e1).2.2).2
        have hkey : callKey st.call = o.key := by rw [hcall]; rfl
        have hlone : ∀ kc, CellOf v (c.bkt o.key) kc → s.ov.map kc = none := fun kc hkc =>
          lone hc hr hf h q hd e1 rfl (by simp) (by simp only [hkey]; exact hkc)
        obtain ⟨r, r1, r2, r3⟩ : ∃ r : Rec, r.o.id = o.id ∧ r.o.key = o.key ∧ v'.ch = upd v.ch (c.bkt o.key) (r :: v.ch (c.bkt o.key)) := by
          rcases hrel with ⟨e', _⟩ | ⟨i', e, e', hce⟩
          · rw [e'] at e3; simp at e3
          · rw [e3] at e'
            have := List.append_cancel_left e'
            simp only [List.map_cons, List.map_nil, List.cons.injEq, Prod.mk.injEq, and_true] at this
            obtain ⟨rfl, rfl⟩ := this
            obtain ⟨r, p1, p2, _, p4⟩ := hce
            exact ⟨r, p1, p2, p4⟩
        have hch : v'.ch (c.bkt o.key) = r :: v.ch (c.bkt o.key) := by rw [r3]; simp [upd]
        have setby : ∀ {kc : Cell}, s.ov.map kc = none → s'.ov.map kc ≠ none → kc = .head (c.bkt o.key) ∨ kc = .next o.id := by
          intro kc h0 h1
          cases hm : s'.ov.map kc with
          | none => exact absurd hm h1
          | some p =>
            cases ht with
            | keep w _ _ => rw [w, h0] at hm; cases hm
            | evict _ _ _ tk _ _ _ w _ => rw [w, evict_sub h0] at hm; cases hm
            | set j tj tj' e x g1 g2 g3 g4 g5 g6 g7 g8 g9 =>
              rw [g4] at e3
              have := List.append_cancel_left e3
              simp only [List.map_cons, List.map_nil, List.cons.injEq, Prod.mk.injEq, and_true] at this
              obtain ⟨rfl, rfl⟩ := this
              rcases g6 kc p.1 p.2 hm with w | ⟨_, w⟩
              · rw [h0] at w; cases w
              · rcases w with ⟨w, _⟩ | w
                · exact .inl w
                · exact .inr w
        refine ⟨r, v.ch (c.bkt o.key), ?_, hch, r1, hlt n rfl, ?_, ?_, ?_, ?_⟩
        · intro t htt
          rw [hti] at htt
          cases htt
          exact ⟨hkey, by simp only [hcall]; rfl⟩
        · intro t htu hltn w hw' hwe
          rcases hun t htu with htu | e
          · obtain ⟨m, hm, _⟩ := h.good.quiet (.head (c.bkt o.key)) _ ⟨bound _, rfl⟩ (by rw [h.ov]; exact hlone _ (.inl rfl)) t (by rw [h.U]; exact htu) w hw' hwe
            cases hm
          · have hl1 : n < s'.j.hist.length := hlt n rfl
            have : s'.j.hist.length ≤ s.j.hist.length + 1 := by
              rcases hjt with ⟨w1, _⟩ | ⟨_, _, _, tx, _, _, _, _, w2, _⟩
              · rw [w1]; omega
              · rw [(Overlay.commit_hist w2).1]; simp
            omega
        · intro _
          rw [act_heads hc h ha (bound _), dev_head hc h.good (h.geo hc) h.jinv h.L h.U (bound _) (by rw [h.ov]; exact hlone _ (.inl rfl))]
          exact chain_head hc h (bound _)
        · intro qr hq
          cases hm : s'.ov.map (.state qr.o.id) with
          | none => rfl
          | some p =>
            exfalso
            have h0 : s.ov.map (.state qr.o.id) = none := by
              rw [hch] at hq
              rcases List.mem_cons.1 hq with rfl | hq
              · cases hm0 : s.ov.map (.state qr.o.id) with
                | none => rfl
                | some p0 =>
                  exfalso
                  have hfr := (h.thr _ _ e1).2.1
                  exact (h.good.ovid qr.o.id (.inl (by rw [h.ov, hm0]; simp))).2 _ _ hfr r1.symm
              · exact hlone _ (.inr ⟨qr, hq, .inl rfl⟩)
            rcases setby h0 (by rw [hm]; simp) with w | w <;> cases w
        · intro qr hq
          cases hm : s'.ov.map (.next qr.o.id) with
          | none => rfl
          | some p =>
            exfalso
            rcases setby (hlone _ (.inr ⟨qr, hq, .inr rfl⟩)) (by rw [hm]; simp) with w | w
            · cases w
            · have hid : qr.o.id = o.id := Cell.next.inj w
              have hfr := (h.thr _ _ e1).2.1
              have := h.good.uniqId (linked_of hc h hq) hfr hid
              cases this
    · have hti : s'.thr i = s.thr i := by rw [e2]; simp [upd, hne]
      rw [hti] at hi
      obtain ⟨r, rest, hp⟩ := hk i t n k id sz hi hw hna0 (other e3 hne)
      refine ⟨r, rest, same hp ⟨t, hi, live⟩ hti ?_⟩
      have bk : ∀ e0, evs = [e0] → e0.key = callKey tj.start.call → tj.pc ≠ .dead → v'.ch (c.bkt k) = v.ch (c.bkt k) := by
        intro e0 hevs hkey hlj
        rcases hrel with ⟨_, e'⟩ | ⟨i', e, e', hce⟩
        · rw [e']
        · rw [e3, hevs] at e'
          have := List.append_cancel_left e'
          simp only [List.map_cons, List.map_nil, List.cons.injEq, Prod.mk.injEq, and_true] at this
          obtain ⟨rfl, rfl⟩ := this
          refine chEff_away hce ?_
          intro hbk
          have := hd.one i j t tj hi e1 live hlj hne (by rw [(hp.call t hi).1, ← hbk, hkey])
          rw [(hp.call t hi).2] at this
          cases this
      have hai := (ai.thr j _ e1).2.2
      obtain ⟨st, pcj⟩ := tj
      simp only at e4 hai bk
      cases e4 with
      | link _ _ => exact bk _ rfl (by rw [hai.2]; rfl) (by simp)
      | change _ _ hkey _ => exact bk _ rfl (by rw [hai.2, hkey]; rfl) (by simp)
      | dies hx he => rw [calm e3 he]
      | opens => rw [calm e3 (by intro e he; simp only [List.mem_singleton] at he; subst he; exact fun x => x)]
      | _ => rw [calm e3 (by simp)]

theorem apart_creates (hc : c.Ok) {s : LSt} (hr : ApartReach c s) :
    ∃ base v leak, LInv c s base v leak ∧ QB c s v ∧ Creates c s v := by
  induction hr with
  | @fresh _ s h =>
    obtain ⟨base, v, leak, hi⟩ := fresh_inv hc h
    refine ⟨base, v, leak, hi, ?_, ?_⟩
    · unfold fresh at h
      split at h
      · cases h
        exact ⟨(fun a ha => by cases ha), (fun b k _ n y hm => by cases hm)⟩
      · cases h
    · unfold fresh at h
      split at h
      · cases h
        intro i t n k id sz ht
        cases ht
      · cases h
  | @act s s' a hr ha hst hnc ih =>
    obtain ⟨base, v, leak, hi, hq, hk⟩ := ih
    have hr1 : ApartReach c s' := .act a hr ha hst hnc
    obtain ⟨d, f⟩ := apart_inv hc hr
    obtain ⟨d', f'⟩ := apart_inv hc hr1
    obtain ⟨b', v', l', h', hrel⟩ := step_act hc hi ha f'
    obtain ⟨e1, e2⟩ := act_tk (c := c) (fun i t ht => (hi.thr i t ht).1) (fun i st txn free tks r ht => release_ok hi ht rfl) ha
    exact ⟨b', v', l', h', qb_act hc hi h' hrel e2 e1 hq, creates_act hc hr.reach f d hr1.reach f' d' hi hq h' hrel ha e2 hk⟩
  | @journal s j' hr h hh ih =>
    obtain ⟨base, v, leak, hi, hq, hk⟩ := ih
    obtain ⟨b', v', h', e⟩ := step_journal hc hi h hh
    refine ⟨b', v', leak, h', ⟨hq.ack, ?_⟩, ?_⟩
    · intro b k hk n y hm
      exact hq.cell b k (hk.sub (fun b r hr => by rw [e] at hr; exact hr)) n y hm
    · obtain ⟨done, _, d2, d3⟩ := hi.jinv.step hc.jok h hh
      intro i t n k id sz ht hw hna hev
      have hna0 : n ∉ s.j.acked := fun hx => hna (d3.subset hx)
      obtain ⟨r, rest, hp⟩ := hk i t n k id sz ht hw hna0 hev
      refine ⟨r, rest, hp.call, by rw [e]; exact hp.ch, hp.id, by show n < j'.hist.length; rw [hh]; exact hp.lt, ?_, ?_, by rw [e]; exact hp.states, hp.nexts⟩
      · intro t' ht'
        exact hp.before t' (by rw [d2]; exact List.mem_append_right _ ht')
      · intro hnf
        obtain ⟨q1, q2⟩ := journal_head hc hi h hh (bkt_lt hc k) hna hp.lt hp.before hnf
        exact q2.trans (hp.head q1)

/-- when the journal is not in the middle of writing to places, a byte that no transaction after the one being finished writes -/
theorem flown_eq {s : LSt} {base : Mem} {v : V} {leak : List (Nat × Nat)} (h : LInv c s base v leak) {n : Nat} (hf : Flying s.j n) (ha : ¬ Applying s)
    {y : Nat} (ho : Journal.Outside c.jc y) (hd : ∀ t ∈ unacked s.j, ∀ w ∈ t.writes, w.1 ≤ y → y < w.1 + w.2.length → t.id ≤ n) :
    s.j.dev y = v.L y := by
  obtain ⟨bt, todo, hp, t0, ht0, e0⟩ := hf
  have htodo : todo = [] := Classical.byContradiction fun e => ha ⟨bt, todo, hp, e⟩
  subst htodo
  have hph := phase_of h
  rw [hp] at hph
  obtain ⟨_, _, _, _, h5, _⟩ := hph
  rw [h5 y ho (by rintro ⟨_, hw, _⟩; cases hw), h.L]
  have hU : unacked s.j = bt.txns ++ (s.j.queue.flatMap Journal.Batch.txns ++ s.j.pending.txns) := by
    rw [h.jinv.acc]
    have : held s.j = [] ++ (Journal.inFlight s.j ++ (s.j.queue.flatMap Journal.Batch.txns ++ s.j.pending.txns)) := h.jinv.inv.hist
    rw [this]
    simp only [Journal.inFlight, hp, List.nil_append]
  have idAt : ∀ p t, (unacked s.j)[p]? = some t → t.id = s.j.acked.length + p := by
    intro p t ht
    unfold unacked at ht
    rw [List.getElem?_drop] at ht
    exact h.jinv.ids _ _ ht
  unfold logical
  rw [hU, Journal.image_append base bt.txns, List.nil_append]
  symm
  apply image_quiet
  intro t ht w hw
  apply Classical.byContradiction
  intro hcon
  have htU : t ∈ unacked s.j := by rw [hU]; exact List.mem_append_right _ ht
  have hle := hd t htU w hw (by omega) (by omega)
  obtain ⟨p0, hp0⟩ := List.mem_iff_getElem?.1 ht0
  have hp0l : p0 < bt.txns.length := by
    rcases Nat.lt_or_ge p0 bt.txns.length with q | q
    · exact q
    · rw [List.getElem?_eq_none q] at hp0; cases hp0
  have i0 := idAt p0 t0 (by rw [hU, List.getElem?_append_left hp0l]; exact hp0)
  obtain ⟨p, hp1⟩ := List.mem_iff_getElem?.1 ht
  have i1 := idAt (bt.txns.length + p) t (by rw [hU, List.getElem?_append_right (by omega)]; rw [← hp1]; congr 1; omega)
  omega

/-- a bucket in which only creates are unanswered is on the device with or without the object being created -/
theorem creates_bucket (hc : c.Ok) {s : LSt} (hr : ApartReach c s) (hna : ¬ Applying s) {b : Nat} (hb : b < 2 ^ c.bits) (hq : OnlyCreates c s b) :
    ∃ x, absRun c.versioning (s.lin.map (·.2)) = some x ∧ (BucketShows c s.j.dev x b ∨
      ∃ i key id n, (i, .created key id n) ∈ s.lin ∧ c.bkt key = b ∧ (∀ a ∈ s.acks, a.id ≠ i) ∧ BucketShows c s.j.dev (x.omit id) b) := by
  obtain ⟨base, v, leak, h, q, hk⟩ := apart_creates hc hr
  obtain ⟨hd, hf⟩ := apart_inv hc hr
  have ge := h.geo hc
  refine ⟨_, h.abs, ?_⟩
  have habs : ∀ k, c.bkt k = b → absOf c v k = ((v.ch b).filter (fun r => r.o.key = k)).map (ver v.L) := by
    intro k hkb; unfold absOf; rw [hkb]
  -- a cell of the bucket in the overlay belongs to a running create of the bucket
  have cell : ∀ {kc : Cell}, CellOf v b kc → ∀ p, s.ov.map kc = some p → ∃ i key id n t, (i, Ev.created key id n) ∈ s.lin ∧ c.bkt key = b ∧
      s.thr i = some t ∧ (⟨kc, p.1⟩ : Overlay.Ticket Cell) ∈ t.pc.tks ∧ MaySet c s.lin i (.created key id n) kc := by
    intro kc hkc p hm
    obtain ⟨i, e, t, g1, g2, g3, g4, g5⟩ := q.cell b kc hkc p.1 p.2 hm
    by_cases hcr : ∃ key id n, e = .created key id n
    · obtain ⟨key, id, n, rfl⟩ := hcr
      exact ⟨i, key, id, n, t, g1, g3.1, g4, g5, g3.2⟩
    · exfalso
      obtain ⟨a, ha, rfl⟩ := hq i e g1 g3.1 (by
        cases e with
        | created key id n => exact absurd ⟨_, _, _, rfl⟩ hcr
        | committed key id => exact .inl ⟨_, _, rfl⟩
        | removed key w id => exact .inr ⟨_, _, _, rfl⟩
        | _ => exact g2.elim)
      rw [(q.ack a ha).2] at g4
      cases g4
  have hst : ∀ r ∈ v.ch b, rdState s.j.dev r.off = rdState v.L r.off := by
    intro r hrm
    refine dev_state hc h.good ge h.jinv h.L h.U (linked_of hc h hrm) ?_
    rw [h.ov]
    cases hm : s.ov.map (.state r.o.id) with
    | none => rfl
    | some p =>
      obtain ⟨_, _, _, _, _, _, _, _, _, hms⟩ := cell (.inr ⟨r, hrm, .inl rfl⟩) p hm
      obtain ⟨_, e⟩ := hms
      cases e
  by_cases hw : ∃ i t n k id sz, s.thr i = some t ∧ t.pc.waiting = some n ∧ n ∉ s.j.acked ∧ (i, Ev.created k id sz) ∈ s.lin ∧ c.bkt k = b
  · obtain ⟨i, t, n, k, id, sz, w1, w2, w3, w4, w5⟩ := hw
    obtain ⟨r, rest, hp⟩ := hk i t n k id sz w1 w2 w3 w4
    obtain ⟨fr, ts, rs, hpc⟩ := waiting_wait w2
    have hch := hp.ch
    rw [w5] at hch
    have hseg := h.good.chain b hb
    rw [chain_head hc h hb, hch] at hseg
    have hseg2 := hseg.2
    have hrn : rdNext v.L r.off = headOff rest := Seg.head hseg2
    have hnx : ∀ q ∈ rest, rdNext s.j.dev q.off = rdNext v.L q.off := fun qr hqr =>
      dev_next hc h.good ge h.jinv h.L h.U (linked_of hc h (b := b) (by rw [hch]; simp [hqr])) (by rw [h.ov]; exact hp.nexts qr hqr)
    have hnd := h.good.chn b
    rw [hch] at hnd
    by_cases hfl : Flying s.j n
    · left
      -- pending writes of the bucket's cells are not after the create's
      have done : ∀ {kc : Cell} {a : Nat}, CellOf v b kc → CellAt c v kc a → Done v.U (some n) a := by
        intro kc a hkc hat
        cases hm : s.ov.map kc with
        | none =>
          intro t' ht' w' hw' e
          obtain ⟨m, hm', _⟩ := h.good.quiet kc a hat (by rw [h.ov]; exact hm) t' ht' w' hw' e
          cases hm'
        | some p =>
          obtain ⟨i', key', id', n', t', g1, g2, g3, g4, _⟩ := cell hkc p hm
          have ok := hd.tk i' t' g3 _ g4
          have hbk : c.bkt (callKey t'.start.call) = b := by
            rcases hkc with rfl | ⟨r', hrm, hkc⟩
            · exact (ok.head _ rfl).symm
            · obtain ⟨k1, n1, x1, x2⟩ := ok.made r'.o.id hkc
              obtain ⟨k2, n2, x3, x4⟩ := made_of hc hr.reach hf h hrm
              rw [← x2, ← x4, created_unique hc hr.reach hf x1 x3]
          have hii : i' = i := by
            apply Classical.byContradiction
            intro hne
            have := hd.one i' i t' t g3 w1 (tks_live (List.ne_nil_of_mem g4)) (by rw [hpc]; simp) hne (by rw [hbk, (hp.call t w1).1, w5])
            rw [ok.chg] at this
            cases this
          subst hii
          rw [w1] at g3
          cases g3
          have hpo := (h.thr _ _ w1).2
          rw [hpc] at hpo g4
          exact (hpo.1 _ g4).2 p.2 (by rw [h.ov]; exact hm) a hat
      have hbk := hc.buckets
      refine shows_part hc h (l := r :: rest) (by rw [hch]; exact fun _ hx => hx) hnd ?_ hseg (by rw [← hch]; exact hst) ?_ (by rw [← hch]; exact habs)
      · rw [← hch, ← chain_head hc h hb]
        apply rdHead_congr
        intro y y1 y2
        refine flown_eq h hfl hna (.inl (by omega)) ?_
        intro t' ht' w' hw' l1 l2
        have hat := pend_at_head hc h.good ge hb (h.U ▸ ht') hw' (y := y) l1 l2 y1 y2
        obtain ⟨m, hm, hle⟩ := done (.inl rfl) (a := c.bkDev + bucketOff b) ⟨hb, rfl⟩ t' (h.U ▸ ht') w' hw' hat.1
        cases hm
        exact hle
      · intro qr hqr
        rcases List.mem_cons.1 hqr with rfl | hqr
        · have hrm : qr ∈ v.ch b := by rw [hch]; simp
          have hl := linked_of hc h hrm
          have ho := ge.off hl
          simp only at ho
          apply rdNext_congr
          intro y y1 y2
          refine flown_eq h hfl hna (outside_heap hc h.good ge h.jinv h.L h.U (by omega)) ?_
          intro t' ht' w' hw' l1 l2
          have hat := (pend_at_rec hc h.good ge hl (h.U ▸ ht') hw' (y := y) l1 l2 (by simp only; omega) (by simp only; omega)).2
          simp only at hat
          rcases hat with hat | hat
          · omega
          · obtain ⟨m, hm, hle⟩ := done (.inr ⟨qr, hrm, .inr rfl⟩) (a := qr.off + 2) ⟨qr, hl, rfl, rfl⟩ t' (h.U ▸ ht') w' hw' hat.2.1
            cases hm
            exact hle
        · exact hnx qr hqr
    · right
      refine ⟨i, k, id, sz, w4, w5, ?_, ?_⟩
      · rintro a ha rfl
        rw [(q.ack a ha).2] at w1
        cases w1
      · have hhead := hp.head hfl
        rw [w5] at hhead
        refine shows_part hc h (l := rest) (fun _ hx => by rw [hch]; simp [hx]) (by simp only [List.map_cons, List.nodup_cons] at hnd; exact hnd.2) hhead
          (by rw [← hrn]; exact hseg2) (fun qr hqr => hst qr (by rw [hch]; simp [hqr])) hnx ?_
        intro k' hk'
        unfold Abs.omit
        rw [habs k' hk', hch]
        have hne : ∀ qr ∈ rest, qr.o.id ≠ id := by
          intro qr hqr e
          have := h.good.uniqId (linked_of hc h (b := b) (r := qr) (by rw [hch]; simp [hqr])) (linked_of hc h (b := b) (r := r) (by rw [hch]; simp)) (e.trans hp.id.symm)
          cases this
          simp only [List.map_cons, List.nodup_cons] at hnd
          exact hnd.1 (List.mem_map.2 ⟨_, hqr, rfl⟩)
        have hrest : ∀ l : List Rec, (∀ qr ∈ l, qr.o.id ≠ id) →
            ((l.filter (fun r => r.o.key = k')).map (ver v.L)).filter (fun x => x.id ≠ id) = (l.filter (fun r => r.o.key = k')).map (ver v.L) := by
          intro l hl
          rw [List.filter_eq_self]
          intro x hx
          obtain ⟨qr, hqr, rfl⟩ := List.mem_map.1 hx
          have := hl qr (List.mem_filter.1 hqr).1
          exact decide_eq_true this
        rw [List.filter_cons]
        split
        · rw [List.map_cons, List.filter_cons]
          have : (ver v.L r).id = id := hp.id
          rw [if_neg (by simp [this])]
          exact hrest rest hne
        · exact hrest rest hne
  · left
    have done : ∀ {kc : Cell} {a : Nat}, CellOf v b kc → CellAt c v kc a → Done v.U none a := by
      intro kc a hkc hat
      cases hm : s.ov.map kc with
      | none => exact h.good.quiet kc a hat (by rw [h.ov]; exact hm)
      | some p =>
        obtain ⟨i, key, id, n, t, g1, g2, g3, g4, _⟩ := cell hkc p hm
        have hpo := (h.thr _ _ g3).2
        obtain ⟨st, pc⟩ := t
        cases pc with
        | wait txn fr ts rs =>
          have hdn := (hpo.1 _ g4).2 p.2 (by rw [h.ov]; exact hm) a hat
          cases txn with
          | none => exact hdn
          | some m =>
            have hm' : m ∈ s.j.acked := Classical.byContradiction fun hx => hw ⟨i, _, m, key, id, n, g3, rfl, hx, g1, g2⟩
            intro t' ht' w' hw' e
            obtain ⟨m', hmm, hle⟩ := hdn t' ht' w' hw' e
            cases hmm
            have := h.jinv.acked_lt hm' (h.U ▸ ht')
            omega
        | evict ts rs => exact (hpo _ g4).2 p.2 (by rw [h.ov]; exact hm) a hat
        | _ => cases g4
    refine shows_part hc h (l := v.ch b) (fun _ hx => hx) (h.good.chn b) ?_ ?_ hst ?_ habs
    · rw [dev_head' hc h hb (done (.inl rfl) ⟨hb, rfl⟩)]; exact chain_head hc h hb
    · rw [← chain_head hc h hb]; exact h.good.chain b hb
    · intro r hrm
      exact dev_next' hc h (linked_of hc h hrm) (done (.inr ⟨r, hrm, .inr rfl⟩) ⟨r, linked_of hc h hrm, rfl, rfl⟩)

end Lite
end Blobd
