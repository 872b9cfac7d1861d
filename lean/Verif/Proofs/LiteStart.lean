import Verif.Spec.LiteStart
import Verif.Proofs.LiteChange
import Verif.Proofs.LiteAcks
import Verif.Proofs.LiteSeq
set_option autoImplicit false
/-! # Reopening a lite store -/
namespace Blobd
namespace Lite
open Spec

theorem drained_unacked {s : LSt} (h : Drained s) : unacked s.j = [] := by
  unfold unacked
  rw [show s.j.acked.length = s.j.hist.length from h]
  exact List.drop_length

/-- the invariant of the store opened on a device with contents `m`, if it had the right allocator -/
theorem reopen_at {c : LCfg} (hc : c.Ok) {s : LSt} {base : Mem} {v : V} {leak : List (Nat × Nat)} (h : LInv c s base v leak)
    {m : Mem} (hL : ∀ x, Journal.Outside c.jc x → m x = v.L x) :
    ∃ v' leak', LInv c { reopened c s s.alloc with j := { dev := m } } m v' leak' ∧ v'.ch = v.ch := by
  have hgeo := h.geo hc
  have hrec : ∀ r, (Own.linked, r) ∈ v.recs → ∀ x, r.off ≤ x → m x = v.L x := by
    intro r hr x hx
    have h0 : c.heap.base ≤ r.off := (hgeo.off hr).1
    exact hL x (.inr (by have := hc.journal; omega))
  obtain ⟨hl, ha⟩ := lists_frame h.good.toLists (L' := m)
    (fun b hb => by
      unfold rdHead rdBe
      congr 2
      apply Mem.read_congr
      intro x h1 h2
      apply hL
      have := hc.buckets
      refine .inl ?_
      unfold bucketOff at h2
      have : (b + 1) * 5 ≤ 2 ^ c.bits * 5 := Nat.mul_le_mul_right 5 hb
      omega)
    (fun r hr => by
      refine ⟨((h.good.att r hr).1).congr (fun x hx _ => hrec r hr x (by omega)), ?_, ?_⟩
      · unfold rdState
        congr 1
        exact Mem.read_congr (fun x h1 _ => hrec r hr x (by omega))
      · unfold rdNext rdBe
        congr 1
        exact Mem.read_congr (fun x h1 _ => hrec r hr x (by omega)))
  let keep : Own × Rec → Bool := fun x => decide (x.1 = .linked)
  let v' : V := ⟨m, [], {}, v.recs.filter keep, v.ch⟩
  have hin : ∀ x ∈ v'.recs, x ∈ v.recs := fun x hx => List.mem_of_mem_filter hx
  have hlk : ∀ r, (Own.linked, r) ∈ v'.recs ↔ (Own.linked, r) ∈ v.recs := by
    intro r
    simp [v', keep, List.mem_filter]
  refine ⟨v', (v.recs.filter (fun x => !keep x)).flatMap (fun x => regs c.pages x.2) ++ leak, ?_, rfl⟩
  refine ⟨jinv_init hc.jok m, rfl, rfl, rfl, ?_, ⟨?_, ?_, ?_⟩, ?_, ?_, ?_, rfl, fun x hx => .inl (by simpa [keep] using (List.mem_filter.1 hx).2)⟩
  · show Buddy.Inv c.heap s.alloc _
    refine Buddy.Inv.perm h.heap ?_
    rw [← List.append_assoc]
    refine List.Perm.append_right _ ?_
    rw [← List.flatMap_append]
    exact (List.filter_append_perm keep v.recs).symm.flatMap_right _
  · refine ⟨?_, ?_, ?_, ?_, ?_⟩
    · intro t ht; cases ht
    · intro k a x _ hx; cases hx
    · intro k a _ _ t ht; cases ht
    · intro id hid
      rcases hid with hid | hid <;> exact absurd rfl hid
    · intro k n x hx; cases hx
  · refine ⟨?_, ?_, ?_, ?_, ?_⟩
    · intro r hr
      exact hl.att r ((hlk r).1 hr)
    · intro r
      rw [hlk r]
      exact hl.lnk r
    · exact hl.chb
    · exact hl.chn
    · exact hl.chain
  · refine ⟨fun x hx => h.good.fit x (hin x hx), ?_, ?_⟩
    · exact h.good.offs.sublist (List.Sublist.map _ List.filter_sublist)
    · exact h.good.idn.sublist (List.Sublist.map _ List.filter_sublist)
  · intro i t ht; cases ht
  · intro i t j t' _ ht; cases ht
  · show absRun c.versioning (s.lin.map (·.2)) = _
    rw [h.abs, ← ha]
    rfl

theorem reopen_inv {c : LCfg} (hc : c.Ok) {s : LSt} {base : Mem} {v : V} {leak : List (Nat × Nat)} (h : LInv c s base v leak)
    (hu : unacked s.j = []) {m : Mem} (hm : ∀ x, Journal.Outside c.jc x → m x = s.j.dev x) :
    ∃ v' leak', LInv c { reopened c s s.alloc with j := { dev := m } } m v' leak' ∧ v'.ch = v.ch :=
  reopen_at hc h (fun x hx => by rw [hm x hx, h.jinv.dev_eq hx (fun t ht => by rw [hu] at ht; cases ht), h.L])

theorem unlink_alloc {c : LCfg} (s : LSt) (k : Nat) (f : Found) (b : Buddy) :
    unlink c { s with alloc := b } k f = (unlink c s k f).map (fun r => ({ r.1 with alloc := b }, r.2)) := by
  unfold unlink
  simp only
  cases recPages c.pages s.j.dev f.off (rdMetaPow2 (ofBytes f.raw) 0) with
  | none => rfl
  | some free => cases hp : f.prev <;> rfl

theorem commitTxn_alloc {c : LCfg} (s : LSt) (idle : Bool) (ws : List (Nat × List Byte)) (b : Buddy) :
    commitTxn c { s with alloc := b } idle ws = ({ (commitTxn c s idle ws).1 with alloc := b }, (commitTxn c s idle ws).2) := by
  unfold commitTxn
  simp only
  cases Journal.commit c.jc idle (List.foldl (fun t w => t.write w.1 w.2) { id := s.j.hist.length, writes := [] } ws) s.j <;> rfl

theorem onFound_alloc {c : LCfg} (s : LSt) (i : Nat) (t : Thread) (req : Req) (key : List Byte) (f : Found) (idle : Bool) (b : Buddy) :
    onFound c { s with alloc := b } i t req key f idle = { onFound c s i t req key f idle with alloc := b } := by
  cases req with
  | look want => rfl
  | write id offset len =>
    simp only [onFound]
    cases RW.writeCheck c.pages (rdSize (ofBytes f.raw) 0) offset len with
    | some e => rfl
    | none =>
      cases calcObjectLayout c.pages (rdSize (ofBytes f.raw) 0) <;> rfl
  | delete want =>
    simp only [onFound]
    rw [unlink_alloc]
    cases unlink c s (c.bkt key) f with
    | none => rfl
    | some r =>
      obtain ⟨s1, tk, ws, free⟩ := r
      simp only [Option.map_some]
      have := commitTxn_alloc (c := c) (event s1 i (.removed key want (rdId (ofBytes f.raw) 0))) idle ws b
      refine Eq.trans (congrArg (fun q : LSt × Option Nat => setPc { q.1 with
        faults := (if q.2.isNone && pendingAt s.j f.off then [.pendingInode] else []) ++ q.1.faults } i t (.wait q.2 free [tk] .deleted)) this) ?_
      rfl
  | commit id => rfl

theorem onInode_alloc {c : LCfg} (s : LSt) (i : Nat) (t : Thread) (req : Req) (key : List Byte) (cur : Nat) (prev : Option Nat)
    (raw : List Byte) (inc ex : Option Found) (idle : Bool) (b : Buddy) :
    onInode c { s with alloc := b } i t req key cur prev raw inc ex idle = { onInode c s i t req key cur prev raw inc ex idle with alloc := b } := by
  have e1 : rawState { s with alloc := b } raw = rawState s raw := rfl
  have e2 : rawNext { s with alloc := b } raw = rawNext s raw := rfl
  unfold onInode
  simp only [e1, e2]
  split
  · split
    · rfl
    · cases req with
      | commit id =>
        simp only
        split
        · rfl
        · split <;> rfl
      | _ =>
        simp only
        split
        · exact onFound_alloc ..
        · rfl
  · rfl

theorem onEnd_alloc {c : LCfg} (s : LSt) (i : Nat) (t : Thread) (req : Req) (key : List Byte) (inc ex : Option Found)
    (idle : Bool) (b : Buddy) : onEnd c { s with alloc := b } i t req key inc ex idle = { onEnd c s i t req key inc ex idle with alloc := b } := by
  cases req with
  | commit id =>
    simp only [onEnd]
    cases inc with
    | none => rfl
    | some f =>
      simp only
      have fin : ∀ (s1 : LSt) (tks : List (Overlay.Ticket Cell)) (ws : List (Nat × List Byte)) (free : List (Nat × Nat)),
          (let r := s1.ov.set (.state id) stCommitted
           let s2 := event { { s1 with alloc := b } with ov := r.1 } i (.committed key id)
           let q := commitTxn c s2 idle (ws ++ [(f.off + ObjectOffsets.state, leBytes 1 stCommitted)])
           setPc q.1 i t (.wait q.2 free (r.2 :: tks) .committed)) =
          { (let r := s1.ov.set (.state id) stCommitted
             let s2 := event { s1 with ov := r.1 } i (.committed key id)
             let q := commitTxn c s2 idle (ws ++ [(f.off + ObjectOffsets.state, leBytes 1 stCommitted)])
             setPc q.1 i t (.wait q.2 free (r.2 :: tks) .committed)) with alloc := b } := by
        intro s1 tks ws free
        have := commitTxn_alloc (c := c) (event { s1 with ov := (s1.ov.set (.state id) stCommitted).1 } i (.committed key id)) idle
          (ws ++ [(f.off + ObjectOffsets.state, leBytes 1 stCommitted)]) b
        simp only [event] at this ⊢
        rw [this]
        rfl
      cases ex with
      | none => exact fin s [] [] []
      | some e =>
        cases hv : c.versioning with
        | true => exact fin s [] [] []
        | false =>
          simp only [Bool.false_eq_true, if_false]
          rw [unlink_alloc]
          cases unlink c s (c.bkt key) e with
          | none => rfl
          | some r => exact fin r.1 [r.2.1] r.2.2.1 r.2.2.2
  | _ => rfl

/-- nothing but `create` and releasing pages looks at the allocator -/
theorem act_alloc {c : LCfg} {s s' : LSt} {a : Act} (ha : act c s a = some s') (hcr : ∀ k n as t id, a ≠ .create k n as t id)
    (hrel : ¬ Releases s a) (b : Buddy) : act c { s with alloc := b } a = some { s' with alloc := b } := by
  cases a with
  | create k n as t id => exact absurd rfl (hcr k n as t id)
  | createLink i idle =>
    simp only [act] at ha ⊢
    split at ha
    · rename_i st o off hth
      split at ha
      · cases ha
        rename_i hl
        refine (if_pos hl).trans ?_
        congr 1
      · cases ha
    · cases ha
  | inode i idle =>
    simp only [act] at ha ⊢
    split at ha
    · cases ha
      rw [onInode_alloc]
    · cases ha
  | atEnd i idle =>
    simp only [act] at ha ⊢
    split at ha
    · cases ha
      rw [onEnd_alloc]
    · cases ha
  | signalled i =>
    simp only [act] at ha ⊢
    split at ha
    · rename_i st txn free tickets resp hth
      split at ha
      · rename_i hack
        rw [if_pos hack]
        have hfr : free = [] := by
          by_contra hne
          exact hrel ⟨i, st, txn, free, tickets, resp, rfl, hth, hne⟩
        subst hfr
        simp only [Buddy.releaseAll] at ha ⊢
        cases ha
        rfl
      · cases ha
    · cases ha
  | createWritten i =>
    simp only [act] at ha ⊢
    split at ha <;> cases ha
    rfl
  | lookup req key =>
    simp only [act] at ha ⊢
    split at ha
    · rename_i hl
      cases ha
      exact if_pos hl
    · cases ha
  | read i =>
    simp only [act] at ha ⊢
    split at ha
    · split at ha <;> cases ha
      rename_i h0
      rw [if_neg h0]
      rfl
    · cases ha
  | evict i =>
    simp only [act] at ha ⊢
    split at ha <;> cases ha
    rfl
  | respond i =>
    simp only [act] at ha ⊢
    split at ha <;> cases ha
    rfl
  | data i n skip bytes =>
    simp only [act] at ha ⊢
    split at ha
    · split at ha
      · split at ha <;> cases ha
        rename_i h1 h2
        rw [if_pos h2]
      · cases ha
    · cases ha
  | writeEnd i r =>
    simp only [act] at ha ⊢
    split at ha <;> cases ha
    rfl
  | drop i =>
    simp only [act] at ha ⊢
    split at ha <;> cases ha <;> rfl
  | cancel i n bytes =>
    simp only [act] at ha ⊢
    split at ha
    · split at ha
      · split at ha <;> cases ha
        rename_i h1 h2
        rw [if_pos h2]
        rfl
      · cases ha
    · cases ha
  | orphan n =>
    simp only [act] at ha ⊢
    split at ha <;> cases ha
    rfl

/-- everything the invariants say holds on after reopening, as long as the allocator is not used -/
theorem later_inv {c : LCfg} (hc : c.Ok) {s0 s1 : LSt} (h : Later c s0 s1) {b : Buddy} {base : Mem} {v : V} {leak : List (Nat × Nat)}
    (hi : LInv c { s0 with alloc := b } base v leak) (hf : s1.faults = []) : ∃ base' v' leak', LInv c { s1 with alloc := b } base' v' leak' := by
  induction h with
  | refl => exact ⟨base, v, leak, hi⟩
  | act a hl ha hcr hrel ih =>
    have ha' := act_alloc ha hcr hrel b
    obtain ⟨b1, v1, l1, h1⟩ := ih (act_faults ha hf)
    obtain ⟨b2, v2, l2, h2, _⟩ := step_act hc h1 ha' hf
    exact ⟨b2, v2, l2, h2⟩
  | @journal s1 j' hl hj hh ih =>
    obtain ⟨b1, v1, l1, h1⟩ := ih hf
    obtain ⟨b2, v2, h2, _⟩ := step_journal hc h1 (j' := j') hj hh
    exact ⟨b2, v2, l1, h2⟩

theorem later_ai {c : LCfg} {s0 s1 : LSt} (h : Later c s0 s1) (hi : AI s0) : AI s1 := by
  induction h with
  | refl => exact hi
  | act a hl ha _ _ ih => exact ai_act ih ha
  | journal hl hj hh ih => exact ⟨ih.ids, ih.thr, ih.acks⟩

theorem reopened_ai {c : LCfg} {s : LSt} (h : AI s) (a : Buddy) : AI (reopened c s a) :=
  ⟨h.ids, (fun i t ht => by cases ht), h.acks⟩

/-- the lists on the device, from the invariant with an empty overlay and nothing pending -/
theorem devChain_of {s : LSt} (he : s.ov = {}) {off : Nat} {l : List Nat} (h : Chain s off l) : DevChain s.j.dev off l := by
  induction h with
  | nil => exact .nil
  | @cons off l h0 _ ih =>
    refine .cons h0 ?_
    have : nextOf s off = rdNext s.j.dev off := by simp [nextOf, he, Overlay.Ov.get]
    rw [← this]; exact ih

theorem shows_of {c : LCfg} (hc : c.Ok) {s : LSt} {base : Mem} {v : V} {leak : List (Nat × Nat)} (h : LInv c s base v leak)
    (he : s.ov = {}) : DeviceShows c s.j.dev (absOf c v) := by
  intro b hb
  have hch := devChain_of he (chain_of hc h hb)
  have hhd : getHead c s b = rdHead s.j.dev c.bkDev b := by simp [getHead, he, Overlay.Ov.get]
  rw [hhd] at hch
  refine ⟨_, hch, h.good.chn b, ?_, ?_⟩
  · intro off ho
    obtain ⟨r, hr, rfl⟩ := List.mem_map.1 ho
    have ha := h.good.att r (linked_of hc h hr)
    have e : rdState s.j.dev r.off = rdState v.L r.off :=
      dev_state hc h.good (h.geo hc) h.jinv h.L h.U (linked_of hc h hr) (by rw [h.ov, he])
    rw [e]; exact ha.2
  intro k hk
  unfold absOf
  rw [hk]
  have hm : ∀ r ∈ v.ch b, rdKey s.j.dev r.off = r.o.key ∧
      (⟨rdId s.j.dev r.off, rdSize s.j.dev r.off, decide (rdState s.j.dev r.off = stCommitted)⟩ : Ver) = ver v.L r := by
    intro r hr
    refine ⟨(inode_fields hc h (linked_of hc h hr)).2.1, ?_⟩
    rw [← verAt_eq hc h hr]
    have : stateOf s r.off = rdState s.j.dev r.off := by simp [stateOf, he, Overlay.Ov.get]
    unfold verAt
    rw [this]
  generalize v.ch b = l at hm
  induction l with
  | nil => rfl
  | cons r l ih =>
    have h1 := hm r (by simp)
    have ih := ih (fun r hr => hm r (by simp [hr]))
    simp only [List.map_cons, List.filter_cons, h1.1]
    split
    · simp only [List.map_cons, ih, h1.2]
    · exact ih

end Lite
end Blobd
