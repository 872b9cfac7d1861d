import Verif.Proofs.Overlay
/-!
# Properties of the lite journal and overlay (C11, C12, C13, C47, C48)
-/
namespace Blobd
namespace Props
open Merge Journal

/-! ## C11, C12: merging -/

/-- C11: whatever writes are queued, writing the merged batch leaves the device exactly as if the
writes had been performed one after another in order. -/
theorem C11_merged_equals_sequential (ws : List (Nat × List Byte)) (m : Mem) :
    m.writeAll (mergeAll ws) = m.writeAll ws := (mergeAll_spec ws).2 m

/-- C11: and no byte outside the original writes is covered by any merged write. -/
theorem C11_touches_nothing_else (ws : List (Nat × List Byte)) (e : Nat × List Byte) (he : e ∈ mergeAll ws)
    (x : Nat) (h1 : e.1 ≤ x) (h2 : x < e.1 + e.2.length) :
    ∃ w ∈ ws, w.1 ≤ x ∧ x < w.1 + w.2.length := merged_touches ⟨e, he, h1, h2⟩

example : mergeAll [(10, [1, 2, 3, 4]), (11, [9, 9]), (13, [7, 7])] =
    [(10, [1]), (11, [9, 9]), (13, [7, 7])] := by decide

/-- C12: distinct merged writes of a batch never share a byte. -/
theorem C12_entries_disjoint (ws : List (Nat × List Byte)) (a b : Nat × List Byte) (ha : a ∈ mergeAll ws)
    (hb : b ∈ mergeAll ws) (hne : a ≠ b) :
    a.1 + a.2.length ≤ b.1 ∨ b.1 + b.2.length ≤ a.1 := by
  have := (mergeAll_spec ws).1.apart ha hb hne
  unfold stopOf at this; omega

/-- C12: performing the merged writes in any order, with any repetitions, is the same as performing
the original writes once in their order. -/
theorem C12_any_order_any_repetition (ws : List (Nat × List Byte)) (seq : List (Nat × List Byte))
    (h : ∀ e, e ∈ seq ↔ e ∈ mergeAll ws) (m : Mem) : m.writeAll seq = m.writeAll ws := by
  rw [← C11_merged_equals_sequential ws m]
  exact writeAll_good_eq m seq _ (mergeAll_spec ws).1 h

example : ∀ e, e ∈ [(13, [7, 7]), (10, [1]), (13, [7, 7]), (11, [9, 9])] ↔
    e ∈ mergeAll [(10, [(1 : Byte), 2, 3, 4]), (11, [9, 9]), (13, [7, 7])] := by
  have h : mergeAll [(10, [(1 : Byte), 2, 3, 4]), (11, [9, 9]), (13, [7, 7])] =
    [(10, [1]), (11, [9, 9]), (13, [7, 7])] := by decide
  rw [h]; intro e; simp only [List.mem_cons, List.not_mem_nil, or_false]
  constructor <;> (rintro (h | h | h | h) <;> simp [h]) <;> (try (rintro (h | h | h) <;> simp [h]))

/-! ## C47: the journal applies transactions in commit order -/

/-- C47: at every moment of every schedule there are `k ≤ j` such that exactly the first `k` committed
transactions are acknowledged, and every device byte outside the journal area has the value it has
after the first `k` or after the first `j` transactions performed in commit order. -/
theorem C47_device_is_commit_order_prefix {c : JCfg} (hc : CfgOk c) {m : Mem} {s : State}
    (h : Reach c m s) (hok : ∀ t ∈ s.hist, TxnOk c t) :
    ∃ k j, k ≤ j ∧ j ≤ s.hist.length ∧ s.acked = (s.hist.take k).map Txn.id ∧
      ∀ x, Outside c x → s.dev x = image m (s.hist.take k) x ∨ s.dev x = image m (s.hist.take j) x := by
  obtain ⟨done, hd⟩ := Journal.reach_inv hc h hok
  have hp := hd.phase
  have ht : ∀ ts, ts <+: s.hist → s.hist.take ts.length = ts := fun ts h => (List.prefix_iff_eq_take.1 h).symm
  have hdone : done <+: s.hist := by rw [hd.hist]; exact List.prefix_append _ _
  have simple : (∀ x, Outside c x → s.dev x = image m done x) → ∃ k j, k ≤ j ∧ j ≤ s.hist.length ∧
      s.acked = (s.hist.take k).map Txn.id ∧
      ∀ x, Outside c x → s.dev x = image m (s.hist.take k) x ∨ s.dev x = image m (s.hist.take j) x := by
    intro hx
    refine ⟨done.length, done.length, Nat.le_refl _, hdone.length_le, ?_, ?_⟩
    · rw [ht _ hdone]; exact hd.acked
    · intro x ho; rw [ht _ hdone]; exact .inl (hx x ho)
  cases hph : s.phase with
  | idle => rw [hph] at hp; exact simple hp
  | blanking b => rw [hph] at hp; exact simple hp
  | journal b => rw [hph] at hp; exact simple hp.2
  | entries b todo =>
    rw [hph] at hp
    have h2 : done ++ b.txns <+: s.hist := by
      rw [hd.hist]
      simp only [inFlight, hph, ← List.append_assoc]
      exact ⟨_, (List.append_assoc _ _ _).symm⟩
    refine ⟨done.length, (done ++ b.txns).length, by simp, h2.length_le, ?_, ?_⟩
    · rw [ht _ hdone]; exact hd.acked
    · intro x ho; rw [ht _ hdone, ht _ h2]; exact hp.2.2.2.1 x ho

/-- C47: when nothing is pending, every committed transaction is acknowledged and on the device. -/
theorem C47_quiescent {c : JCfg} (hc : CfgOk c) {m : Mem} {s : State} (h : Reach c m s)
    (hok : ∀ t ∈ s.hist, TxnOk c t) (hp : s.pending.txns = []) (hq : s.queue = []) (hi : s.phase = .idle) :
    s.acked = s.hist.map Txn.id ∧ ∀ x, Outside c x → s.dev x = image m s.hist x := by
  obtain ⟨done, hd⟩ := Journal.reach_inv hc h hok
  have hh : s.hist = done := by rw [hd.hist]; simp [inFlight, hi, hq, hp]
  have := hd.phase
  rw [hi] at this
  rw [hh]; exact ⟨hd.acked, this⟩

/-- C47: the journal can always make progress: while a committed transaction is unacknowledged some
step of the flusher or of the timer is enabled. -/
theorem C47_progress {c : JCfg} (hc : CfgOk c) {m : Mem} {s : State} (h : Reach c m s)
    (hok : ∀ t ∈ s.hist, TxnOk c t) (hun : s.acked ≠ s.hist.map Txn.id) :
    ∃ s', Step c s s' ∧ s'.hist = s.hist := by
  cases hi : s.phase with
  | journal b => exact ⟨_, .journalDone hi, rfl⟩
  | entries b todo =>
    cases todo with
    | nil => exact ⟨_, .ack hi, rfl⟩
    | cons e t => exact ⟨_, .entryDone hi e (by simp), rfl⟩
  | blanking b => exact ⟨_, .blankDone hi, rfl⟩
  | idle =>
    cases hq : s.queue with
    | cons b q => exact ⟨_, .recv hi hq, rfl⟩
    | nil =>
      by_cases hp : s.pending.txns = []
      · exact absurd (C47_quiescent hc h hok hp hq hi).1 hun
      · exact ⟨_, .timer hp, rfl⟩

/-- The premise "every transaction fits" is needed: a transaction larger than the journal area makes
the journal write run past the area. -/
theorem C47_oversized_transaction_overruns :
    ∃ (c : JCfg) (m : Mem) (s : State), CfgOk c ∧ Reach c m s ∧
      (∀ t ∈ s.hist, ∀ w ∈ t.writes, ∀ x, w.1 ≤ x → x < w.1 + w.2.length → Outside c x) ∧
      ∃ x, Outside c x ∧ (∀ t ∈ s.hist, ∀ w ∈ t.writes, ¬ (w.1 ≤ x ∧ x < w.1 + w.2.length)) ∧ s.dev x ≠ m x := by
  let c : JCfg := ⟨1000, 40, fun w => w.2, fun _ => List.replicate 32 0⟩
  let t : Txn := ⟨0, [(0, [1, 1, 1, 1, 1, 1])]⟩
  let s1 : State := { dev := fun _ => 0, pending := ({} : Batch).add c t, queue := [{}], hist := [t] }
  let s2 : State := { s1 with queue := [{}, ({} : Batch).add c t], pending := {} }
  let s3 : State := { s2 with queue := [({} : Batch).add c t], phase := .journal {} }
  let s4 : State := { s3 with dev := s3.dev.write 1000 (({} : Batch).buf c), phase := .entries {} [] }
  let s5 : State := { s4 with acked := [], phase := .blanking {} }
  let s6 : State := { s5 with dev := s5.dev.write 1000 (blank c), phase := .idle }
  let s7 : State := { s6 with queue := [], phase := .journal (({} : Batch).add c t) }
  let s8 : State := { s7 with dev := s7.dev.write 1000 ((({} : Batch).add c t).buf c),
                              phase := .entries (({} : Batch).add c t) [(0, [1, 1, 1, 1, 1, 1])] }
  have r1 : Reach c (fun _ => 0) s1 := .step .init (.commit false t rfl)
  have r2 : Reach c (fun _ => 0) s2 := .step r1 (.timer (by simp [s1, Batch.add]))
  have r3 : Reach c (fun _ => 0) s3 := .step r2 (.recv (b := {}) rfl rfl)
  have r4 : Reach c (fun _ => 0) s4 := .step r3 (.journalDone (b := {}) rfl)
  have r5 : Reach c (fun _ => 0) s5 := .step r4 (.ack (b := {}) rfl)
  have r6 : Reach c (fun _ => 0) s6 := .step r5 (.blankDone (b := {}) rfl)
  have r7 : Reach c (fun _ => 0) s7 := .step r6 (.recv (b := ({} : Batch).add c t) rfl rfl)
  have r8 : Reach c (fun _ => 0) s8 := .step r7 (.journalDone (b := ({} : Batch).add c t) rfl)
  refine ⟨c, fun _ => 0, s8, ⟨by decide, fun d => by simp [c]⟩, r8, ?_, 1041, by simp [Outside, c], ?_, ?_⟩
  · intro t' ht w hw x h1 h2
    simp [s8, s7, s6, s5, s4, s3, s2, s1] at ht
    subst ht
    simp [t] at hw
    subst hw
    simp at h2
    simp only [Outside, c]; omega
  · intro t' ht w hw
    simp [s8, s7, s6, s5, s4, s3, s2, s1] at ht
    subst ht
    simp [t] at hw
    subst hw
    simp
  · show s8.dev 1041 ≠ 0
    decide

/-! ## C48: crash atomicity of lite metadata transactions -/

/-- C48, the half the code provides: whenever a batch is partly applied, the journal area holds the
complete batch record, and performing the batch's writes (again) from the torn device gives exactly
the device in which all of its transactions happened. -/
theorem C48_journal_record_suffices_partial {c : JCfg} (hc : CfgOk c) {m : Mem} {s : State} (h : Reach c m s)
    (hok : ∀ t ∈ s.hist, TxnOk c t) {b : Batch} {todo : Writes} (hp : s.phase = .entries b todo) :
    s.dev.read c.devOffset b.bufLen = c.hash b.raw ++ u32le b.bufLen ++ b.txns.flatMap (Txn.raw c) ∧
    ∃ k, s.acked = (s.hist.take k).map Txn.id ∧ b.txns = (s.hist.drop k).take b.txns.length ∧
      ∀ x, Outside c x → s.dev.writeAll (writesOf b.txns) x = image m (s.hist.take (k + b.txns.length)) x := by
  obtain ⟨done, hd⟩ := Journal.reach_inv hc h hok
  have hph := hd.phase
  rw [hp] at hph
  obtain ⟨hb, hsub, hnd, h1, h2, h3⟩ := hph
  have hh : s.hist = done ++ b.txns ++ (s.queue.flatMap Batch.txns ++ s.pending.txns) := by
    rw [hd.hist]; simp [inFlight, hp]
  refine ⟨by rw [h3, Batch.buf, ← hb.raw], done.length, ?_, ?_, ?_⟩
  · rw [hh]; simp [hd.acked]
  · rw [hh]; simp
  · intro x hx
    have e : s.hist.take (done.length + b.txns.length) = done ++ b.txns := by
      rw [hh, ← List.length_append]; exact List.take_left
    rw [e]
    rw [show s.dev.writeAll (writesOf b.txns) = s.dev.writeAll b.entries by
      rw [hb.entries, C11_merged_equals_sequential]]
    by_cases ht : Touches b.entries x
    · obtain ⟨w, hw, hw1, hw2⟩ := ht
      rw [image_in_entry hb m done hw hw1 hw2]
      have hg : Good b.entries := by rw [hb.entries]; exact (mergeAll_spec _).1
      exact writeAll_covered _ _ _ hg (fun e he => he) x _ w hw hw1 (by simp [show x - w.1 < w.2.length by omega])
    · rw [Mem.writeAll_out (not_touches ht)]
      have : ¬ Touches todo x := by
        rintro ⟨w, hw, hw1⟩; exact ht ⟨w, hsub w hw, hw1⟩
      exact h2 x hx this

/-- C48 is violated: recovery is not implemented, so a crash while a batch is being applied leaves
part of a transaction on the device. Here one transaction writes two bytes; after the crash and
`recover` the device is neither as before nor as after the transaction. -/
theorem C48_violated_recovery_loses_atomicity :
    ∃ (c : JCfg) (m : Mem) (s : State), CfgOk c ∧ Reach c m s ∧ (∀ t ∈ s.hist, TxnOk c t) ∧
      ∀ k, ∃ x, Outside c x ∧ recover c s.dev x ≠ image m (s.hist.take k) x := by
  let c : JCfg := ⟨1000, 100, fun w => w.2, fun _ => List.replicate 32 0⟩
  let t : Txn := ⟨0, [(0, [1]), (10, [1])]⟩
  let b : Batch := ({} : Batch).add c t
  let s1 : State := { dev := fun _ => 0, pending := b, hist := [t] }
  let s2 : State := { s1 with queue := [b], pending := {} }
  let s3 : State := { s2 with queue := [], phase := .journal b }
  let s4 : State := { s3 with dev := s3.dev.write 1000 (b.buf c), phase := .entries b b.entries }
  let s5 : State := { s4 with dev := s4.dev.write 0 [1], phase := .entries b (b.entries.erase (0, [1])) }
  have r1 : Reach c (fun _ => 0) s1 := .step .init (.commit false t rfl)
  have r2 : Reach c (fun _ => 0) s2 := .step r1 (.timer (by simp [s1, b, Batch.add]))
  have r3 : Reach c (fun _ => 0) s3 := .step r2 (.recv (b := b) rfl rfl)
  have r4 : Reach c (fun _ => 0) s4 := .step r3 (.journalDone (b := b) rfl)
  have r5 : Reach c (fun _ => 0) s5 := .step r4 (.entryDone (b := b) rfl (0, [1]) (by decide))
  refine ⟨c, fun _ => 0, s5, ⟨by decide, fun d => by simp [c]⟩, r5, ?_, ?_⟩
  · intro t' ht
    simp [s5, s4, s3, s2, s1] at ht
    subst ht
    refine ⟨by decide, ?_⟩
    intro w hw x h1 h2
    simp [t] at hw
    simp only [Outside, c]
    rcases hw with rfl | rfl <;> (simp at h2; omega)
  · intro k
    cases k with
    | zero => exact ⟨0, by simp [Outside, c], by decide⟩
    | succ k =>
      refine ⟨10, by simp [Outside, c], ?_⟩
      have : s5.hist.take (k + 1) = [t] := by simp [s5, s4, s3, s2, s1]
      rw [this]
      decide

/-! ## C13: overlay -/

open Overlay in
/-- C13: in every schedule of updates, journal progress and evictions, reading a metadata field
through the overlay gives the value of the most recent update of that field, or what was on the
device initially if it was never updated. -/
theorem C13_reads_see_latest {K V : Type} [DecidableEq K] {c : JCfg} {cs : Cells K V} (hc : CfgOk c)
    (hcs : CellsOk c cs) {m : Mem} {s : Overlay.State K V} (h : Overlay.Reach c cs m s)
    (hfit : ∀ t ∈ s.j.hist, 36 + (t.raw c).length ≤ c.cap) (k : K) :
    s.get cs k = (lastVal s.updates.flatten k).getD (cs.dec k (m.read (cs.addr k) (cs.width k))) :=
  get_latest hc hcs h hfit k

open Overlay in
/-- C13: once all updates of a field are acknowledged the device alone holds its latest value. -/
theorem C13_device_alone_after_ack {K V : Type} [DecidableEq K] {c : JCfg} {cs : Cells K V} (hc : CfgOk c)
    (hcs : CellsOk c cs) {m : Mem} {s : Overlay.State K V} (h : Overlay.Reach c cs m s)
    (hfit : ∀ t ∈ s.j.hist, 36 + (t.raw c).length ≤ c.cap) (k : K) (v : V)
    (hv : lastVal s.updates.flatten k = some v)
    (hk : ∀ i u, s.updates[i]? = some u → (∃ w, (k, w) ∈ u) → i ∈ s.j.acked) :
    cs.dec k (s.j.dev.read (cs.addr k) (cs.width k)) = v := by
  rw [dev_cell hc hcs h hfit k (fun i ⟨u, h1, h2⟩ => hk i u h1 h2), hv]
  exact hcs.dec_enc k v

open Overlay in
/-- C13: the overlay does not leak: when every operation has evicted its tickets it is empty. -/
theorem C13_overlay_drains {K V : Type} [DecidableEq K] {c : JCfg} {cs : Cells K V} (hc : CfgOk c)
    (hcs : CellsOk c cs) {m : Mem} {s : Overlay.State K V} (h : Overlay.Reach c cs m s)
    (hfit : ∀ t ∈ s.j.hist, 36 + (t.raw c).length ≤ c.cap) (hh : s.held = []) (k : K) :
    s.ov.get k = none := by
  obtain ⟨hi, _⟩ := Overlay.reach_inv hc hcs h hfit
  unfold Ov.get
  cases ho : s.ov.map k with
  | none => rfl
  | some p =>
    obtain ⟨se, v⟩ := p
    obtain ⟨_, _, tid, ht⟩ := hi.entry k se v ho
    rw [hh] at ht; cases ht

/-! ### A concrete system meeting the hypotheses: two one-byte fields at 0 and 10. -/
namespace Example
open Overlay

def c : JCfg := ⟨1000, 100, fun w => w.2, fun _ => List.replicate 32 0⟩
def cs : Cells Bool UInt8 := ⟨fun b => if b then 0 else 10, fun _ => 1, fun _ v => [v], fun _ l => l.headD 0⟩

theorem cfgOk : CfgOk c := ⟨by decide, fun d => by simp [c]⟩
theorem cellsOk : CellsOk c cs where
  width := fun _ => Nat.one_pos
  enc_len := fun _ _ => rfl
  dec_enc := fun _ _ => rfl
  disj := by intro k k' h; cases k <;> cases k' <;> simp_all [cs]
  outside := by intro k x h1 h2; cases k <;> simp [cs] at * <;> simp only [Outside, c] <;> omega

/-- an update of one field is pending in the journal, the reader sees it -/
example : ∃ s : Overlay.State Bool UInt8, Overlay.Reach c cs (fun _ => 0) s ∧
    (∀ t ∈ s.j.hist, 36 + (t.raw c).length ≤ c.cap) ∧ s.get cs true = 7 ∧ s.j.dev 0 = 0 := by
  refine ⟨_, .step .init (.update (s := { j := { dev := fun _ => 0 } }) false [(true, 7)] rfl), ?_, rfl, rfl⟩
  intro t ht
  have : t ∈ [(⟨0, [(0, [7])]⟩ : Txn)] := ht
  simp at this
  subst this
  decide

end Example
end Props
end Blobd
