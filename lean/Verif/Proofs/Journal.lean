import Verif.Spec.Journal
import Verif.Proofs.Merge
/-! Invariant of the lite journal. -/
namespace Blobd
namespace Journal
open Merge

theorem image_append (m : Mem) (a b : List Txn) : image m (a ++ b) = image (image m a) b := by
  simp [image, writesOf, Mem.writeAll_append]

def Touches (ws : List (Nat × List Byte)) (x : Nat) : Prop := ∃ w ∈ ws, w.1 ≤ x ∧ x < w.1 + w.2.length

theorem not_touches {ws : List (Nat × List Byte)} {x : Nat} (h : ¬ Touches ws x) :
    ∀ w ∈ ws, x < w.1 ∨ w.1 + w.2.length ≤ x := by
  intro w hw
  apply Classical.byContradiction
  intro hc
  exact h ⟨w, hw, by omega, by omega⟩

theorem merged_touches {ws : List (Nat × List Byte)} {x : Nat} (h : Touches (mergeAll ws) x) :
    Touches ws x := by
  apply Classical.byContradiction
  intro hn
  obtain ⟨e, he, h1, h2⟩ := h
  have hlt : x - e.1 < e.2.length := by omega
  obtain ⟨hg, hm⟩ := mergeAll_spec ws
  let v := e.2[x - e.1]
  let m : Mem := fun _ => v + 1
  have a : m.writeAll (mergeAll ws) x = v :=
    writeAll_covered m _ _ hg (fun e he => he) x v e he h1 (by simp [v, hlt])
  rw [hm, Mem.writeAll_out (not_touches hn)] at a
  have : v + 1 ≠ v := by
    generalize v = u
    intro h
    have h3 : (1 : UInt8) = (u + 1) - u := by rw [UInt8.add_comm]; simp
    rw [h] at h3
    simp at h3
  exact this a

structure BatchOk (c : JCfg) (b : Batch) : Prop where
  entries : b.entries = mergeAll (writesOf b.txns)
  raw : b.raw = b.txns.flatMap (Txn.raw c)
  len : b.bufLen ≤ c.cap
  txns : ∀ t ∈ b.txns, TxnOk c t

theorem batch_empty {c : JCfg} (hc : CfgOk c) : BatchOk c {} :=
  ⟨rfl, rfl, hc.cap, by simp⟩

theorem BatchOk.add {c : JCfg} {b : Batch} (h : BatchOk c b) {t : Txn} (ht : TxnOk c t)
    (hl : b.bufLen + (t.raw c).length ≤ c.cap) : BatchOk c (b.add c t) := by
  refine ⟨?_, ?_, ?_, ?_⟩
  · simp [Batch.add, h.entries, mergeAll, writesOf, List.foldl_append]
  · simp [Batch.add, h.raw]
  · simp only [Batch.bufLen, Batch.add, List.length_append] at *; omega
  · intro t' ht'
    simp only [Batch.add, List.mem_append, List.mem_singleton] at ht'
    rcases ht' with h' | rfl
    · exact h.txns t' h'
    · exact ht

theorem BatchOk.away {c : JCfg} {b : Batch} (h : BatchOk c b) {x : Nat} (hx : Touches b.entries x) :
    Outside c x := by
  rw [h.entries] at hx
  obtain ⟨w, hw, h1, h2⟩ := merged_touches hx
  simp only [writesOf, List.mem_flatMap] at hw
  obtain ⟨t, ht, hw⟩ := hw
  exact (h.txns t ht).away w hw x h1 h2

theorem buf_length {c : JCfg} (hc : CfgOk c) (b : Batch) : (b.buf c).length = b.bufLen := by
  simp [Batch.buf, Batch.bufLen, hc.hash, u32le]; omega

theorem blank_length {c : JCfg} (hc : CfgOk c) : (blank c).length = 36 := by
  simp [blank, hc.hash, u32le]

/-- transactions of the batch the flusher holds and has not acknowledged -/
def inFlight (s : State) : List Txn :=
  match s.phase with
  | .journal b => b.txns
  | .entries b _ => b.txns
  | _ => []

def PhaseInv (c : JCfg) (m : Mem) (done : List Txn) (dev : Mem) : Phase → Prop
  | .idle => ∀ x, Outside c x → dev x = image m done x
  | .journal b => BatchOk c b ∧ ∀ x, Outside c x → dev x = image m done x
  | .entries b todo => BatchOk c b ∧ (∀ e ∈ todo, e ∈ b.entries) ∧ todo.Nodup ∧
      (∀ x, Outside c x → dev x = image m done x ∨ dev x = image m (done ++ b.txns) x) ∧
      (∀ x, Outside c x → ¬ Touches todo x → dev x = image m (done ++ b.txns) x) ∧
      dev.read c.devOffset b.bufLen = b.buf c
  | .blanking _ => ∀ x, Outside c x → dev x = image m done x

structure Inv (c : JCfg) (m : Mem) (done : List Txn) (s : State) : Prop where
  hist : s.hist = done ++ (inFlight s ++ (s.queue.flatMap Batch.txns ++ s.pending.txns))
  acked : s.acked = done.map Txn.id
  queue : ∀ b ∈ s.queue, BatchOk c b
  pending : BatchOk c s.pending
  phase : PhaseInv c m done s.dev s.phase

theorem write_journal_outside {c : JCfg} {m : Mem} {d : List Byte} {i n : Nat} (hd : d.length ≤ c.cap)
    {x : Nat} (hx : Outside c x) : (m.write (c.devOffset + i) ((d.drop i).take n)) x = m x := by
  apply Mem.write_out
  unfold Outside at hx
  simp only [List.length_take, List.length_drop]
  omega

theorem write_journal_outside' {c : JCfg} {m : Mem} {d : List Byte} (hd : d.length ≤ c.cap)
    {x : Nat} (hx : Outside c x) : (m.write c.devOffset d) x = m x := by
  apply Mem.write_out
  unfold Outside at hx
  omega

theorem good_nodup {w : Writes} (h : Good w) : w.Nodup := by
  have := h.sorted
  refine this.imp ?_
  intro a b hab he
  subst he; omega

theorem image_batch {c : JCfg} {b : Batch} (h : BatchOk c b) (m : Mem) (done : List Txn) :
    image m (done ++ b.txns) = (image m done).writeAll b.entries := by
  rw [image_append, h.entries, (mergeAll_spec _).2]; rfl

/-- value of a byte inside an entry of the batch -/
theorem image_in_entry {c : JCfg} {b : Batch} (h : BatchOk c b) (m : Mem) (done : List Txn)
    {e : Nat × List Byte} (he : e ∈ b.entries) {x : Nat} (h1 : e.1 ≤ x) (h2 : x < e.1 + e.2.length) :
    image m (done ++ b.txns) x = e.2[x - e.1]'(by omega) := by
  rw [image_batch h]
  have hg : Good b.entries := by rw [h.entries]; exact (mergeAll_spec _).1
  exact writeAll_covered _ _ _ hg (fun e he => he) x _ e he h1 (by simp [show x - e.1 < e.2.length by omega])

theorem image_not_entry {c : JCfg} {b : Batch} (h : BatchOk c b) (m : Mem) (done : List Txn)
    {x : Nat} (hx : ¬ Touches b.entries x) : image m (done ++ b.txns) x = image m done x := by
  rw [image_batch h, Mem.writeAll_out (not_touches hx)]

theorem commit_inv {c : JCfg} (hc : CfgOk c) {m : Mem} {done : List Txn} {s s' : State}
    (h : Inv c m done s) {idle : Bool} {t : Txn} (ht : TxnOk c t) (hs : commit c idle t s = some s') :
    Inv c m done s' := by
  unfold commit at hs
  split at hs
  · cases hs
  simp only [Option.some.injEq] at hs
  split at hs
  · subst hs
    refine ⟨?_, h.acked, ?_, ?_, h.phase⟩
    · simp [h.hist, inFlight, Batch.add]
    · intro b hb
      simp only [List.mem_append, List.mem_singleton] at hb
      rcases hb with hb | rfl
      · exact h.queue b hb
      · exact h.pending
    · apply (batch_empty hc).add ht
      simpa [Batch.bufLen] using ht.fits
  · rename_i hno
    subst hs
    refine ⟨?_, h.acked, h.queue, ?_, h.phase⟩
    · simp [h.hist, inFlight, Batch.add]
    · apply h.pending.add ht
      omega

theorem step_inv {c : JCfg} (hc : CfgOk c) {m : Mem} {done : List Txn} {s s' : State}
    (h : Inv c m done s) (hs : Step c s s') (hok : ∀ t ∈ s'.hist, TxnOk c t) :
    ∃ done', Inv c m done' s' ∧ done <+: done' := by
  cases hs with
  | commit idle t hcm =>
    refine ⟨done, commit_inv hc h (hok t ?_) hcm, List.prefix_refl _⟩
    unfold commit at hcm
    split at hcm
    · cases hcm
    · simp only [Option.some.injEq] at hcm
      rw [← hcm]; split <;> simp
  | timer hp =>
    refine ⟨done, ⟨?_, h.acked, ?_, batch_empty hc, h.phase⟩, List.prefix_refl _⟩
    · simpa [inFlight] using h.hist
    · intro b hb
      simp only [List.mem_append, List.mem_singleton] at hb
      rcases hb with hb | rfl
      · exact h.queue b hb
      · exact h.pending
  | @recv b q hp hq =>
    have hph := h.phase
    rw [hp] at hph
    refine ⟨done, ⟨?_, h.acked, ?_, h.pending, h.queue b (by simp [hq]), hph⟩, List.prefix_refl _⟩
    · simpa [inFlight, hp, hq] using h.hist
    · intro b' hb'; exact h.queue b' (by simp [hq, hb'])
  | @journalPart b hp i n =>
    have hph := h.phase
    rw [hp] at hph
    refine ⟨done, ⟨by simpa [inFlight, hp] using h.hist, h.acked, h.queue, h.pending, ?_⟩, List.prefix_refl _⟩
    simp only [hp]
    refine ⟨hph.1, fun x hx => ?_⟩
    rw [write_journal_outside (by rw [buf_length hc]; exact hph.1.len) hx]
    exact hph.2 x hx
  | @journalDone b hp =>
    have hph := h.phase
    rw [hp] at hph
    have hlen : (b.buf c).length ≤ c.cap := by rw [buf_length hc]; exact hph.1.len
    refine ⟨done, ⟨by simpa [inFlight, hp] using h.hist, h.acked, h.queue, h.pending, ?_⟩, List.prefix_refl _⟩
    refine ⟨hph.1, fun e he => he, ?_, ?_, ?_, ?_⟩
    · rw [hph.1.entries]; exact good_nodup (mergeAll_spec _).1
    · intro x hx; left; show (s.dev.write c.devOffset (b.buf c)) x = _; rw [write_journal_outside' hlen hx]; exact hph.2 x hx
    · intro x hx hn
      show (s.dev.write c.devOffset (b.buf c)) x = _
      rw [write_journal_outside' hlen hx, image_not_entry hph.1 _ _ hn]
      exact hph.2 x hx
    · have := Mem.read_write_same s.dev c.devOffset (b.buf c)
      rwa [buf_length hc] at this
  | @entryPart b todo hp e he i n =>
    have hph := h.phase
    rw [hp] at hph
    obtain ⟨hb, hsub, hnd, h1, h2, h3⟩ := hph
    have hval : ∀ x, e.1 + i ≤ x → x < e.1 + i + ((e.2.drop i).take n).length →
        (s.dev.write (e.1 + i) ((e.2.drop i).take n)) x = image m (done ++ b.txns) x ∧ Touches b.entries x := by
      intro x hx1 hx2
      have hxl := hx2
      simp only [List.length_take, List.length_drop] at hxl
      have hx3 : x < e.1 + e.2.length := by omega
      refine ⟨?_, e, hsub e he, by omega, hx3⟩
      rw [Mem.write_in hx1 hx2, image_in_entry hb _ _ (hsub e he) (by omega) hx3]
      simp only [List.getElem_take, List.getElem_drop]
      congr 1; omega
    refine ⟨done, ⟨by simpa [inFlight, hp] using h.hist, h.acked, h.queue, h.pending, ?_⟩, List.prefix_refl _⟩
    simp only [hp]
    refine ⟨hb, hsub, hnd, ?_, ?_, ?_⟩
    · intro x hx
      by_cases hin : e.1 + i ≤ x ∧ x < e.1 + i + ((e.2.drop i).take n).length
      · exact .inr (hval x hin.1 hin.2).1
      · rw [Mem.write_out (by omega)]; exact h1 x hx
    · intro x hx hn
      by_cases hin : e.1 + i ≤ x ∧ x < e.1 + i + ((e.2.drop i).take n).length
      · exact (hval x hin.1 hin.2).1
      · rw [Mem.write_out (by omega)]; exact h2 x hx hn
    · rw [← h3]
      apply Mem.read_congr
      intro x hx1 hx2
      apply Mem.write_out
      apply Classical.byContradiction
      intro hin
      have := hb.away (hval x (by omega) (by omega)).2
      unfold Outside at this
      have := hb.len
      omega
  | @entryDone b todo hp e he =>
    have hph := h.phase
    rw [hp] at hph
    obtain ⟨hb, hsub, hnd, h1, h2, h3⟩ := hph
    have hval : ∀ x, e.1 ≤ x → x < e.1 + e.2.length →
        (s.dev.write e.1 e.2) x = image m (done ++ b.txns) x ∧ Touches b.entries x := by
      intro x hx1 hx2
      refine ⟨?_, e, hsub e he, by omega, hx2⟩
      rw [Mem.write_in hx1 hx2, image_in_entry hb _ _ (hsub e he) hx1 hx2]
    refine ⟨done, ⟨by simpa [inFlight, hp] using h.hist, h.acked, h.queue, h.pending, ?_⟩, List.prefix_refl _⟩
    refine ⟨hb, fun e' he' => hsub e' (List.mem_of_mem_erase he'), hnd.erase e, ?_, ?_, ?_⟩
    · intro x hx
      by_cases hin : e.1 ≤ x ∧ x < e.1 + e.2.length
      · exact .inr (hval x hin.1 hin.2).1
      · show (s.dev.write e.1 e.2) x = _ ∨ (s.dev.write e.1 e.2) x = _
        rw [Mem.write_out (by omega)]; exact h1 x hx
    · intro x hx hn
      by_cases hin : e.1 ≤ x ∧ x < e.1 + e.2.length
      · exact (hval x hin.1 hin.2).1
      · show (s.dev.write e.1 e.2) x = _
        rw [Mem.write_out (by omega)]
        apply h2 x hx
        rintro ⟨w, hw, hw1, hw2⟩
        by_cases hwe : w = e
        · subst hwe; exact hin ⟨hw1, hw2⟩
        · exact hn ⟨w, (List.mem_erase_of_ne hwe).2 hw, hw1, hw2⟩
    · rw [← h3]
      apply Mem.read_congr
      intro x hx1 hx2
      apply Mem.write_out
      apply Classical.byContradiction
      intro hin
      have := hb.away (hval x (by omega) (by omega)).2
      unfold Outside at this
      have := hb.len
      omega
  | @ack b hp =>
    have hph := h.phase
    rw [hp] at hph
    obtain ⟨hb, hsub, hnd, h1, h2, h3⟩ := hph
    refine ⟨done ++ b.txns, ⟨?_, ?_, h.queue, h.pending, ?_⟩, List.prefix_append _ _⟩
    · simpa [inFlight, hp] using h.hist
    · simp [h.acked]
    · intro x hx
      exact h2 x hx (by rintro ⟨w, hw, _⟩; cases hw)
  | @blankPart b hp i n =>
    have hph := h.phase
    rw [hp] at hph
    refine ⟨done, ⟨by simpa [inFlight, hp] using h.hist, h.acked, h.queue, h.pending, ?_⟩, List.prefix_refl _⟩
    simp only [hp]
    intro x hx
    rw [write_journal_outside (by rw [blank_length hc]; exact hc.cap) hx]
    exact hph x hx
  | @blankDone b hp =>
    have hph := h.phase
    rw [hp] at hph
    refine ⟨done, ⟨by simpa [inFlight, hp] using h.hist, h.acked, h.queue, h.pending, ?_⟩, List.prefix_refl _⟩
    intro x hx
    show (s.dev.write c.devOffset (blank c)) x = _
    rw [write_journal_outside' (by rw [blank_length hc]; exact hc.cap) hx]
    exact hph x hx

theorem step_hist {c : JCfg} {s s' : State} (h : Step c s s') : s.hist <+: s'.hist := by
  cases h with
  | commit idle t hcm =>
    unfold commit at hcm
    split at hcm
    · cases hcm
    · simp only [Option.some.injEq] at hcm
      rw [← hcm]; split <;> simp
  | _ => exact List.prefix_refl _

theorem reach_inv {c : JCfg} (hc : CfgOk c) {m : Mem} {s : State} (h : Reach c m s)
    (hok : ∀ t ∈ s.hist, TxnOk c t) : ∃ done, Inv c m done s := by
  induction h with
  | init => exact ⟨[], rfl, rfl, by simp, batch_empty hc, fun x _ => rfl⟩
  | step _ hs ih =>
    obtain ⟨done, hd⟩ := ih (fun t ht => hok t ((step_hist hs).subset ht))
    obtain ⟨d', hd', _⟩ := step_inv hc hd hs hok
    exact ⟨d', hd'⟩

end Journal
end Blobd
