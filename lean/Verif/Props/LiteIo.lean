import Verif.Proofs.LiteIo
import Verif.Proofs.LiteRun
set_option autoImplicit false
/-!
# C70 device accesses of the lite store

`InFlight c s src off len`: in state `s` a write of `len` bytes at `off` is under way, or its call has still to do it. `Src.Region`: where
writes of that kind may go. The lite store reads and writes the device through ordinary file I/O, so nothing has to be aligned.
-/
namespace Blobd
namespace Props
open Lite

/-- Whatever calls are in progress: every device write lies inside the region it belongs to, object records and contents in the heap,
the journal's batches in the journal, and the changes it carries out in the bucket cells or the heap. -/
theorem C70_lite_writes_partial {c : LCfg} (hc : c.Ok) {s : LSt} (hr : Reach c s) (hf : s.faults = []) {src : Src} {off len : Nat}
    (h : InFlight c s src off len) : ∀ y, off ≤ y → y < off + len → src.Region c y := by
  obtain ⟨base, v, leak, hi⟩ := reach_inv hc hr hf
  exact fun y h1 h2 => flight_region hc hi h h1 h2

/-- The three regions have no byte in common. -/
theorem C70_lite_regions {c : LCfg} (hc : c.Ok) (y : Nat) :
    ¬ (BucketByte c y ∧ JournalByte c y) ∧ ¬ (BucketByte c y ∧ HeapByte c y) ∧ ¬ (JournalByte c y ∧ HeapByte c y) := by
  have := hc.buckets; have := hc.journal
  unfold BucketByte JournalByte HeapByte
  omega

/-- Two writes in flight at the same time never share a byte, unless they are parts of the same upload. -/
theorem C70_lite_apart_partial {c : LCfg} (hc : c.Ok) {s : LSt} (hr : Reach c s) (hf : s.faults = []) {src src' : Src} {off len off' len' : Nat}
    (h : InFlight c s src off len) (h' : InFlight c s src' off' len') :
    (src = src' ∧ off = off' ∧ len = len') ∨ src.SameUpload src' ∨ off + len ≤ off' ∨ off' + len' ≤ off := by
  obtain ⟨base, v, leak, hi⟩ := reach_inv hc hr hf
  exact flights_clear hc hi h h'

/-- And these are all: a byte of the device changes only by a write in flight, with one exception, the pointer from one inode of a bucket's
list to the next, which deleting an object overwrites directly. -/
theorem C70_lite_sources_partial {c : LCfg} (hc : c.Ok) {s s' : LSt} (hr : Reach c s) (hf : s.faults = []) (hs : Step c s s') {y : Nat}
    (hy : s'.j.dev y ≠ s.j.dev y) :
    (∃ src off len, InFlight c s src off len ∧ off ≤ y ∧ y < off + len ∧ src.Region c y) ∨
      ∃ b l p, b < 2 ^ c.bits ∧ Chain s (getHead c s b) l ∧ p ∈ l ∧ p + 2 ≤ y ∧ y < p + 8 ∧ HeapByte c y := by
  obtain ⟨base, v, leak, hi⟩ := reach_inv hc hr hf
  rcases change_source hc hi hs hy with ⟨src, off, len, h1, h2, h3⟩ | ⟨b, l, p, h1, h2, h3, h4, h5⟩
  · exact .inl ⟨src, off, len, h1, h2, h3, flight_region hc hi h1 h2 h3⟩
  · refine .inr ⟨b, l, p, h1, h2, h3, h4, h5, ?_⟩
    have hl := Chain.unique h2 (chain_of hc hi h1)
    subst hl
    obtain ⟨r, hr', rfl⟩ := List.mem_map.1 h3
    have := (hi.geo hc).off (linked_of hc hi hr')
    unfold HeapByte
    simp only at this
    omega

/-- Hypotheses met: a record, a page of an upload and a change carried out by the journal are on their way at the same time. -/
example : ∃ s, Reach wcfg s ∧ wcfg.Ok ∧ s.faults = [] ∧ (∃ off len, InFlight wcfg s (.record 3) off len) ∧
    (∃ off len, InFlight wcfg s (.part 2 5) off len) ∧ ∃ off len, InFlight wcfg s .entry off len := by
  have h : (wrun (doCreate 0 [1] 3 5 ++ createTo 1 [2] 3 6 ++ [.a (.lookup (.write 5 0 3) [1])] ++ visit 2 2 ++ [.timer, .recv, .journalDone] ++
      [.a (.create [3] 3 [] 7 7)])).map (fun s =>
      (match s.j.phase with | .entries _ (_ :: _) => true | _ => false) && ((match s.thr 3 with | some ⟨_, .createWrite _ _⟩ => true | _ => false) &&
        ((match s.thr 2 with | some ⟨_, .writing _ 5 (_ :: _)⟩ => true | _ => false) && decide (s.faults = [])))) = some true := by decide +kernel
  obtain ⟨s, h1, h2⟩ := Option.map_eq_some_iff.1 h
  simp only [Bool.and_eq_true, decide_eq_true_eq] at h2
  obtain ⟨e1, e2, e3, e4⟩ := h2
  refine ⟨s, wrun_reach h1, wcfg_ok, e4, ?_, ?_, ?_⟩
  · split at e2
    · rename_i hp; exact ⟨_, _, .record hp⟩
    · cases e2
  · split at e3
    · rename_i hp; exact ⟨_, _, .part hp (List.mem_cons_self ..)⟩
    · cases e3
  · split at e1
    · rename_i hp; exact ⟨_, _, .entry hp (List.mem_cons_self ..)⟩
    · cases e1

end Props
end Blobd
