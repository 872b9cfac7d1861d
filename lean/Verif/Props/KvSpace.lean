import Verif.Proofs.KvSpaceRuns
/-!
# C66: the KV store's heap space comes back

Overwriting or deleting a value makes its heap space available again: when nothing is under way, a `write_object`
fails for lack of space exactly if the values the keys have now leave no room. It holds as long as no large value is
overwritten or deleted before the background commit has taken it up (`Thrifty`); in particular for values kept in the
log, and again after every restart. Otherwise the space is lost until the next restart, and a store can get stuck for
good: deleted data cannot be removed because the commit that would remove it first needs heap space.
-/
set_option autoImplicit false
namespace Blobd
namespace Props
open Kv Spec

/-- With nothing under way, a write of a value beyond the inline threshold is refused exactly if there is no room
beside the values that keys have now, and it does not panic.

Missing: executions that overwrite or delete a large value before it is committed (the violations below), and those
with one of the faults of C34. -/
theorem C66_space_exact_partial {c : StoreCfg} (hc : c.Ok) (hsl : c.heap.pages.spage ≤ c.heap.pages.lpage) {s : St}
    (h : Thrifty c s) (hf : s.faults = []) (hk : NoEmptyKey s) (hr : AtRest s) {data : List Byte}
    (h1 : data.length ≤ objectSizeMax) (h2 : c.inlineThreshold < data.length)
    (h3 : data.length ≤ 2 ^ c.heap.pages.lpage) (junk : Nat → Byte) (dev : Mem) :
    ((writePrepare c.inlineThreshold junk s.alloc dev data).1 = .err .outOfSpace ↔ ¬ Room c (InUse c s) data.length) ∧
    (writePrepare c.inlineThreshold junk s.alloc dev data).1 ≠ .panic := by
  have hinv := reach_inv hc (thrifty_reach h) hf hk
  rcases thrifty_held hc h hf hk with hd | hd
  · rw [(atRest_idle hinv hr).1] at hd; cases hd
  · have := rest_live hinv hr hd
    rw [List.append_nil] at this
    exact prepare_iff hc this (inUse_iff hc hinv hr) hsl h1 h2 h3 junk dev

/-- In particular, once every key has been deleted and nothing is under way, the whole heap is free again, as
after formatting. -/
theorem C66_empty_store_partial {c : StoreCfg} (hc : c.Ok) {s : St}
    (h : Thrifty c s) (hf : s.faults = []) (hk : NoEmptyKey s) (hr : AtRest s) (he : ∀ k, specMap s.applied k = none)
    {a0 : KvAlloc} (h0 : KvAlloc.new c.heap.base c.heap.heap c.heap.pages = some a0) :
    KvSameFree s.alloc a0 := by
  have hinv := reach_inv hc (thrifty_reach h) hf hk
  rcases thrifty_held hc h hf hk with hd | hd
  · rw [(atRest_idle hinv hr).1] at hd; cases hd
  · have i1 := rest_live hinv hr hd
    have hnil : effRegs c s.pages s.commit = [] := by
      rw [List.eq_nil_iff_forall_not_mem]
      intro r hm
      obtain ⟨k, hx⟩ := (inUse_iff hc hinv hr r).2 hm
      have := C34_read_latest_partial hc (thrifty_reach h) hf hk k
      rw [hx, he k] at this
      cases this
    rw [hnil] at i1
    have i2 := KvAlloc.new_inv h0
    intro p hs hl'
    rw [i1.hpages] at hs hl'
    exact Buddy.canon_unique i1.canon i2.canon hs hl'

/-- A client that has only written values kept in the log needs no further care. -/
theorem C66_only_small {c : StoreCfg} (hc : c.Ok) (hsl : c.heap.pages.spage ≤ c.heap.pages.lpage) {s : St}
    (h : Reach c s) (hf : s.faults = []) (hk : NoEmptyKey s) (hs : OnlySmall c s) (hr : AtRest s) {data : List Byte}
    (h1 : data.length ≤ objectSizeMax) (h2 : c.inlineThreshold < data.length)
    (h3 : data.length ≤ 2 ^ c.heap.pages.lpage) (junk : Nat → Byte) (dev : Mem) :
    ((writePrepare c.inlineThreshold junk s.alloc dev data).1 = .err .outOfSpace ↔ ¬ Room c (InUse c s) data.length) ∧
    (writePrepare c.inlineThreshold junk s.alloc dev data).1 ≠ .panic :=
  C66_space_exact_partial hc hsl (small_thrifty hc h hf hk hs) hf hk hr h1 h2 h3 junk dev

/-- For a disciplined client (C34) there are no faults to exclude. -/
theorem C66_disciplined {c : StoreCfg} (hc : c.Ok) (hsl : c.heap.pages.spage ≤ c.heap.pages.lpage) {s : St}
    (h : Disciplined c s) (hs : OnlySmall c s) (hr : AtRest s) {data : List Byte}
    (h1 : data.length ≤ objectSizeMax) (h2 : c.inlineThreshold < data.length)
    (h3 : data.length ≤ 2 ^ c.heap.pages.lpage) (junk : Nat → Byte) (dev : Mem) :
    ((writePrepare c.inlineThreshold junk s.alloc dev data).1 = .err .outOfSpace ↔ ¬ Room c (InUse c s) data.length) ∧
    (writePrepare c.inlineThreshold junk s.alloc dev data).1 ≠ .panic :=
  C66_only_small hc hsl (reach_of_disciplined h) (disciplined_good hc h).faults (disciplined_within hc h).keys hs hr
    h1 h2 h3 junk dev

/-- Whatever happened before: a store that is restarted at rest comes back at rest, with the same values, and with
all its free space: a write is refused exactly if there is no room beside the values keys have. -/
theorem C66_restart_reclaims {c : StoreCfg} (hc : c.Ok) (hsl : c.heap.pages.spage ≤ c.heap.pages.lpage) {s s' : St}
    (h : Reach c s) (hf : s.faults = []) (hk : NoEmptyKey s) (hr : AtRest s) (hl : load c s = some s')
    {data : List Byte} (h1 : data.length ≤ objectSizeMax) (h2 : c.inlineThreshold < data.length)
    (h3 : data.length ≤ 2 ^ c.heap.pages.lpage) (junk : Nat → Byte) (dev : Mem) :
    AtRest s' ∧ (∀ k, found s' (readTuple c s' k) = found s (readTuple c s k)) ∧
    ((writePrepare c.inlineThreshold junk s'.alloc dev data).1 = .err .outOfSpace ↔ ¬ Room c (InUse c s') data.length) ∧
    (writePrepare c.inlineThreshold junk s'.alloc dev data).1 ≠ .panic := by
  obtain ⟨q1, q2, q3⟩ := load_rest hc (reach_inv hc h hf hk) hr hl
  have hk' : NoEmptyKey s' := by unfold NoEmptyKey; rw [(load_mono hl).2]; exact hk
  refine ⟨q1, ?_, C66_space_exact_partial hc hsl (.restart h hl) (q2.trans hf) hk' q1 h1 h2 h3 junk dev⟩
  intro k
  rw [C34_read_latest_partial hc (.restart h hl) (q2.trans hf) hk' k, C34_read_latest_partial hc h hf hk k, q3]

/-- a 16 MiB heap; a value of 16 MiB is written, committed, deleted, and the deletion committed: the hypotheses hold,
before (no room) and after (room again) -/
example (heap logData : Mem) (v : List Byte) (hv : v.length = 2 ^ 24) :
    ∃ s s' : St, Thrifty wcfg s ∧ s.faults = [] ∧ NoEmptyKey s ∧ AtRest s ∧ InUse wcfg s (0, 2 ^ 24) ∧
      Thrifty wcfg s' ∧ s'.faults = [] ∧ NoEmptyKey s' ∧ AtRest s' ∧ (∀ k, specMap s'.applied k = none) ∧
      Room wcfg (InUse wcfg s') (2 ^ 24) := by
  obtain ⟨q, a1, a2, a3, _, _, a4, a5, a6, a7, a8⟩ := commitA_run heap logData v hv
  obtain ⟨r, b1, b2, b3, b4, b5, b6, b7, b8⟩ := deleteA_run heap logData v hv
  have e1 := atRest_q (a4 _ (Nat.le_refl _))
  have e2 := atRest_q (b4 _ (Nat.le_refl _))
  have k1 : NoEmptyKey q.st := fun t ht => keep_key (v := v) (w := v) (.inl a5) t ht
  have k2 : NoEmptyKey r.st := fun t ht => keep_key (v := v) (w := v) (.inr (.inl b5)) t ht
  refine ⟨q.st, r.st, a1, a8, k1, e1, ?_, b1, b8, k2, e2, ?_, 0, by decide, ?_⟩
  · refine ⟨.literal ka, ?_⟩
    unfold readTuple
    have h1 : (q.st.gens q.st.cur).get (.literal ka) = none := by
      show (q.gens q.cur).get _ = none
      rw [a4 _ (Nat.le_refl _)]; rfl
    rw [h1]
    have h2 : bundleOf wcfg (.literal ka) = 0 := Nat.mod_one _
    rw [h2]
    show pageGet (q.pages 0) _ = _
    rw [pageGet_eq, a3]
    decide +kernel
  · intro k
    show specMap r.applied k = none
    rw [b6]
    simp only [specMap, List.foldl_cons, List.foldl_nil, tA, tD]
    split <;> rfl
  · rintro x - - r' ⟨k, hk⟩
    rw [read_none (b4 _ (Nat.le_refl _)) b3] at hk
    cases hk

/-- The code breaks C66: a 16 MiB value is written and deleted before the background commit has taken it up. After
the commit no key exists, nothing is under way, and still every value beyond the inline threshold is refused for lack
of space, although the whole heap of 16 MiB should be free. -/
theorem C66_violated_leak : ∃ (c : StoreCfg) (s : St), c.Ok ∧ Reach c s ∧ s.faults = [] ∧ NoEmptyKey s ∧ AtRest s ∧
    (∀ k, readTuple c s k = none) ∧
    ∀ (data : List Byte), c.inlineThreshold < data.length → data.length ≤ 2 ^ 24 → ∀ (junk : Nat → Byte) (dev : Mem),
      Room c (InUse c s) data.length ∧
      (writePrepare c.inlineThreshold junk s.alloc dev data).1 = .err .outOfSpace := by
  obtain ⟨r, b1, b2, b3, b4, b5, b6, b7, b8⟩ := leak_run (fun _ => 0) (fun _ => 0) (List.replicate (2 ^ 24) 0)
    List.length_replicate
  have hn := read_none (b4 _ (Nat.le_refl _)) b3
  refine ⟨wcfg, r.st, wcfg_ok, b1, b8, ?_, atRest_q (b4 _ (Nat.le_refl _)), hn, ?_⟩
  · exact fun t ht => keep_key (v := List.replicate (2 ^ 24) 0) (w := []) (.inr (.inl b5)) t ht
  · intro data h1 h2 junk dev
    have hk : KvAlloc.contPow2 wcfg.heap.pages data.length ≤ 24 := Nat.max_le.2 ⟨by decide, nextPow2Exp_le h2⟩
    refine ⟨⟨0, ?_, ?_⟩, ?_⟩
    · have : 2 ^ KvAlloc.contPow2 wcfg.heap.pages data.length ≤ 2 ^ 24 := Nat.pow_le_pow_right (by decide) hk
      have hh : wcfg.heap.heap = 2 ^ 24 := rfl
      rw [hh]
      omega
    · rintro x - - r' ⟨k, hk⟩
      rw [hn] at hk
      cases hk
    · unfold writePrepare
      have hm : ¬ data.length > objectSizeMax := by
        have : objectSizeMax = 2 ^ 24 := rfl
        omega
      rw [if_neg hm, if_neg (by omega)]
      unfold allocateOnHeap
      have := alloc_full b2 (List.mem_singleton.2 rfl) h2
      have h3 : r.st.alloc.allocate data.length = (.err .outOfSpace, r.alloc) := this
      rw [h3]

/-- The code breaks C66 also for large values that were committed: a 16 MiB value is committed; then it is deleted and
another key gets eight bytes. From then on, whatever background work is done and however often the store is restarted,
no call being made: the deleted value's space stays taken, every value beyond the inline threshold is refused for lack
of space, and the store never comes to rest, although eight bytes are all there is to store. -/
theorem C66_violated_stuck : ∃ (c : StoreCfg) (s : St), c.Ok ∧ Reach c s ∧ s.faults = [] ∧ NoEmptyKey s ∧
    outstanding s = [] ∧ specMap s.applied (.literal [1]) = none ∧
    specMap s.applied (.literal [2]) = some (List.replicate 8 9) ∧ (∀ k, k ≠ .literal [2] → specMap s.applied k = none) ∧
    ∀ s', Later c s s' → s'.issued = s.issued → s'.applied = s.applied ∧ s'.faults = [] ∧ ¬ AtRest s' ∧
      (∀ k, found s' (readTuple c s' k) = specMap s.applied k) ∧
      ∀ (data : List Byte), c.inlineThreshold < data.length → data.length ≤ 2 ^ 24 → ∀ (junk : Nat → Byte) (dev : Mem),
        (writePrepare c.inlineThreshold junk s'.alloc dev data).1 = .err .outOfSpace := by
  obtain ⟨s, hw, ha⟩ := wedge_run (fun _ => 0) (fun _ => 0) (List.replicate (2 ^ 24) 0) List.length_replicate
  refine ⟨wcfg, s, wcfg_ok, hw.reach, hw.faults, hw.keys, ?_, ?_, ?_, ?_, ?_⟩
  · simp only [outstanding, hw.preps, hw.ready, hw.queue, hw.pending, hw.inflight, hw.inserting]; rfl
  · rw [ha]; rfl
  · rw [ha]; rfl
  · intro k hk
    rw [ha]
    simp only [specMap, List.foldl_cons, List.foldl_nil, tA, tD, tS]
    rw [if_neg (show ¬ k = .literal kb from hk)]
    split <;> rfl
  · intro s' hl hiss
    have h' := wedged_later hw hl hiss
    have happ := wedged_applied hw hl hiss
    refine ⟨happ, h'.faults, ?_, ?_, ?_⟩
    · intro hr
      obtain ⟨j1, j2, j3⟩ := atRest_idle h'.inv hr
      rcases h'.stuck with ⟨_, e⟩ | ⟨e, _⟩
      · have := lastFor_mem_surv e
        rw [j3] at this
        cases this
      · rw [j1] at e; cases e
    · intro k
      rw [C34_read_latest_partial wcfg_ok h'.reach h'.faults h'.keys k, happ]
    · intro data h1 h2 junk dev
      unfold writePrepare
      have hm : ¬ data.length > objectSizeMax := by
        have : objectSizeMax = 2 ^ 24 := rfl
        omega
      rw [if_neg hm, if_neg (by omega)]
      unfold allocateOnHeap
      rw [h'.full h2]

end Props
end Blobd
