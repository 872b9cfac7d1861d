import Verif.Proofs.KvStoreWitness
/-!
# C34 (reads), C35 (crash recovery) and C49 (slow reads) of the KV store

`Reach c s`: `s` occurs in some execution of the store from a formatted device, with any interleaving of
calls, flushes and background commits and any number of crashes and restarts. `specMap s.applied` is the
abstract map after the acknowledged calls, in acknowledgement order.

The positive theorems exclude three events, which the model records in `faults` and which the code lets
happen silently (the violations below): a background bundle update that panics, a restart while the log
holds a tuple pointing into the heap, a log flush longer than the replay buffer; and calls with an empty key
(C33).
-/
namespace Blobd
namespace Props
open Kv

/-- where tasks are before they are acknowledged, and the acknowledged ones -/
def everywhere (s : St) : List Task :=
  s.preps.map (·.task) ++ s.ready ++ s.queue ++ s.pending ++ s.log.inflight.flatMap (·.tasks) ++ s.inserting ++ s.applied

theorem flatMap_set {α β : Type} (l : List α) (i : Nat) (x : α) (f : α → List β) (h : ∀ y, l[i]? = some y → f x = f y) :
    (l.set i x).flatMap f = l.flatMap f := by
  induction l generalizing i with
  | nil => rfl
  | cons a l ih =>
    cases i with
    | zero => simp only [List.set_cons_zero, List.flatMap_cons, h a rfl]
    | succ i => simp only [List.set_cons_succ, List.flatMap_cons]; rw [ih i (fun y hy => h y hy)]

theorem finish_tasks (l : LogSt) (i : Nat) : (finishFlush l i).inflight.flatMap (·.tasks) = l.inflight.flatMap (·.tasks) := by
  unfold finishFlush
  split
  · rfl
  · rename_i f hf
    exact flatMap_set _ _ _ _ (fun y hy => by rw [hf] at hy; cases hy; rfl)

theorem plan_tasks {c : LogCfg} {l l' : LogSt} {j1 j2 : Nat → Byte} {ts : List Task} {f : Flush}
    (h : planFlush c l j1 j2 ts = some (l', f)) : l'.inflight.flatMap (·.tasks) = l.inflight.flatMap (·.tasks) ++ ts := by
  unfold planFlush at h
  split at h
  · cases h
  · simp only at h
    repeat' split at h
    all_goals first
      | cases h; simp
      | cases h

theorem everywhere_step {c : StoreCfg} {s s' : St} (h : Step c s s') :
    ∀ t ∈ everywhere s', t ∈ everywhere s ++ s'.issued := by
  intro t ht
  cases h with
  | flush j1 j2 h1 h2 =>
    simp only [everywhere, plan_tasks h2, List.mem_append] at ht ⊢
    grind
  | logWritten h1 h2 =>
    simp only [everywhere, finish_tasks, List.mem_append] at ht ⊢
    grind
  | complete m h1 h2 =>
    unfold completeFlushes at h2
    simp only at h2
    split at h2
    · cases h2
    · split at h2
      · cases h2
        simp only [everywhere, List.mem_append, List.mem_flatMap] at ht ⊢
        rcases ht with (((((ht | ht) | ht) | ht) | ⟨f, hf, ht⟩) | ⟨f, hf, ht⟩) | ht
        · grind
        · grind
        · grind
        · grind
        · exact .inl (.inl (.inl (.inr ⟨f, List.mem_of_mem_drop hf, ht⟩)))
        · exact .inl (.inl (.inl (.inr ⟨f, List.mem_of_mem_take hf, ht⟩)))
        · grind
      · cases h2
  | _ =>
    simp only [everywhere, advanceHead, List.mem_append, List.map_append, List.map_cons, List.map_nil,
      List.mem_cons, List.not_mem_nil] at ht ⊢
    grind

/-- every acknowledged call, and every one under way, was issued by a caller -/
theorem C34_applied_issued {c : StoreCfg} {s : St} (h : Reach c s) : ∀ t ∈ everywhere s, t ∈ s.issued := by
  induction h with
  | fresh h =>
    unfold fresh at h
    split at h
    · cases h
    · cases h
      simp [everywhere, LogSt.fresh]
  | step h hs ih =>
    obtain ⟨_, y, hy⟩ := step_mono hs
    intro t ht
    rcases List.mem_append.1 (everywhere_step hs t ht) with h1 | h1
    · rw [hy]; exact List.mem_append_left _ (ih t h1)
    · exact h1
  | restart h hl ih =>
    intro t ht
    unfold load at hl
    split at hl
    · split at hl
      · cases hl
      · cases hl
        apply ih
        simp only [everywhere, List.map_nil, List.flatMap_nil, List.nil_append] at ht
        simp only [everywhere, List.mem_append] at ht ⊢
        grind
    · cases hl

/-- In every reachable state, reading a key in one instant — wherever its tuple lives — gives the value of the
latest acknowledged call on that key. -/
theorem C34_read_latest_partial {c : StoreCfg} (hc : c.Ok) {s : St} (h : Reach c s) (hf : s.faults = [])
    (hk : NoEmptyKey s) (k : Key) : found s (readTuple c s k) = specMap s.applied k :=
  read_value (reach_inv hc h hf hk) k

/-- A read that picks the overlay maps, looks into each of them and reads the bundle page at four different
moments, everything else going on in between, returns a value the key had at some moment between its start
and its end. -/
theorem C34_concurrent_read_partial {c : StoreCfg} (hc : c.Ok) {tr : Nat → St} {n : Nat} (ht : Trace c tr n)
    (h0 : Reach c (tr 0)) (hf : (tr n).faults = []) (hk : NoEmptyKey (tr n)) (k : Key) {t1 t2 t3 t4 : Nat}
    (h12 : t1 ≤ t2) (h23 : t2 ≤ t3) (h34 : t3 ≤ t4) (h4 : t4 ≤ n) :
    ∃ i j, t1 ≤ i ∧ i ≤ t4 ∧ t1 ≤ j ∧ j ≤ t4 ∧
      (slowReadTuple c tr t1 t2 t3 t4 k).map (valueOf (tr j).heap) = specMap (tr i).applied k := by
  have hi := fun i (h : i ≤ n) => trace_inv hc ht h0 hf hk h
  rcases slow_cases ht hi (k := k) h12 h23 h34 h4 with ⟨i, h1, h2, h3⟩ | ⟨h1, h2, h3⟩
  · refine ⟨i, i, h1, h2, h1, h2, ?_⟩
    rw [h3]
    exact read_value (hi i (by omega)) k
  · rw [h1]
    exact (slow_page ht hi (by omega) h4 h2 h3).1

/-- non-vacuity: an acknowledged 16 MiB value in a reachable state without faults -/
example (heap logData : Mem) (v : List Byte) (hv : v.length = 2 ^ 24) :
    ∃ s, Reach wcfg s ∧ s.faults = [] ∧ NoEmptyKey s ∧ specMap s.applied (.literal ka) = some v := by
  obtain ⟨s, _, _, h1, h2, h3, h4, _⟩ := restart_run heap logData v v hv hv
  refine ⟨s, h1, h2, h3, ?_⟩
  rw [h4]; rfl

/-- a key of the thirteen writes of `C34_violated_bundle_overflow` -/
def lostKey : Key := .literal (manyWrites.head?.map (·.1)).get!

/-- The code breaks C34 (and C35): thirteen small writes to one bundle are acknowledged; the background
commit then panics because the bundle outgrows its page, the panic is swallowed (libblobd-kv/src/log_buffer.rs:502), the log
head is advanced and the overlay dropped; from then on, also after a restart, every one of the keys reads as
not found. -/
theorem C34_violated_bundle_overflow : ∃ (c : StoreCfg) (s s' : St), c.Ok ∧ Reach c s ∧ NoEmptyKey s ∧
    load c s = some s' ∧ s'.applied = s.applied ∧ specMap s.applied lostKey ≠ none ∧
    found s (readTuple c s lostKey) = none ∧ found s' (readTuple c s' lostKey) = none := by
  obtain ⟨q, s, h1, h2, h3, h4, h5, h5', h6, h7, s', h8, h8', h9⟩ := overflow_run (fun _ => 0) (fun _ => 0)
  refine ⟨wcfg, s, s', wcfg_ok, h6.reach h1, ?_, h8, ?_, ?_, ?_, ?_⟩
  · unfold NoEmptyKey; rw [h5']; decide +kernel
  · rw [h8', h5]
  · rw [h5]; decide +kernel
  · rw [h7]; rfl
  · rw [h9]; rfl

/-- Crash at any point of any execution: starting again succeeds and every key reads as after all acknowledged
calls followed by some unacknowledged ones (those whose log record was already counted in the durable tail). -/
theorem C35_crash_recovers_partial {c : StoreCfg} (hc : c.Ok) {s : St} (h : Reach c s) (hf : s.faults = [])
    (hk : NoEmptyKey s) :
    ∃ s' extra, load c s = some s' ∧ s'.applied = s.applied ++ extra ∧ (∀ t ∈ extra, t ∈ s.issued) ∧
      ∀ k, found s' (readTuple c s' k) = specMap (s.applied ++ extra) k := by
  obtain ⟨a0, h0⟩ := reach_new h
  obtain ⟨s', h1, h2, _, h3, _⟩ := load_spec hc (reach_inv hc h hf hk) h0
  refine ⟨s', s.inserting, h1, h2, ?_, h3⟩
  intro t ht
  exact C34_applied_issued h t (by simp [everywhere, ht])

/-- The code breaks C35: the value of an acknowledged write is in the heap, its tuple in the log. After a crash
and restart the heap space is not reserved: the next write, to another key, overwrites it. -/
theorem C35_violated_heap_tuple_in_log (v w : List Byte) (hv : v.length = 2 ^ 24) (hw : w.length = 2 ^ 24) :
    ∃ (c : StoreCfg) (s s1 s2 : St) (k : Key), c.Ok ∧ Reach c s ∧ s.faults = [] ∧ NoEmptyKey s ∧
      specMap s.applied k = some v ∧ load c s = some s1 ∧ Steps c s1 s2 ∧ s2.applied = s.applied ∧
      found s2 (readTuple c s2 k) = some w := by
  obtain ⟨s, s1, s2, h1, h2, h3, h4, h5, h6, h7, h8, h9, h10⟩ :=
    restart_run (fun _ => 0) (fun _ => 0) v w hv hw
  refine ⟨wcfg, s, s1, s2, .literal ka, wcfg_ok, h1, h2, h3, ?_, h5, h7, ?_, h10⟩
  · rw [h4]; rfl
  · rw [h8, h4]

/-- A read whose key is not written from its start to its end returns exactly the key's value, however slowly
the tuple is looked up and however slowly, and in whatever order, the value's bytes are fetched. -/
theorem C49_kv_undisturbed_partial {c : StoreCfg} (hc : c.Ok) {tr : Nat → St} {n : Nat} (ht : Trace c tr n)
    (h0 : Reach c (tr 0)) (hf : (tr n).faults = []) (hk : NoEmptyKey (tr n)) (k : Key) {t1 t2 t3 t4 t5 : Nat}
    (h12 : t1 ≤ t2) (h23 : t2 ≤ t3) (h34 : t3 ≤ t4) (h45 : t4 ≤ t5) (h5 : t5 ≤ n)
    (hu : Untouched tr k t1 t5) (clock : Nat → Nat) (hcl : ∀ x, t4 ≤ clock x ∧ clock x ≤ t5) :
    (slowReadTuple c tr t1 t2 t3 t4 k).map (slowValue tr clock) = specMap (tr t1).applied k := by
  have hi := fun i (h : i ≤ n) => trace_inv hc ht h0 hf hk h
  have key : ∃ i, t1 ≤ i ∧ i ≤ t4 ∧ slowReadTuple c tr t1 t2 t3 t4 k = readTuple c (tr i) k := by
    rcases slow_cases ht hi (k := k) h12 h23 h34 (by omega) with h | ⟨h1, h2, h3⟩
    · exact h
    · refine ⟨t4, by omega, by omega, ?_⟩
      obtain ⟨g1, g2⟩ := untouched_lasts ht hi (a := t1) (b := t4) (by omega) (by omega) (fun i x y => hu i x (by omega)) h2 h3
      rw [h1, readTuple_lasts (hi t4 (by omega)), g1, g2]
  obtain ⟨i, a1, a2, a3⟩ := key
  rw [a3]
  have hv := read_value (hi i (by omega)) k
  rw [untouched_spec ht a1 (by omega) (fun i x y => hu i x (by omega))] at hv
  rw [← hv]
  unfold found
  cases hr : readTuple c (tr i) k with
  | none => rfl
  | some d =>
    cases d with
    | inline d => rfl
    | heap m o =>
      simp only [Option.map_some, Option.some.injEq]
      show (List.range m).map (fun x => (tr (clock x)).heap (o + x)) = (tr i).heap.read o m
      apply List.ext_getElem
      · simp [Mem.read]
      · intro x hx1 hx2
        obtain ⟨b1, b2⟩ := hcl x
        have e1 := untouched_tuple ht hi (b := clock x) (by omega) (by omega)
          (fun i x y => hu i (by omega) (by omega)) hr
        have e2 := read_value (hi (clock x) (by omega)) k
        rw [e1, untouched_spec ht (a := t1) (by omega) (by omega) (fun i x y => hu i (by omega) (by omega)), ← hv] at e2
        unfold found at e2
        rw [hr] at e2
        simp only [Option.map_some, Option.some.injEq] at e2
        have e3 : (tr (clock x)).heap.read o m = (tr i).heap.read o m := e2
        have : ((tr (clock x)).heap.read o m)[x]? = ((tr i).heap.read o m)[x]? := by rw [e3]
        simp only [Mem.read, List.length_map, List.length_range] at hx1 hx2
        simp only [List.getElem_map, List.getElem_range, Mem.read]
        simpa [Mem.read, hx2] using this

/-- non-vacuity: a read of a 16 MiB value during which another key is written -/
example (heap logData : Mem) (v : List Byte) (hv : v.length = 2 ^ 24) :
    ∃ (tr : Nat → St) (k : Key), Trace wcfg tr 1 ∧ Reach wcfg (tr 0) ∧ (tr 1).faults = [] ∧ NoEmptyKey (tr 1) ∧
      tr 0 ≠ tr 1 ∧ Untouched tr k 0 1 ∧ specMap (tr 0).applied k = some v := by
  obtain ⟨s, _, _, h1, h2, h3, h4, _⟩ := restart_run heap logData v v hv hv
  refine ⟨fun i => if i = 0 then s else { s with
        ready := s.ready ++ [⟨Key.fromRaw wcfg.H kb, some (.inline []), some []⟩]
        issued := s.issued ++ [⟨Key.fromRaw wcfg.H kb, some (.inline []), some []⟩] }, .literal ka, ?_, h1, h2, ?_, ?_, ?_, ?_⟩
  · intro i hi
    have : i = 0 := by omega
    subst this
    exact Step.writeInline kb [] (by simp [objectSizeMax]) (by simp)
  · intro t ht
    have ht : t ∈ s.issued ++ [⟨Key.fromRaw wcfg.H kb, some (.inline []), some []⟩] := ht
    rcases List.mem_append.1 ht with h | h
    · exact h3 t h
    · rw [List.mem_singleton] at h
      rw [h]
      show Key.fromRaw wcfg.H kb ≠ .literal []
      rw [kb_raw]
      simp [kb]
  · intro he
    have : s.issued = s.issued ++ [⟨Key.fromRaw wcfg.H kb, some (.inline []), some []⟩] := congrArg St.issued he
    simp at this
  · intro i _ hi t ht
    have : i = 0 := by omega
    subst this
    have : s.applied = s.applied ++ [t] := ht
    simp at this
  · show specMap s.applied _ = _
    rw [h4]; rfl

/-- The code breaks C49: a reader has found the tuple of key A; A is deleted, the deletion committed in the
background, the space given to key B; the bytes the reader then fetches are B's. -/
theorem C49_kv_violated (v w : List Byte) (hv : v.length = 2 ^ 24) (hw : w.length = 2 ^ 24) :
    ∃ (c : StoreCfg) (s1 s2 : St) (k : Key) (d : Data), c.Ok ∧ Reach c s1 ∧ Steps c s1 s2 ∧ s2.faults = [] ∧
      NoEmptyKey s2 ∧ readTuple c s1 k = some d ∧ valueOf s1.heap d = v ∧ valueOf s2.heap d = w ∧
      ∀ t ∈ s2.issued, t.key = k → t.val = some v ∨ t.val = none := by
  obtain ⟨s1, s2, h1, h2, h3, h4, h5, h6, h7, h8, h9⟩ := reuse_run (fun _ => 0) (fun _ => 0) v w hv hw
  refine ⟨wcfg, s1, s2, .literal ka, _, wcfg_ok, h1, h2, h3, h4, h7, h8, h9, ?_⟩
  intro t ht hkey
  rw [h6] at ht
  simp only [List.mem_cons, List.not_mem_nil, or_false] at ht
  rcases ht with rfl | rfl | rfl
  · exact .inl rfl
  · exact .inr rfl
  · exact absurd hkey (by simp [tB, ka, kb])

end Props
end Blobd
