import Verif.Proofs.KvDiscipline
/-!
# C34, C35, C49 for a disciplined client of the KV store

The three ways the KV store loses data need the caller to overfill a bundle, to overrun the replay buffer with
unacknowledged calls, or to restart after writing values too large for the log. For a caller that does none of
this (`Disciplined`, in terms of calls, keys and values only) the claims hold without any further assumption, for
all executions, schedules and crash points.
-/
set_option autoImplicit false
namespace Blobd
namespace Props
open Kv

/-- whatever a disciplined client's store does next, no commit task is lost and no log becomes unreplayable -/
theorem C34_disciplined_no_fault {c : StoreCfg} (hc : c.Ok) {s s' : St} (h : Disciplined c s) :
    s.faults = [] ∧ (Step c s s' → s'.faults = []) ∧ (OnlySmall c s → load c s = some s' → s'.faults = []) :=
  ⟨(disciplined_good hc h).faults,
   fun hs => (good_step hc (reach_of_disciplined h) (disciplined_within hc h) (disciplined_good hc h) hs).faults,
   fun hsm hl => (good_load hc (reach_of_disciplined h) (disciplined_within hc h) (disciplined_good hc h) hsm hl).faults⟩

/-- Reading a key gives the value of the latest acknowledged call on that key. -/
theorem C34_disciplined {c : StoreCfg} (hc : c.Ok) {s : St} (h : Disciplined c s) (k : Key) :
    found s (readTuple c s k) = specMap s.applied k :=
  C34_read_latest_partial hc (reach_of_disciplined h) (disciplined_good hc h).faults (disciplined_within hc h).keys k

/-- the same, for a client that makes few enough calls altogether -/
theorem C34_few_calls {c : StoreCfg} (hc : c.Ok) {s : St} (h : Reach c s) (hf : FewCalls c s) (k : Key) :
    found s (readTuple c s k) = specMap s.applied k :=
  C34_disciplined hc (disciplined_of_few h hf) k

/-- a trace of a disciplined client stays disciplined -/
theorem trace_disciplined {c : StoreCfg} {tr : Nat → St} {n : Nat} (ht : Trace c tr n) (h0 : Disciplined c (tr 0))
    (hw : ∀ i, i ≤ n → WithinLimits c (tr i)) : ∀ i, i ≤ n → Disciplined c (tr i) := by
  intro i
  induction i with
  | zero => exact fun _ => h0
  | succ i ih => exact fun hi => .step (ih (by omega)) (ht i (by omega)) (hw _ hi)

/-- A read done in several moments, everything else going on in between, returns a value the key had at some
moment between its start and its end. -/
theorem C34_disciplined_concurrent {c : StoreCfg} (hc : c.Ok) {tr : Nat → St} {n : Nat} (ht : Trace c tr n)
    (h0 : Disciplined c (tr 0)) (hw : ∀ i, i ≤ n → WithinLimits c (tr i)) (k : Key) {t1 t2 t3 t4 : Nat}
    (h12 : t1 ≤ t2) (h23 : t2 ≤ t3) (h34 : t3 ≤ t4) (h4 : t4 ≤ n) :
    ∃ i j, t1 ≤ i ∧ i ≤ t4 ∧ t1 ≤ j ∧ j ≤ t4 ∧
      (slowReadTuple c tr t1 t2 t3 t4 k).map (valueOf (tr j).heap) = specMap (tr i).applied k :=
  C34_concurrent_read_partial hc ht (reach_of_disciplined h0)
    (disciplined_good hc (trace_disciplined ht h0 hw n (Nat.le_refl n))).faults (hw n (Nat.le_refl n)).keys k h12 h23 h34 h4

/-- Crash at any point: starting again succeeds, and every key reads as after all acknowledged calls followed by
some unacknowledged ones — right away and, as long as the client stays disciplined, in every later state. -/
theorem C35_disciplined {c : StoreCfg} (hc : c.Ok) {s : St} (h : Disciplined c s) :
    ∃ s' extra, load c s = some s' ∧ s'.applied = s.applied ++ extra ∧ (∀ t ∈ extra, t ∈ s.issued) ∧
      (∀ k, found s' (readTuple c s' k) = specMap (s.applied ++ extra) k) ∧
      (OnlySmall c s → WithinLimits c s' → ∀ {tr : Nat → St} {n : Nat}, tr 0 = s' → Trace c tr n →
        (∀ i, i ≤ n → WithinLimits c (tr i)) → ∀ k, found (tr n) (readTuple c (tr n) k) = specMap (tr n).applied k) := by
  obtain ⟨s', extra, h1, h2, h3, h4⟩ := C35_crash_recovers_partial hc (reach_of_disciplined h)
    (disciplined_good hc h).faults (disciplined_within hc h).keys
  refine ⟨s', extra, h1, h2, h3, h4, ?_⟩
  intro hsm hw tr n h0 ht hwt k
  exact C34_disciplined hc (trace_disciplined ht (h0 ▸ .restart h h1 hsm hw) hwt n (Nat.le_refl n)) k

/-- A read whose key is not written meanwhile returns exactly the key's value, however slowly it proceeds. -/
theorem C49_kv_disciplined {c : StoreCfg} (hc : c.Ok) {tr : Nat → St} {n : Nat} (ht : Trace c tr n)
    (h0 : Disciplined c (tr 0)) (hw : ∀ i, i ≤ n → WithinLimits c (tr i)) (k : Key) {t1 t2 t3 t4 t5 : Nat}
    (h12 : t1 ≤ t2) (h23 : t2 ≤ t3) (h34 : t3 ≤ t4) (h45 : t4 ≤ t5) (h5 : t5 ≤ n)
    (hu : Untouched tr k t1 t5) (clock : Nat → Nat) (hcl : ∀ x, t4 ≤ clock x ∧ clock x ≤ t5) :
    (slowReadTuple c tr t1 t2 t3 t4 k).map (slowValue tr clock) = specMap (tr t1).applied k :=
  C49_kv_undisturbed_partial hc ht (reach_of_disciplined h0)
    (disciplined_good hc (trace_disciplined ht h0 hw n (Nat.le_refl n))).faults (hw n (Nat.le_refl n)).keys k
    h12 h23 h34 h45 h5 hu clock hcl

/-- non-vacuity: twelve keys, all that one bundle holds — one more is lost, `C34_violated_bundle_overflow` —,
acknowledged and moved to their bundle; the client is disciplined, and stays so through a restart -/
example (heap logData : Mem) : ∃ s s', Disciplined wcfg s ∧ s.base = fewTasks ∧ s.com = none ∧
    load wcfg s = some s' ∧ Disciplined wcfg s' ∧
    found s' (readTuple wcfg s' (.literal (1 :: List.replicate 31 0))) = some (List.replicate 7 9) := by
  obtain ⟨s, hr, ha, hi, hb, hcm⟩ := few_run heap logData
  have hd := disciplined_of_few hr (few_calls hi)
  obtain ⟨s', ex, h1, h2, h3, h4, _⟩ := C35_disciplined wcfg_ok hd
  have hi' : s'.issued = fewTasks := by rw [(load_mono h1).2, hi]
  have hd' := disciplined_of_few (.restart hr h1) (few_calls hi')
  refine ⟨s, s', hd, hb, hcm, h1, hd', ?_⟩
  rw [C34_disciplined wcfg_ok hd', h2, ha]
  have hall : ∀ t ∈ fewTasks, t.val = some (List.replicate 7 9) := by decide +kernel
  rw [specMap_append]
  cases hl : lastFor ex (.literal (1 :: List.replicate 31 0)) with
  | some t =>
    have := h3 t (lastFor_key hl).2
    rw [hi] at this
    exact hall t this
  | none => decide +kernel

end Props
end Blobd
