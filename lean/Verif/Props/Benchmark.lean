import Verif.Proofs.BenchmarkVoid
import Verif.Proofs.BenchmarkFigures
/-!
# C76: what the benchmark's results stand for
-/
set_option autoImplicit false
namespace Blobd
namespace Props
open Bench
open Stress (Bytes Call Ans about Ideal)
variable {c : Cfg} {s : St}

/-- Results are written only after every phase of the run has done its work on every object, for each once and with the token of that object's upload:
whatever the store answers, and however the tasks are scheduled. There is one latency per object in each phase. Missing from the full claim: that what
was read was all that was asked for (see `C76_violated_void_store`). -/
theorem C76_reported_partial (hp : c.pool.length = c.size) (ho : c.objects ≤ 2 ^ 64) (h : Reach c s) (hr : Reported s) :
    s.past.map (fun d => d.phase) = phases c ∧ ∃ tok : Nat → Nat, ∀ d ∈ s.past, d.latencies = c.objects ∧
      (∀ e ∈ d.log, ∃ i, i < c.objects ∧ e.1.key = key i) ∧ ∀ i, i < c.objects → Performed c d.phase i (tok i) (about (key i) d.log) := by
  have hinv := reach_inv hp ho h
  have hsp := hinv.split
  rw [hr.1, List.append_nil] at hsp
  refine ⟨hsp, fun i => ((s.toks.find? (fun x => x.1 == i)).map (fun x => x.2)).getD 0, ?_⟩
  intro d hd
  have hg := hinv.past d hd
  refine ⟨hg.latencies, hg.keys, ?_⟩
  intro i hi
  obtain ⟨tok, h1, h2⟩ := hg.each i hi
  by_cases hph : d.phase = .create ∨ d.phase = .write ∨ d.phase = .commit
  · have hm := h1 hph
    have hsk : c.skipCreation = false := by
      have hdm : d.phase ∈ phases c := by rw [← hsp]; exact List.mem_map.2 ⟨d, hd, rfl⟩
      unfold phases at hdm
      cases hs : c.skipCreation
      · rfl
      · rw [hs] at hdm
        cases hsd : c.skipDeletion <;> rw [hsd] at hdm <;> revert hdm <;> rcases hph with e | e | e <;> rw [e] <;> decide
    have hn : (s.toks.map (fun x => x.1)).Nodup := (hinv.toks hsk (by rw [hr.1]; simp)).nodup_iff.2 List.nodup_range
    have hfind : s.toks.find? (fun x => x.1 == i) = some (i, tok) := by
      generalize s.toks = toks at hm hn
      clear * - hm hn
      induction toks with
      | nil => cases hm
      | cons y r ih =>
        rw [List.map_cons, List.nodup_cons] at hn
        rw [List.find?_cons]
        rcases List.mem_cons.1 hm with rfl | hm
        · simp
        · have : (y.1 == i) = false := by
            rw [beq_eq_false_iff_ne]
            rintro rfl
            exact hn.1 (List.mem_map.2 ⟨_, hm, rfl⟩)
          rw [this]
          exact ih hm hn.2
    show Performed c d.phase i (((s.toks.find? (fun x => x.1 == i)).map (fun x => x.2)).getD 0) _
    rw [hfind]
    exact h2
  · generalize d.phase = p at *
    cases p
    case create => exact absurd (.inl rfl) hph
    case write => exact absurd (.inr (.inl rfl)) hph
    case commit => exact absurd (.inr (.inr rfl)) hph
    all_goals exact h2

/-- the writes of an object put together are the pool -/
theorem C76_writes_whole {k d : Bytes} {tok chunk : Nat} {l : List (Call × Ans)} (h : Writes k tok chunk d 0 l) :
    (l.map (fun e => match e.1 with | .write _ _ _ b => b | _ => [])).flatten = d := by
  have : ∀ {off : Nat} {l : List (Call × Ans)}, Writes k tok chunk d off l →
      (l.map (fun e => match e.1 with | .write _ _ _ b => b | _ => [])).flatten = d.drop off := by
    intro off l h
    induction h with
    | @done off h => rw [List.drop_of_length_le h]; rfl
    | @more off l h1 h2 ih =>
      rw [List.map_cons, List.flatten_cons, ih]
      dsimp only
      rw [← List.drop_drop, List.take_append_drop]
  exact this h

/-- At no time are there more calls under way than the configured concurrency (0: no limit). -/
theorem C76_concurrency (hc : c.concurrency ≠ 0) (h : Reach c s) : s.running.length ≤ c.concurrency := by
  induction h with
  | start h => cases h; simp
  | @step s s' l h hs ih =>
    cases hs with
    | start _ h1 h2 h3 h4 => simp only [List.length_append, List.length_cons, List.length_nil]; omega
    | answer h1 h2 => rw [h2] at ih; simpa using ih
    | wrong => exact ih
    | finish h1 h2 h3 => rw [h3] at ih; simp only [List.length_append, List.length_cons] at ih ⊢; omega
    | phase => exact ih
    | results => exact ih
    | crash => exact ih

/-- Against a correct store, no assertion ever fails. -/
theorem C76_no_false_alarm (hp : c.pool.length = c.size) (ho : c.objects ≤ 2 ^ 64) {i0 : Ideal} (hi : Ready c i0) {x : St × Ideal}
    (h : GReach c i0 x) : x.1.panicked = false := (greach_inv hp ho hi h).alive

/-- Against a correct store, a run that has not written its results can always go on. -/
theorem C76_goes_on (hp : c.pool.length = c.size) (ho : c.objects ≤ 2 ^ 64) (hk : c.chunk ≠ 0) (hr : c.readSize ≠ 0) {i0 : Ideal} (hi : Ready c i0)
    {x : St × Ideal} (h : GReach c i0 x) (hn : ¬ Reported x.1) : ∃ y, GStep c x y := ginv_progress hp hk hr (greach_inv hp ho hi h) hn

theorem gcost_step (hp : c.pool.length = c.size) (ho : c.objects ≤ 2 ^ 64) {x y : St × Ideal} (h : GInv c x) (hs : GStep c x y) :
    cost c y.1 < cost c x.1 := by
  have ha := (ginv_step hp ho h hs).alive
  cases hs with
  | quiet hs hpan => exact cost_step h.inv hs hpan
  | call hs _ => exact cost_step h.inv hs ha

/-- Against a correct store no run goes on for ever: with `C76_goes_on`, every run ends with its results written. -/
theorem C76_every_run_ends (hp : c.pool.length = c.size) (ho : c.objects ≤ 2 ^ 64) {i0 : Ideal} (hi : Ready c i0) (run : Nat → St × Ideal)
    (h0 : GReach c i0 (run 0)) : ¬ ∀ n, GStep c (run n) (run (n + 1)) := by
  intro h
  have hg : ∀ n, GReach c i0 (run n) := by
    intro n
    induction n with
    | zero => exact h0
    | succ n ih => exact .step ih (h n)
  have hcost : ∀ n, cost c (run n).1 + n ≤ cost c (run 0).1 := by
    intro n
    induction n with
    | zero => omega
    | succ n ih =>
      have := gcost_step hp ho (greach_inv hp ho hi (hg n)) (h n)
      omega
  have := hcost (cost c (run 0).1 + 1)
  omega

/-- When the results are written, a correct store holds all objects with the bytes of the pool (so that a later run may skip their creation), or, unless
their deletion was skipped, none of them. -/
theorem C76_leaves (hp : c.pool.length = c.size) (ho : c.objects ≤ 2 ^ 64) {i0 : Ideal} (hi : Ready c i0) {x : St × Ideal}
    (h : GReach c i0 x) (hr : Reported x.1) (i : Nat) (hlt : i < c.objects) :
    if c.skipDeletion = true then ∃ id, x.2.objs (key i) = some (id, c.pool) else x.2.objs (key i) = none :=
  (greach_inv hp ho hi h).left hr.1 i hlt

/-- from every point of a run against a correct store, results can be reached -/
theorem C76_completes (hp : c.pool.length = c.size) (ho : c.objects ≤ 2 ^ 64) (hk : c.chunk ≠ 0) (hr : c.readSize ≠ 0) {i0 : Ideal} (hi : Ready c i0)
    {x : St × Ideal} (h : GReach c i0 x) : ∃ y, GReach c i0 y ∧ Reported y.1 := by
  suffices ∀ n (x : St × Ideal), cost c x.1 ≤ n → GReach c i0 x → ∃ y, GReach c i0 y ∧ Reported y.1 from this _ x (Nat.le_refl _) h
  intro n
  induction n with
  | zero =>
    intro x hn h
    by_cases hrep : Reported x.1
    · exact ⟨x, h, hrep⟩
    · obtain ⟨y, hy⟩ := C76_goes_on hp ho hk hr hi h hrep
      have := gcost_step hp ho (greach_inv hp ho hi h) hy
      omega
  | succ n ih =>
    intro x hn h
    by_cases hrep : Reported x.1
    · exact ⟨x, h, hrep⟩
    · obtain ⟨y, hy⟩ := C76_goes_on hp ho hk hr hi h hrep
      have := gcost_step hp ho (greach_inv hp ho hi h) hy
      exact ih y (by omega) (.step h hy)

/-- The reported 95th and 99th percentiles are such quantiles of the latencies that were measured, in spite of the floating-point product behind the
index, and the reported maximum is the greatest of them. -/
theorem C76_percentiles {l : List Nat} (hn : l.length ≤ 2 ^ 45) (h0 : l ≠ []) : ∃ r, percentiles l = some r ∧
    Quantile 95 l r.p95 ∧ Quantile 99 l r.p99 ∧ r.p95 ≤ r.p99 ∧ r.p99 ≤ r.max ∧ r.max ∈ l ∧ ∀ x ∈ l, x ≤ r.max := percentiles_spec hn h0

/-- The checks do not see missing bytes: whatever is configured, a store that keeps nothing, says that every object is empty and returns no byte for any
read gets its results written. -/
theorem C76_violated_void_store (hp : c.pool.length = c.size) (ho : c.objects ≤ 2 ^ 64) (hk : c.chunk ≠ 0) (hr : c.readSize ≠ 0) :
    ∃ s, Reach c s ∧ Reported s ∧ ∀ d ∈ s.past, ∀ e ∈ d.log, e.2 = voidAns e.1 := by
  have hst : ∃ s, Start c s := by
    cases hph : phases c with
    | nil =>
      unfold phases at hph
      cases hs : c.skipCreation <;> cases hd : c.skipDeletion <;> rw [hs, hd] at hph <;> cases hph
    | cons p ps => exact ⟨_, .mk hph (.refl _)⟩
  obtain ⟨s, hs⟩ := hst
  obtain ⟨s', h1, h2, h3⟩ := void_reported hp ho hk hr _ s (Nat.le_refl _) (.start hs) (by cases hs; rfl) (by cases hs; intro e; cases e)
    (by cases hs; exact ⟨by simp, by simp⟩)
  exact ⟨s', h1, h2, h3.2⟩

/-- Skipping the creation, "for benchmarking across invocations", does not work: objects that a correct store kept from an earlier invocation are compared
with a pool that is drawn afresh, so that no run against them ever writes results, unless the two pools are equal. -/
theorem C76_violated_skip_creation (hp : c.pool.length = c.size) (ho : c.objects ≤ 2 ^ 64) (hsk : c.skipCreation = true) {i0 : Ideal} {i : Nat}
    (hi : i < c.objects) {id : Option Nat} {d : Bytes} (h0 : i0.objs (key i) = some (id, d)) (hd : d.length = c.size) (hne : d ≠ c.pool)
    {x : St × Ideal} (h : GReach c i0 x) : ¬ Reported x.1 := by
  intro hr
  have hk := kept_reach hp ho hsk h0 h
  have hsp := hk.inv.split
  rw [hr.1, List.append_nil] at hsp
  have hm : Phase.read ∈ x.1.past.map (fun d => d.phase) := by
    rw [hsp]
    unfold phases
    simp
  obtain ⟨q, hq, hqp⟩ := List.mem_map.1 hm
  obtain ⟨tok, _, h2⟩ := (hk.inv.past q hq).each i hi
  rw [hqp] at h2
  have := reads_same h2 (hd.trans hp.symm) (fun e he => hk.past q hq e (mem_about he))
  simp only [List.drop_zero] at this
  exact hne this

/-- a run of three objects of five bytes, two at a time -/
def exBench : Cfg := ⟨3, 5, 2, 2, 4, false, true, [1, 2, 3, 4, 5]⟩

theorem exBench_ready : Ready exBench ⟨fun _ => none, fun _ => none⟩ := ⟨⟨0, fun _ _ => rfl⟩, fun h => by cases h⟩

/-- concrete case: it completes, and leaves the objects behind -/
theorem C76_case : ∃ x, GReach exBench ⟨fun _ => none, fun _ => none⟩ x ∧ Reported x.1 ∧ ∃ id, x.2.objs (key 2) = some (id, [1, 2, 3, 4, 5]) := by
  obtain ⟨x, h, hr⟩ := C76_completes (c := exBench) rfl (by decide) (by decide) (by decide) exBench_ready (.start (.mk rfl (.refl _)))
  exact ⟨x, h, hr, C76_leaves (c := exBench) rfl (by decide) exBench_ready h hr 2 (by decide)⟩

/-- a later run of it which skips the creation with another pool -/
example : ∃ (c : Cfg) (i0 : Ideal), c.pool.length = c.size ∧ c.objects ≤ 2 ^ 64 ∧ c.skipCreation = true ∧ 2 < c.objects ∧ i0.objs (key 2) = some (none, [1, 2, 3, 4, 5]) ∧
    [1, 2, 3, 4, 5] ≠ c.pool :=
  ⟨{ exBench with skipCreation := true, pool := [1, 2, 3, 4, 6] }, ⟨fun _ => none, fun _ => some (none, [1, 2, 3, 4, 5])⟩, rfl, by decide, rfl, by decide,
    rfl, by decide⟩

/-- the figures of a list -/
example : ∃ r, percentiles [7, 3, 9, 1] = some r ∧ r.max = 9 ∧ r.p99 = 9 := by
  obtain ⟨r, h1, _, h2, _, h3, h4, h5⟩ := C76_percentiles (l := [7, 3, 9, 1]) (by decide) (by decide)
  have h6 := h5 9 (by decide)
  refine ⟨r, h1, ?_, ?_⟩
  · simp only [List.mem_cons, List.not_mem_nil, or_false] at h4
    omega
  · have h7 := h2.2.1
    have h8 := h2.1
    simp only [List.mem_cons, List.not_mem_nil, or_false] at h8
    rcases h8 with e | e | e | e <;> rw [e] at h7 ⊢ <;> revert h7 <;> decide

end Props
end Blobd
