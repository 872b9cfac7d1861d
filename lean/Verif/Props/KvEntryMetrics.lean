import Verif.Model.KvEntryMetrics
import Verif.Spec.KvEntryMetrics
import Verif.Proofs.KvStoreReach
import Verif.Proofs.KvDiscipline
import Verif.Proofs.KvStoreWitness
/-!
# C88: the counters of log entries
-/
set_option autoImplicit false
namespace Blobd
namespace Props
open Kv

/-- the entry of a request is of its kind and has its size -/
def Sized (t : Task) : Prop := t.op.map dataLen = t.val.map List.length

structure AllSized (s : St) : Prop where
  preps : ∀ p ∈ s.preps, Sized p.task
  ready : ∀ t ∈ s.ready, Sized t
  queue : ∀ t ∈ s.queue, Sized t
  pending : ∀ t ∈ s.pending, Sized t
  flight : ∀ f ∈ s.log.inflight, ∀ t ∈ f.tasks, Sized t
  inserting : ∀ t ∈ s.inserting, Sized t
  applied : ∀ t ∈ s.applied, Sized t

theorem plan_inflight {c : LogCfg} {s s' : LogSt} {j1 j2 : Nat → Byte} {ts : List Task} {f : Flush} (h : planFlush c s j1 j2 ts = some (s', f)) :
    f.tasks = ts ∧ s'.inflight = s.inflight ++ [f] := by
  unfold planFlush at h
  cases he : encodeTasks ts with
  | none => rw [he] at h; cases h
  | some b =>
    rw [he] at h
    simp only at h
    split at h
    · split at h
      · split at h
        · split at h
          · cases h
          · cases h; exact ⟨rfl, rfl⟩
        · cases h
      · split at h
        · cases h
        · cases h; exact ⟨rfl, rfl⟩
    · cases h

theorem sized_step {c : StoreCfg} {s s' : St} (h : AllSized s) (hs : Step c s s') : AllSized s' := by
  obtain ⟨h1, h2, h3, h4, h5, h6, h7⟩ := h
  cases hs with
  | writeInline raw data =>
    exact ⟨h1, by simpa [or_imp, forall_and] using ⟨h2, rfl⟩, h3, h4, h5, h6, h7⟩
  | writeHeap raw data junk =>
    exact ⟨by simpa [or_imp, forall_and] using ⟨h1, rfl⟩, h2, h3, h4, h5, h6, h7⟩
  | heapWritten e =>
    rw [e] at h1
    refine ⟨?_, ?_, h3, h4, h5, h6, h7⟩
    · intro p hp
      exact h1 p (by grind)
    · intro t ht
      rcases List.mem_append.1 ht with ht | ht
      · exact h2 t ht
      · cases List.mem_singleton.1 ht
        exact h1 _ (by simp)
  | send e =>
    rw [e] at h2
    refine ⟨h1, fun t ht => h2 t (by grind), fun t ht => ?_, h4, h5, h6, h7⟩
    rcases List.mem_append.1 ht with ht | ht
    · exact h3 t ht
    · cases List.mem_singleton.1 ht
      exact h2 _ (by simp)
  | delete raw =>
    exact ⟨h1, h2, by simpa [or_imp, forall_and] using ⟨h3, rfl⟩, h4, h5, h6, h7⟩
  | recv e =>
    rw [e] at h3
    refine ⟨h1, h2, fun t ht => h3 t (by simp [ht]), fun t ht => ?_, h5, h6, h7⟩
    rcases List.mem_append.1 ht with ht | ht
    · exact h4 t ht
    · cases List.mem_singleton.1 ht
      exact h3 _ (by simp)
  | flush j1 j2 _ e =>
    obtain ⟨e1, e2⟩ := plan_inflight e
    refine ⟨h1, h2, h3, by simp, ?_, h6, h7⟩
    intro f hf t ht
    simp only [e2] at hf
    rcases List.mem_append.1 hf with hf | hf
    · exact h5 f hf t ht
    · cases List.mem_singleton.1 hf
      rw [e1] at ht
      exact h4 t ht
  | @logWritten i f e _ =>
    refine ⟨h1, h2, h3, h4, ?_, h6, h7⟩
    intro g hg t ht
    simp only [finishFlush, e] at hg
    rcases List.mem_or_eq_of_mem_set hg with hg | hg
    · exact h5 g hg t ht
    · subst hg
      exact h5 f (List.mem_of_getElem? e) t ht
  | complete n _ e =>
    unfold completeFlushes at e
    simp only at e
    split at e
    · cases e
    · split at e
      · cases e
        refine ⟨h1, h2, h3, h4, fun f hf => h5 f (List.mem_of_mem_drop hf), ?_, h7⟩
        intro t ht
        obtain ⟨f, hf, ht⟩ := List.mem_flatMap.1 ht
        exact h5 f (List.mem_of_mem_take hf) t ht
      · cases e
  | apply e =>
    rw [e] at h6
    refine ⟨h1, h2, h3, h4, h5, fun t ht => h6 t (by simp [ht]), fun t ht => ?_⟩
    rcases List.mem_append.1 ht with ht | ht
    · exact h7 t ht
    · cases List.mem_singleton.1 ht
      exact h6 _ (by simp)
  | _ => exact ⟨h1, h2, h3, h4, h5, h6, h7⟩

theorem sized_reach {c : StoreCfg} {s : St} (h : Reach c s) : AllSized s := by
  induction h with
  | fresh h =>
    unfold fresh at h
    split at h
    · cases h
    · cases h
      constructor <;> simp [LogSt.fresh]
  | step _ hs ih => exact sized_step ih hs
  | restart _ hs ih =>
    unfold load at hs
    split at hs
    · split at hs
      · cases hs
      · cases hs
        refine ⟨by simp, by simp, by simp, by simp, by simp, by simp, ?_⟩
        intro t ht
        rcases List.mem_append.1 ht with ht | ht
        · exact ih.applied t ht
        · exact ih.inserting t ht
    · cases hs

theorem ereach_reach {c : StoreCfg} {es : List (Key × Option Data)} {n : Nat} {s : St} {m : EntryMetrics} (h : EReach c es n s m) : Reach c s := by
  induction h with
  | created h => exact .fresh h
  | reopened h _ hl => exact .restart h hl
  | applied _ _ hs _ _ ih => exact .step ih hs
  | other _ hs _ ih => exact .step ih hs

/-- what the counters gain with these requests -/
def Counts (m : EntryMetrics) (l : List Task) : Prop := m.writes = writesIn l ∧ m.writeBytes = valueBytes l ∧ m.deletes = deletesIn l

theorem Counts.add {m : EntryMetrics} {l : List Task} (h : Counts m l) {t : Task} (ht : Sized t) : Counts (countEntry m t.op) (l ++ [t]) := by
  obtain ⟨h1, h2, h3⟩ := h
  obtain ⟨k, op, v⟩ := t
  unfold Sized at ht
  unfold Counts writesIn valueBytes deletesIn at *
  cases op <;> cases v <;> simp_all [countEntry]

theorem Counts.fold {l l' : List Task} {m : EntryMetrics} (h : Counts m l) (hs : ∀ t ∈ l', Sized t) :
    Counts ((l'.map Task.erase).foldl (fun m e => countEntry m e.2) m) (l ++ l') := by
  induction l' generalizing l m with
  | nil => simpa using h
  | cons t l' ih =>
    have := ih (h.add (hs t (by simp))) (fun x hx => hs x (by simp [hx]))
    rw [List.append_assoc] at this
    exact this

/-- what a restart replays are the last requests acknowledged or about to be -/
theorem replay_last {c : StoreCfg} (hc : c.Ok) {s : St} (h : Inv c s) :
    ∃ b U, s.applied ++ s.inserting = b ++ U ∧ replay c.log s.log.data s.log.head s.log.tail = some (U.map Task.erase) := by
  obtain ⟨⟨recs, hl, e1, e2⟩, hov, _⟩ := h
  refine ⟨if (openAt s.commit).isSome then s.base else s.base ++ s.cl, recTasks recs, ?_, hl.replay hc.logOk⟩
  rw [hov.split, e1]
  split <;> simp

/-- writes, bytes and deletes in entries replayed from the log -/
def EntryCounts (m : EntryMetrics) (es : List (Key × Option Data)) : Prop := m.writes = es.countP (fun e => e.2.isSome) ∧
  m.writeBytes = (es.map fun e => (e.2.map dataLen).getD 0).sum ∧ m.deletes = es.countP (fun e => e.2.isNone)

theorem entryCounts_fold {es es' : List (Key × Option Data)} {m : EntryMetrics} (h : EntryCounts m es) :
    EntryCounts (es'.foldl (fun m e => countEntry m e.2) m) (es ++ es') := by
  induction es' generalizing es m with
  | nil => simpa using h
  | cons e es' ih =>
    have : EntryCounts (countEntry m e.2) (es ++ [e]) := by
      obtain ⟨k, o⟩ := e
      unfold EntryCounts at *
      cases o <;> simp_all [countEntry]
    have := ih this
    rw [List.append_assoc] at this
    exact this

theorem since_opened {c : StoreCfg} {es : List (Key × Option Data)} {n : Nat} {s : St} {m : EntryMetrics} (h : EReach c es n s m) :
    n ≤ s.applied.length ∧ ∃ m1 m2, EntryCounts m1 es ∧ Counts m2 (s.applied.drop n) ∧ m.writes = m1.writes + m2.writes ∧
      m.writeBytes = m1.writeBytes + m2.writeBytes ∧ m.deletes = m1.deletes + m2.deletes := by
  induction h with
  | created h => exact ⟨Nat.zero_le _, .zero, .zero, ⟨rfl, rfl, rfl⟩, by
      unfold fresh at h
      split at h
      · cases h
      · cases h; exact ⟨rfl, rfl, rfl⟩, rfl, rfl, rfl⟩
  | reopened =>
    exact ⟨Nat.le_refl _, _, .zero, entryCounts_fold (es := []) ⟨rfl, rfl, rfl⟩, by rw [List.drop_length]; exact ⟨rfl, rfl, rfl⟩, rfl, rfl, rfl⟩
  | @applied es n s s' m t r hr e hs _ ha ih =>
    obtain ⟨i1, m1, m2, i2, i3, i4, i5, i6⟩ := ih
    have hsz := (sized_reach (ereach_reach hr)).inserting t (by simp [e])
    rw [ha, List.drop_append_of_le_length i1]
    refine ⟨by simp; omega, m1, _, i2, Counts.add i3 hsz, ?_⟩
    cases t.op <;> simp only [countEntry, i4, i5, i6] <;> refine ⟨?_, ?_, ?_⟩ <;> first | trivial | omega
  | other hr hs ha ih => rw [ha]; exact ih

/-- **C88**: in every execution the counters show the entries replayed from the log when the store was opened and the requests acknowledged since: writes,
the bytes of their values (also of values in the heap, of which the log has only the place), deletes. -/
theorem C88_since_opened {c : StoreCfg} {es : List (Key × Option Data)} {n : Nat} {s : St} {m : EntryMetrics} (h : EReach c es n s m) :
    n ≤ s.applied.length ∧ m.writes = es.countP (fun e => e.2.isSome) + writesIn (s.applied.drop n) ∧
      m.writeBytes = (es.map fun e => (e.2.map dataLen).getD 0).sum + valueBytes (s.applied.drop n) ∧
      m.deletes = es.countP (fun e => e.2.isNone) + deletesIn (s.applied.drop n) := by
  obtain ⟨i1, m1, m2, ⟨a1, a2, a3⟩, ⟨b1, b2, b3⟩, i4, i5, i6⟩ := since_opened h
  rw [i4, i5, i6, a1, a2, a3, b1, b2, b3]
  exact ⟨i1, rfl, rfl, rfl⟩

theorem entries_of_tasks {m : EntryMetrics} {l : List Task} (hs : ∀ t ∈ l, Sized t) (h : EntryCounts m (l.map Task.erase)) : Counts m l := by
  obtain ⟨h1, h2, h3⟩ := h
  have hk : ∀ t ∈ l, t.op.isSome = t.val.isSome ∧ (t.op.map dataLen).getD 0 = (t.val.getD []).length := by
    intro t ht
    have := hs t ht
    obtain ⟨k, op, v⟩ := t
    unfold Sized at this
    cases op <;> cases v <;> simp_all
  refine ⟨?_, ?_, ?_⟩
  · rw [h1, List.countP_map]
    exact List.countP_congr fun t ht => by simp [Task.erase, (hk t ht).1]
  · rw [h2, List.map_map]
    exact congrArg List.sum (List.map_congr_left fun t ht => (hk t ht).2)
  · rw [h3, List.countP_map]
    refine List.countP_congr fun t ht => ?_
    have := (hk t ht).1
    simp only [Function.comp, Task.erase]
    rw [← Option.not_isSome, ← Option.not_isSome, this]

/-- the entries replayed when the store was opened are those of the last requests acknowledged or flushed before -/
theorem replayed_tasks {c : StoreCfg} (hc : c.Ok) {es : List (Key × Option Data)} {n : Nat} {s : St} {m : EntryMetrics} (h : EReach c es n s m)
    (hf : s.faults = []) (hk : NoEmptyKey s) :
    es.length ≤ n ∧ n ≤ s.applied.length ∧ es = ((s.applied.take n).drop (n - es.length)).map Task.erase := by
  induction h with
  | created h => exact ⟨Nat.zero_le _, Nat.zero_le _, rfl⟩
  | @reopened s s' es hr hrep hl =>
    obtain ⟨⟨x, hx⟩, hy⟩ := load_mono hl
    have h1 := hx ▸ hf
    rw [List.append_eq_nil_iff] at h1
    have hi := reach_inv hc hr h1.2 (fun t ht => hk t (by rw [hy]; exact ht))
    obtain ⟨b, U, e1, e2⟩ := replay_last hc hi
    rw [hrep] at e2
    cases e2
    have ha : s'.applied = b ++ U := by
      unfold load at hl
      split at hl
      · split at hl
        · cases hl
        · cases hl; exact e1
      · cases hl
    rw [ha, List.take_length]
    have e : (b ++ U).length - (U.map Task.erase).length = b.length := by simp
    rw [e, List.drop_left]
    simp
  | @applied es n s s' m t r hr e hs _ ha ih =>
    obtain ⟨⟨x, hx⟩, y, hy⟩ := step_mono hs
    have h1 := hx ▸ hf
    rw [List.append_eq_nil_iff] at h1
    obtain ⟨i1, i2, i3⟩ := ih h1.2 (fun t ht => hk t (by rw [hy]; simp [ht]))
    rw [ha, List.take_append_of_le_length i2]
    exact ⟨i1, by simp; omega, i3⟩
  | other hr hs ha ih =>
    obtain ⟨⟨x, hx⟩, y, hy⟩ := step_mono hs
    have h1 := hx ▸ hf
    rw [List.append_eq_nil_iff] at h1
    rw [ha]
    exact ih h1.2 (fun t ht => hk t (by rw [hy]; simp [ht]))

/-- **C88** (partial): so they show exactly the last requests acknowledged: all since the store was created or, after a restart, those replayed and those
since. Missing: restarts after one of the recorded faults, and the empty key. -/
theorem C88_entries_partial {c : StoreCfg} (hc : c.Ok) {es : List (Key × Option Data)} {n : Nat} {s : St} {m : EntryMetrics} (h : EReach c es n s m)
    (hf : s.faults = []) (hk : NoEmptyKey s) :
    es.length ≤ n ∧ n ≤ s.applied.length ∧ m.writes = writesIn (s.applied.drop (n - es.length)) ∧
      m.writeBytes = valueBytes (s.applied.drop (n - es.length)) ∧ m.deletes = deletesIn (s.applied.drop (n - es.length)) := by
  obtain ⟨h1, h2, h3⟩ := replayed_tasks hc h hf hk
  obtain ⟨-, m1, m2, i2, i3, i4, i5, i6⟩ := since_opened h
  have hsz := (sized_reach (ereach_reach h)).applied
  rw [h3] at i2
  have i2' := entries_of_tasks (fun t ht => hsz t (List.mem_of_mem_take (List.mem_of_mem_drop ht))) i2
  have e : s.applied.drop (n - es.length) = (s.applied.take n).drop (n - es.length) ++ s.applied.drop n := by
    conv => lhs; rw [← List.take_append_drop n s.applied]
    rw [List.drop_append_of_le_length (by rw [List.length_take, Nat.min_eq_left h2]; omega)]
  obtain ⟨a1, a2, a3⟩ := i2'
  obtain ⟨b1, b2, b3⟩ := i3
  rw [e, i4, i5, i6, a1, a2, a3, b1, b2, b3]
  unfold writesIn valueBytes deletesIn
  simp only [List.countP_append, List.map_append, List.sum_append]
  exact ⟨h1, h2, trivial, trivial, trivial⟩

/-- **C88**, without the exclusions, for a client within limits a client knows of (`Disciplined`, see C34). -/
theorem C88_entries_disciplined {c : StoreCfg} (hc : c.Ok) {es : List (Key × Option Data)} {n : Nat} {s : St} {m : EntryMetrics}
    (h : EReach c es n s m) (hd : Disciplined c s) :
    es.length ≤ n ∧ n ≤ s.applied.length ∧ m.writes = writesIn (s.applied.drop (n - es.length)) ∧
      m.writeBytes = valueBytes (s.applied.drop (n - es.length)) ∧ m.deletes = deletesIn (s.applied.drop (n - es.length)) :=
  C88_entries_partial hc h (disciplined_good hc hd).faults (disciplined_within hc hd).keys

/-- The counters say something of every execution: each step of the store is one of the cases. -/
theorem C88_all_steps {c : StoreCfg} {es : List (Key × Option Data)} {n : Nat} {s s' : St} {m : EntryMetrics} (h : EReach c es n s m)
    (hs : Step c s s') : ∃ m', EReach c es n s' m' := by
  by_cases ha : s'.applied = s.applied
  · exact ⟨m, .other h hs ha⟩
  · have hs' := hs
    cases hs with
    | apply e => exact ⟨_, .applied h e hs' rfl rfl⟩
    | _ => exact absurd rfl ha

/-- ... and of every state of every execution. -/
theorem C88_all_states {c : StoreCfg} (hc : c.Ok) {s : St} (h : Reach c s) (hf : s.faults = []) (hk : NoEmptyKey s) : ∃ es n m, EReach c es n s m := by
  induction h with
  | fresh h => exact ⟨_, _, _, .created h⟩
  | step h hs ih =>
    obtain ⟨⟨x, hx⟩, y, hy⟩ := step_mono hs
    have h1 := hx ▸ hf
    rw [List.append_eq_nil_iff] at h1
    obtain ⟨es, n, m, hr⟩ := ih h1.2 (fun t ht => hk t (by rw [hy]; simp [ht]))
    exact ⟨es, n, C88_all_steps hr hs⟩
  | @restart s s' h hl =>
    obtain ⟨⟨x, hx⟩, hy⟩ := load_mono hl
    have h1 := hx ▸ hf
    rw [List.append_eq_nil_iff] at h1
    obtain ⟨b, U, _, e2⟩ := replay_last hc (reach_inv hc h h1.2 (fun t ht => hk t (by rw [hy]; exact ht)))
    exact ⟨_, _, _, .reopened h e2 hl⟩

/-- along a run after the store is opened -/
theorem runs_on {c : StoreCfg} {es : List (Key × Option Data)} {n : Nat} {a b : St} {m : EntryMetrics} (h : EReach c es n a m) (hs : Steps c a b) :
    ∃ m', EReach c es n b m' := by
  induction hs with
  | refl => exact ⟨m, h⟩
  | snoc _ hs ih =>
    obtain ⟨m', ih⟩ := ih
    exact C88_all_steps ih hs

/-- Hypotheses met: twelve writes of seven bytes each are acknowledged; then the store is opened anew, and its log replayed. -/
example : ∃ s m es s' m', EReach wcfg [] 0 s m ∧ Disciplined wcfg s ∧ s.faults = [] ∧ NoEmptyKey s ∧ m = ⟨12, 84, 0⟩ ∧ load wcfg s = some s' ∧ s'.faults = [] ∧
    EReach wcfg es 12 s' m' ∧ es.length = 12 ∧ m' = ⟨12, 84, 0⟩ := by
  obtain ⟨buf, hbuf⟩ := Option.isSome_iff_exists.1 few_enc
  have h1 := put_all (c := wcfg) fewWrites (qfresh wcfg (fun _ => 0) (fun _ => 0) a0) [] (by
    have : ∀ w ∈ fewWrites, w.2.length = 7 := by decide +kernel
    intro w hw
    rw [this w hw]
    decide)
  have h2 := run_batch (c := wcfg) { qfresh wcfg (fun _ => 0) (fun _ => 0) a0 with issued := fewTasks } fewTasks (by decide +kernel)
    hbuf (show modPow2 0 9 = 0 by decide) (by rw [few_len]; exact (by decide : 0 + 512 < 2 ^ 20))
    (by rw [few_len]; decide)
  rw [few_len] at h2
  obtain ⟨q, hq⟩ : ∃ q : QSt, q = { qfresh wcfg (fun _ => 0) (fun _ => 0) a0 with
      issued := fewTasks
      data := Mem.writeAll (fun _ => 0) [(0 % 2 ^ 20, padFlush wcfg.log (fun _ => 0) buf)]
      tail := 0 + 512
      gens := fun g => if g = 0 then insertAll [] fewTasks else []
      applied := [] ++ fewTasks
      ul := [] ++ fewTasks } := ⟨_, rfl⟩
  have h3 : Steps wcfg (qfresh wcfg (fun _ => 0) (fun _ => 0) a0).st q.st := by
    rw [hq]; exact h1.trans h2
  obtain ⟨m, hm⟩ := runs_on (EReach.created (fresh_q new_a0)) h3
  have hf : q.faults = [] := by rw [hq]; rfl
  have hul : q.ul = fewTasks := by rw [hq]; rfl
  have hap : q.applied = fewTasks := by rw [hq]; rfl
  have hki : ∀ t ∈ q.issued, t.key ≠ .literal [] := by
    have : ∀ t ∈ fewTasks, t.key ≠ .literal [] := by decide +kernel
    rw [hq]; exact this
  have hr := ereach_reach hm
  have hrep := replay_q (inv_of_fields hr hf hki)
  rw [hul] at hrep
  have hl := load_q (show q.pages = fun _ => List.replicate 512 0 by rw [hq]; rfl) hrep
  have he := EReach.reopened hr hrep hl
  have hh : (fewTasks.map Task.erase).any isHeapEntry = false := by decide +kernel
  rw [hh] at he hl
  replace he : EReach wcfg _ q.applied.length _ _ := he
  have hz : q.applied.length = 12 := by rw [hap]; rfl
  rw [hz] at he
  have hcnt : Counts ⟨12, 84, 0⟩ fewTasks := by
    unfold Counts
    decide +kernel
  have g1 := (C88_entries_partial wcfg_ok hm hf hki).2.2
  refine ⟨q.st, m, _, _, _, hm, disciplined_of_few hr (few_calls (by show q.issued = _; rw [hq])), hf, hki, ?_, hl, ?_, he, ?_, ?_⟩
  · have e : q.st.applied = fewTasks := hap
    rw [e, Nat.zero_sub, List.drop_zero] at g1
    obtain ⟨a1, a2, a3⟩ := g1
    obtain ⟨b1, b2, b3⟩ := hcnt
    cases m
    simp_all
  · exact hf
  · rfl
  · decide +kernel

end Props
end Blobd
