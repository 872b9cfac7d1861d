import Verif.Proofs.KvMetrics
import Verif.Proofs.KvSpaceRuns
import Verif.Props.KvSpace
set_option autoImplicit false
/-! # C75: reported metrics (KV store) -/
namespace Blobd
namespace Props
open Kv

/-- C75 (KV, defined): every execution has counters. -/
theorem C75_kv_defined {c : StoreCfg} {s : St} (h : Reach c s) : ∃ n m, MReach c s n m := mreach_total h

/-- C75 (KV, calls): in every execution, `delete_op_count` is the number of deletes acknowledged since the store was opened, and
`write_op_count` the number of writes acknowledged since plus those handed to the log whose outcome is still open. -/
theorem C75_kv_ops {c : StoreCfg} {s : St} {n : Nat} {m : Kv.Metrics} (h : MReach c s n m) :
    m.writeOps = (answered s n isWrite + inLog s : Nat) ∧ m.deleteOps = (answered s n isDelete : Nat) :=
  ⟨(mreach_ops h).writes, (mreach_ops h).deletes⟩

/-- C75 (KV, calls, nothing outstanding): both count exactly the acknowledged calls. -/
theorem C75_kv_ops_idle {c : StoreCfg} {s : St} {n : Nat} {m : Kv.Metrics} (h : MReach c s n m) (hi : outstanding s = []) :
    m.writeOps = (answered s n isWrite : Nat) ∧ m.deleteOps = (answered s n isDelete : Nat) := by
  obtain ⟨h1, h2⟩ := C75_kv_ops h
  simp only [outstanding, List.append_eq_nil_iff] at hi
  obtain ⟨⟨⟨⟨⟨o1, o2⟩, o3⟩, o4⟩, o5⟩, o6⟩ := hi
  have : inLog s = 0 := by simp only [inLog, o3, o4, o5, o6]; rfl
  rw [this] at h1
  exact ⟨h1, h2⟩

theorem tuple_keys {c : StoreCfg} {s : St} (h : Inv c s) : ((tuples c s.pages s.commit).map (fun t => t.1)).Nodup := by
  have hp : (List.range c.bundleCount).Nodup := List.nodup_range
  unfold tuples
  rw [List.map_flatMap]
  generalize List.range c.bundleCount = l at hp
  induction l with
  | nil => exact List.nodup_nil
  | cons i l ih =>
    rw [List.nodup_cons] at hp
    rw [List.flatMap_cons, List.nodup_append]
    refine ⟨(h.page.effOk i).1, ih hp.2, ?_⟩
    rintro k hk k' hk' rfl
    obtain ⟨t, ht, rfl⟩ := List.mem_map.1 hk
    obtain ⟨j, hj, hk'⟩ := List.mem_flatMap.1 hk'
    obtain ⟨t', ht', e⟩ := List.mem_map.1 hk'
    have e1 := ((h.page.effOk i).2 t ht).2.2
    have e2 := ((h.page.effOk j).2 t' ht').2.2
    rw [e, e1] at e2
    exact hp.1 (e2 ▸ hj)

theorem tuple_iff {c : StoreCfg} (hc : c.Ok) {s : St} (h : Inv c s) (k : Key) (d : Data) :
    (k, d) ∈ tuples c s.pages s.commit ↔ tget (eff s.pages s.commit (bundleOf c k)) k = some d := by
  constructor
  · intro hm
    obtain ⟨i, _, hm⟩ := List.mem_flatMap.1 hm
    have hok := h.page.effOk i
    have e := (hok.2 _ hm).2.2
    simp only at e
    rw [e]
    exact tget_of_mem hok.1 hm
  · intro hm
    exact List.mem_flatMap.2 ⟨_, List.mem_range.2 (bundleOf_lt hc k), tget_mem hm⟩

theorem tuple_read {c : StoreCfg} (hc : c.Ok) {s : St} (h : Inv c s) (hcm : s.commit = none) (k : Key)
    (hk : (s.gens s.cur).get k = none) (d : Data) :
    (k, d) ∈ tuples c s.pages s.commit ↔ readTuple c s k = some d := by
  have hcom : s.com = none := by
    have := com_of_commit h
    rw [hcm] at this
    cases hx : s.com with
    | none => rfl
    | some g => rw [hx] at this; cases this
  rw [tuple_iff hc h, hcm, eff_idle rfl rfl]
  unfold readTuple
  rw [hk, hcom]
  simp only [Option.bind_none]
  rw [pageGet_eq]

theorem found_none {s : St} (d : Option Data) : found s d ≠ none ↔ d ≠ none := by
  cases d <;> simp [found]

/-- C75 (KV, objects, no background commit running): `object_count` is the number of distinct keys that have been committed;
among the keys without uncommitted changes those are exactly the keys that exist. -/
theorem C75_kv_committed_partial {c : StoreCfg} (hc : c.Ok) {s : St} {n : Nat} {m : Kv.Metrics} (h : MReach c s n m)
    (hf : s.faults = []) (hk : NoEmptyKey s) (hcm : s.commit = none) :
    ∃ L : List Key, L.Nodup ∧ m.objects = L.length ∧
      ∀ k, (s.gens s.cur).get k = none → (k ∈ L ↔ specMap s.applied k ≠ none) := by
  have hinv := reach_inv hc (mreach_reach h) hf hk
  obtain ⟨rest, hb⟩ := mreach_balance hc h hf hk
  refine ⟨(tuples c s.pages s.commit).map (fun t => t.1), tuple_keys hinv, by rw [List.length_map]; exact hb.objects, ?_⟩
  intro k hk'
  rw [← read_value hinv k, found_none]
  constructor
  · intro hm
    obtain ⟨t, ht, rfl⟩ := List.mem_map.1 hm
    rw [(tuple_read hc hinv hcm t.1 hk' t.2).1 ht]
    simp
  · intro hm
    obtain ⟨d, hd⟩ := Option.ne_none_iff_exists'.1 hm
    exact List.mem_map.2 ⟨(k, d), (tuple_read hc hinv hcm k hk' d).2 hd, rfl⟩

/-- at rest the tuples are the objects, with their bytes on the heap -/
theorem rest_tuples {c : StoreCfg} (hc : c.Ok) (h7 : 7 ≤ c.inlineThreshold) {s : St} (h : Reach c s) (hf : s.faults = []) (hk : NoEmptyKey s)
    (hr : AtRest s) :
    Objects (specMap s.applied) ((tuples c s.pages s.commit).map (fun t => t.1)) ∧
    heapTotal (specMap s.applied) ((tuples c s.pages s.commit).map (fun t => t.1)) = mb (tuples c s.pages s.commit) := by
  have hinv := reach_inv hc h hf hk
  have hcm := (atRest_idle hinv hr).1
  have hg : ∀ k, (s.gens s.cur).get k = none := by intro k; rw [hr.committed.2]; rfl
  have hval : ∀ t ∈ tuples c s.pages s.commit, specMap s.applied t.1 = some (valueOf s.heap t.2) := by
    intro t ht
    rw [← read_value hinv, (tuple_read hc hinv hcm t.1 (hg _) t.2).1 ht]
    rfl
  refine ⟨⟨tuple_keys hinv, ?_⟩, ?_⟩
  · intro k
    rw [← read_value hinv k, found_none]
    constructor
    · intro hm
      obtain ⟨t, ht, rfl⟩ := List.mem_map.1 hm
      rw [(tuple_read hc hinv hcm t.1 (hg _) t.2).1 ht]
      simp
    · intro hm
      obtain ⟨d, hd⟩ := Option.ne_none_iff_exists'.1 hm
      exact List.mem_map.2 ⟨(k, d), (tuple_read hc hinv hcm k (hg _) d).2 hd, rfl⟩
  · unfold heapTotal mb
    rw [List.map_map]
    congr 1
    apply List.map_congr_left
    intro t ht
    have hfit := (reach_fit h7 hc h hf hk).tuples (c := c) ht
    simp only [Function.comp, hval t ht, Option.getD_some]
    cases hd : t.2 with
    | inline d =>
      rw [hd] at hfit
      have hfit : d.length ≤ 7 := hfit
      show (if 7 < d.length then d.length else 0) = 0
      rw [if_neg (Nat.not_lt.2 hfit)]
    | heap size off =>
      rw [hd] at hfit
      have hfit : 7 < size := hfit
      show (if 7 < (s.heap.read off size).length then (s.heap.read off size).length else 0) = size
      rw [Mem.length_read, if_pos hfit]

theorem rest_known {c : StoreCfg} {s : St} (h : Inv c s) (hr : AtRest s) : knownOf c s = mb (tuples c s.pages s.commit) := by
  obtain ⟨h1, h2, h3⟩ := atRest_idle h hr
  have hout := hr.calls
  simp only [outstanding, List.append_eq_nil_iff] at hout
  obtain ⟨⟨⟨⟨⟨o1, o2⟩, o3⟩, o4⟩, o5⟩, o6⟩ := hout
  simp only [knownOf, known, pipe, o1, o2, o3, o4, o5, o6, h3, h1]
  simp [tb, eb, isEarly, rem, tdo, wrk]

/-- C75 (KV, at rest): in every execution without the known faults, when nothing is under way `object_count` is the number of
objects, and `heap_object_data_bytes` is at least the bytes those keep on the heap. (Missing: that it is not more; see
`C75_violated_kv_leak`.) -/
theorem C75_kv_objects_partial {c : StoreCfg} (hc : c.Ok) (h7 : 7 ≤ c.inlineThreshold) {s : St} {n : Nat} {m : Kv.Metrics}
    (h : MReach c s n m) (hf : s.faults = []) (hk : NoEmptyKey s) (hr : AtRest s) :
    ∃ L, Objects (specMap s.applied) L ∧ m.objects = L.length ∧ (heapTotal (specMap s.applied) L : Int) ≤ m.heapBytes := by
  have hinv := reach_inv hc (mreach_reach h) hf hk
  obtain ⟨rest, hb⟩ := mreach_balance hc h hf hk
  obtain ⟨h1, h2⟩ := rest_tuples hc h7 (mreach_reach h) hf hk hr
  refine ⟨_, h1, by rw [List.length_map]; exact hb.objects, ?_⟩
  rcases hb.bytes with hd | ⟨_, hb⟩
  · rw [(atRest_idle hinv hr).1] at hd; cases hd
  · rw [h2, hb, rest_known hinv hr]
    omega

/-- C75 (KV, at rest, bytes): if since formatting or the last restart no large value was overwritten or deleted before a background commit
had taken it up, `heap_object_data_bytes` is exactly the bytes the objects keep on the heap. -/
theorem C75_kv_bytes_partial {c : StoreCfg} (hc : c.Ok) (h7 : 7 ≤ c.inlineThreshold) {s : St} {m : Kv.Metrics}
    (h : MThrifty c s m) (hf : s.faults = []) (hk : NoEmptyKey s) (hr : AtRest s) :
    ∃ L, Objects (specMap s.applied) L ∧ m.objects = L.length ∧ m.heapBytes = (heapTotal (specMap s.applied) L : Nat) := by
  obtain ⟨n, hm⟩ := mthrifty_reach h
  have hinv := reach_inv hc (mreach_reach hm) hf hk
  have hb := mthrifty_balance hc h hf hk
  obtain ⟨h1, h2⟩ := rest_tuples hc h7 (mreach_reach hm) hf hk hr
  refine ⟨_, h1, by rw [List.length_map]; exact hb.objects, ?_⟩
  rcases hb.bytes with hd | ⟨_, hb⟩
  · rw [(atRest_idle hinv hr).1] at hd; cases hd
  · rw [h2, hb, rest_known hinv hr]
    rfl

/-- C75 (KV, after a restart at rest): whatever happened before, both are exact again. -/
theorem C75_kv_restart {c : StoreCfg} (hc : c.Ok) (h7 : 7 ≤ c.inlineThreshold) {s s' : St} {n : Nat} {m : Kv.Metrics}
    (h : MReach c s n m) (hf : s.faults = []) (hk : NoEmptyKey s) (hr : AtRest s) (hl : load c s = some s') :
    ∃ m' L, MReach c s' s'.applied.length m' ∧ m'.writeOps = 0 ∧ m'.deleteOps = 0 ∧ Objects (specMap s.applied) L ∧
      m'.objects = L.length ∧ m'.heapBytes = (heapTotal (specMap s.applied) L : Nat) := by
  obtain ⟨q1, q2, q3⟩ := load_rest hc (reach_inv hc (mreach_reach h) hf hk) hr hl
  have hk' : NoEmptyKey s' := by unfold NoEmptyKey; rw [(load_mono hl).2]; exact hk
  obtain ⟨L, h1, h2, h3⟩ := C75_kv_bytes_partial hc h7 (.restart h hl) (q2.trans hf) hk' q1
  rw [q3] at h1 h3
  exact ⟨_, L, .restart h hl, rfl, rfl, h1, h2, h3⟩

/-- a 16 MiB value written and committed: the hypotheses hold and the counters are those -/
example (heap logData : Mem) (v : List Byte) (hv : v.length = 2 ^ 24) :
    ∃ (s : St) (m : Kv.Metrics), MThrifty wcfg s m ∧ s.faults = [] ∧ NoEmptyKey s ∧ AtRest s ∧ specMap s.applied (.literal ka) = some v ∧
      m.objects = 1 ∧ m.heapBytes = 2 ^ 24 := by
  obtain ⟨q, a1, a2, a3, _, _, a4, a5, a6, a7, a8⟩ := commitA_run heap logData v hv
  obtain ⟨m, hm⟩ := mthrifty_total a1
  have e1 := atRest_q (a4 _ (Nat.le_refl _))
  have k1 : NoEmptyKey q.st := fun t ht => keep_key (v := v) (w := v) (.inl a5) t ht
  obtain ⟨L, h1, h2, h3⟩ := C75_kv_bytes_partial wcfg_ok (by decide) hm a8 k1 e1
  have hsp : ∀ k, specMap q.st.applied k = if k = .literal ka then some v else none := by
    intro k
    show specMap q.applied k = _
    rw [a6]
    rfl
  have hL : L = [.literal ka] := by
    have hmem : ∀ k, k ∈ L ↔ k = .literal ka := by
      intro k
      rw [h1.2 k, hsp]
      split <;> simp_all
    have hp : L.Perm [.literal ka] := (List.perm_ext_iff_of_nodup h1.1 (by simp)).2 (by intro k; rw [hmem]; simp)
    exact List.perm_singleton.1 hp
  refine ⟨q.st, m, hm, a8, k1, e1, by rw [hsp, if_pos rfl], by rw [h2, hL]; rfl, ?_⟩
  rw [h3, hL]
  simp only [heapTotal, List.map_cons, List.map_nil, List.sum_cons, List.sum_nil, hsp, if_true, Option.getD_some, heapShare, hv]
  decide

/-- The code breaks C75: a 16 MiB value is written and deleted before the background commit has taken it up. After the commit no
key exists, nothing is under way, and `heap_object_data_bytes` still counts more than the inline threshold. -/
theorem C75_violated_kv_leak : ∃ (c : StoreCfg) (s : St) (n : Nat) (m : Kv.Metrics), c.Ok ∧ MReach c s n m ∧ s.faults = [] ∧ NoEmptyKey s ∧
    AtRest s ∧ (∀ k, specMap s.applied k = none) ∧ m.objects = 0 ∧ (c.inlineThreshold : Int) < m.heapBytes := by
  obtain ⟨r, b1, b2, b3, b4, b5, b6, b7, b8⟩ := leak_run (fun _ => 0) (fun _ => 0) (List.replicate (2 ^ 24) 0)
    List.length_replicate
  have hn := read_none (b4 _ (Nat.le_refl _)) b3
  obtain ⟨n, m, hm⟩ := mreach_total b1
  have hk : NoEmptyKey r.st := fun t ht => keep_key (v := List.replicate (2 ^ 24) 0) (w := []) (.inr (.inl b5)) t ht
  have hr := atRest_q (b4 _ (Nat.le_refl _))
  have hinv := reach_inv wcfg_ok b1 b8 hk
  obtain ⟨rest, hb⟩ := mreach_balance wcfg_ok hm b8 hk
  have hT : tuples wcfg r.st.pages r.st.commit = [] := by
    rw [List.eq_nil_iff_forall_not_mem]
    intro t ht
    have hg : (r.st.gens r.st.cur).get t.1 = none := by rw [hr.committed.2]; rfl
    have := (tuple_read wcfg_ok hinv (atRest_idle hinv hr).1 t.1 hg t.2).1 ht
    rw [hn] at this
    cases this
  refine ⟨wcfg, r.st, n, m, wcfg_ok, hm, b8, hk, hr, ?_, by rw [hb.objects, hT]; rfl, ?_⟩
  · intro k
    have := read_value hinv k
    rw [hn] at this
    exact this.symm
  · rcases hb.bytes with hd | ⟨hh, he⟩
    · rw [(atRest_idle hinv hr).1] at hd; cases hd
    · have hlive := rest_live hinv hr hh
      have hE : effRegs wcfg r.st.pages r.st.commit = [] := by
        rw [List.eq_nil_iff_forall_not_mem]
        intro x hx
        obtain ⟨k, hx⟩ := (inUse_iff wcfg_ok hinv hr x).2 hx
        rw [hn] at hx
        cases hx
      rw [hE, List.nil_append] at hlive
      cases rest with
      | nil =>
        exfalso
        obtain ⟨a', e, _⟩ := alloc_whole hlive
        have hfull := alloc_full b2 (by simp) (n := 2 ^ 24) (Nat.le_refl _)
        have e : allocateOnHeap r.alloc (2 ^ 24) = (.ok (0, 2 ^ 24), a') := e
        unfold allocateOnHeap at e
        rw [hfull] at e
        cases e
      | cons x rest =>
        have := hb.lost x (by simp)
        rw [he]
        simp only [wsum, List.map_cons, List.sum_cons]
        omega

/-- The code breaks C75: thirteen writes are acknowledged, the background commit panics over their bundle and ends all the same. Nothing
is under way and no key is found, yet `object_count` is 13. -/
theorem C75_violated_kv_overflow : ∃ (c : StoreCfg) (s : St) (n : Nat) (m : Kv.Metrics), c.Ok ∧ MReach c s n m ∧ NoEmptyKey s ∧
    AtRest s ∧ (∀ k, readTuple c s k = none) ∧ m.objects = 13 := by
  obtain ⟨buf, hbuf⟩ := Option.isSome_iff_exists.1 many_enc
  have h1 := put_all (c := wcfg) manyWrites (qfresh wcfg (fun _ => 0) (fun _ => 0) a0) [] (by
    have : ∀ w ∈ manyWrites, w.2.length = 7 := by decide +kernel
    intro w hw
    rw [this w hw]
    decide)
  have h2 := run_batch (c := wcfg) { qfresh wcfg (fun _ => 0) (fun _ => 0) a0 with issued := manyTasks } manyTasks (by decide +kernel)
    hbuf (show modPow2 0 9 = 0 by decide) (by rw [many_len]; exact (by decide : 0 + 1024 < 2 ^ 20))
    (by rw [many_len]; decide)
  rw [many_len] at h2
  obtain ⟨q, hq⟩ : ∃ q : QSt, q = { qfresh wcfg (fun _ => 0) (fun _ => 0) a0 with
      issued := manyTasks
      data := Mem.writeAll (fun _ => 0) [(0 % 2 ^ 20, padFlush wcfg.log (fun _ => 0) buf)]
      tail := 0 + 1024
      gens := fun g => if g = 0 then insertAll [] manyTasks else []
      applied := [] ++ manyTasks
      ul := [] ++ manyTasks } := ⟨_, rfl⟩
  have h3 : Steps wcfg (qfresh wcfg (fun _ => 0) (fun _ => 0) a0).st q.st := by
    rw [hq]; exact h1.trans h2
  have hg : q.gens q.cur = insertAll [] manyTasks := by rw [hq]; rfl
  have h4 := run_commit_memory (c := wcfg) rfl q (by rw [hq]; exact (by decide : 0 + 1024 - 0 ≥ 512))
    (by rw [hg]; decide +kernel)
    (by
      rw [hg]
      intro e he d hd
      rw [many_inline e he] at hd
      cases hd
      decide)
    (ts := []) (by rw [hq]; exact deser_zero _)
    (a' := q.alloc) (m' := (insertAll [] manyTasks).foldl putEntry [])
    (by
      rw [hg]
      apply applyAll_inline
      · simp [collectMap]
      · exact fun e he => ⟨_, many_inline e he⟩)
  have hr : Reach wcfg _ := h4.reach (h3.reach (.fresh (fresh_q new_a0)))
  have hiss : q.issued = manyTasks := by rw [hq]
  have hkeys : ∀ t ∈ q.issued, t.key ≠ .literal [] := by rw [hiss]; decide +kernel
  have hflt : q.faults = [] := by rw [hq]; rfl
  obtain ⟨n, m, hm⟩ := mreach_total hr
  obtain ⟨rest, hb⟩ := mreach_balance wcfg_ok hm hflt hkeys
  have hobj : m.objects = 13 := by
    rw [hb.objects]
    have : tuples wcfg q.pages (some ⟨q.tail, .updating [] [⟨0, (insertAll [] manyTasks).foldl putEntry [], []⟩] []⟩) =
        (insertAll [] manyTasks).foldl putEntry [] := by
      simp [tuples, wcfg, List.range_succ, eff, wrk]
    have hl : ((insertAll [] manyTasks).foldl putEntry []).length = 13 := by decide +kernel
    exact congrArg (fun l : List (Key × Data) => (l.length : Int)) this |>.trans (congrArg Int.ofNat hl)
  have m1 := MReach.step hm (.serialisePanic (pre := []) (post := []) (fun _ => 0) rfl (List.Perm.refl _) many_overflow)
    (m' := m) (.quiet (Nat.le_refl _) (Nat.le_refl _) (fun t ht => by simp at ht) (fun x => by cases x) (Nat.le_refl _))
  have m2 := m1.step (.headWrite rfl)
    (m' := m) (.quiet (Nat.le_refl _) (Nat.le_refl _) (fun t ht => by simp at ht) (fun x => by cases x) (Nat.le_refl _))
  have m3 := m2.step (.commitEnd rfl)
    (m' := m) (.quiet (Nat.le_refl _) (Nat.le_refl _) (fun t ht => by simp at ht) (fun x => by cases x) (Nat.le_refl _))
  have hg1 : q.gens (q.cur + 1) = [] := by rw [hq]; rfl
  have hpg : q.pages = fun _ => List.replicate 512 0 := by rw [hq]; rfl
  refine ⟨wcfg, _, n, m, wcfg_ok, m3, hkeys, ⟨rfl, rfl, hg1⟩, ?_, hobj⟩
  intro k
  unfold readTuple
  simp only [QSt.st, QSt.pend, hg1, hpg, Option.bind_none]
  show pageGet (List.replicate 512 0) k = none
  unfold pageGet; rw [deser_zero]; rfl

end Props
end Blobd
