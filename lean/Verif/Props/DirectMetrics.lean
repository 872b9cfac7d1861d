import Verif.Proofs.DirectMetrics
import Verif.Props.DirectStore
set_option autoImplicit false
/-! # C75: reported metrics (direct store) -/
namespace Blobd
namespace Props
open Direct

/-- C75 (op counters): in every execution the counters of create, commit, delete and inspect calls are the numbers of successful answers of
that kind since the store was opened, failed and refused calls not counted, crashes, panics and dropped calls or not. -/
theorem C75_direct_ops {c : SCfg} {s : DSt} {m : Metrics} (h : MReach c s m) :
    m.createOps = answered s Resp.isCreated ∧ m.commitOps = answered s Resp.isCommitted ∧
      m.deleteOps = answered s Resp.isDeleted ∧ m.inspectOps = answered s Resp.inspects :=
  ⟨(mreach_ops h).cre, (mreach_ops h).com, (mreach_ops h).del, (mreach_ops h).ins⟩

/-- C75 (object counters): whenever no call is in progress (none was dropped, none panicked), the counters show exactly the incomplete
and committed objects there are, and the lengths of their metadata and data — in every execution, with any number of restarts. Bytes: unless
a start has found two versions of one key. -/
theorem C75_direct_objects_partial {c : SCfg} {s : DSt} {m : Metrics} (h : MReach c s m) (hq : s.threads = [])
    (hd : .duplicateKey ∉ s.faults) : Truthful s m := by
  obtain ⟨I, C, X, hb, hx⟩ := mreach_bal h (by intro th hth; rw [hq] at hth; cases hth)
  cases hx hd
  have i1 := hb.nInc; have i2 := hb.nCom; have i3 := hb.metaB; have i4 := hb.dataB
  rw [hq] at i1 i2 i3 i4
  refine ⟨I, C, hb.inc, hb.com, ?_, ?_, ?_, ?_⟩
  · simpa [thInc] using i1
  · simpa [thCom] using i2
  · rw [List.map_append, List.sum_append]; simpa [thHeld, sumOf] using i3
  · rw [List.map_append, List.sum_append]; simpa [thHeld, sumOf] using i4

/-- C75 (object counters, duplicates): even when a start has found two versions of one key, the object counts are right whenever no call is in
progress, and the bytes are never too few. -/
theorem C75_direct_counts {c : SCfg} {s : DSt} {m : Metrics} (h : MReach c s m) (hq : s.threads = []) :
    ∃ I C : List Obj, Lists s.incomplete (·.id) I ∧ Lists s.committed (·.m.key) C ∧ m.incomplete = I.length ∧ m.committed = C.length ∧
      ((I ++ C).map (fun o => (o.metaSize : Int))).sum ≤ m.metaBytes ∧ ((I ++ C).map (fun o => (o.m.size : Int))).sum ≤ m.dataBytes := by
  obtain ⟨I, C, X, hb, hx⟩ := mreach_bal h (by intro th hth; rw [hq] at hth; cases hth)
  have i1 := hb.nInc; have i2 := hb.nCom; have i3 := hb.metaB; have i4 := hb.dataB
  rw [hq] at i1 i2 i3 i4
  have pos : ∀ (f : Obj → Nat) (l : List Obj), 0 ≤ sumOf (fun o => (f o : Int)) l := by
    intro f l
    induction l with
    | nil => exact Int.le_refl _
    | cons a l ih => rw [sumOf_cons]; omega
  have p1 := pos Obj.metaSize X
  have p2 := pos (fun o => o.m.size) X
  refine ⟨I, C, hb.inc, hb.com, ?_, ?_, ?_, ?_⟩
  · simpa [thInc] using i1
  · simpa [thCom] using i2
  · rw [List.map_append, List.sum_append]
    simp only [thHeld, List.flatMap_nil, sumOf_nil] at i3
    have e1 : sumOf (fun o => (o.metaSize : Int)) I = (I.map (fun o => (o.metaSize : Int))).sum := rfl
    have e2 : sumOf (fun o => (o.metaSize : Int)) C = (C.map (fun o => (o.metaSize : Int))).sum := rfl
    omega
  · rw [List.map_append, List.sum_append]
    simp only [thHeld, List.flatMap_nil, sumOf_nil] at i4
    have e1 : sumOf (fun o => (o.m.size : Int)) I = (I.map (fun o => (o.m.size : Int))).sum := rfl
    have e2 : sumOf (fun o => (o.m.size : Int)) C = (C.map (fun o => (o.m.size : Int))).sum := rfl
    omega

/-- C75: every execution has counters (so the theorems above speak about all executions). -/
theorem C75_direct_defined {c : SCfg} {s : DSt} (h : Reach c s) : ∃ m, MReach c s m := mreach_total h

/-- C75 (calls in progress): unless a call has panicked, each object counter is off by no more than the number of calls in progress. -/
theorem C75_direct_in_progress_partial {c : SCfg} {s : DSt} {m : Metrics} (h : MReach c s m) (hd : ∀ th ∈ s.threads, th.pc ≠ .dead) :
    ∃ I C : List Obj, Lists s.incomplete (·.id) I ∧ Lists s.committed (·.m.key) C ∧
      (I.length : Int) ≤ m.incomplete ∧ m.incomplete ≤ I.length + s.threads.length ∧
      (C.length : Int) - s.threads.length ≤ m.committed ∧ m.committed ≤ C.length + s.threads.length := by
  obtain ⟨I, C, X, hb, hx⟩ := mreach_bal h hd
  have b1 : ∀ ths : List Thread, 0 ≤ thInc ths ∧ thInc ths ≤ ths.length ∧ - (ths.length : Int) ≤ thCom ths ∧ thCom ths ≤ ths.length := by
    intro ths
    induction ths with
    | nil => simp [thInc, thCom]
    | cons a l ih =>
      have x1 : 0 ≤ a.pc.tInc ∧ a.pc.tInc ≤ 1 := by unfold PC.tInc; split <;> omega
      have x2 : -1 ≤ a.pc.tCom ∧ a.pc.tCom ≤ 1 := by unfold PC.tCom; split <;> omega
      have e1 : thInc (a :: l) = a.pc.tInc + thInc l := by simp [thInc]
      have e2 : thCom (a :: l) = a.pc.tCom + thCom l := by simp [thCom]
      simp only [List.length_cons]
      omega
  have i1 := hb.nInc; have i2 := hb.nCom
  have := b1 s.threads
  exact ⟨I, C, hb.inc, hb.com, by omega, by omega, by omega, by omega⟩

/-- the hypotheses of the C75 theorems are met by executions that store, replace and delete things: two objects are created, one is
committed, then replaced, another one deleted -/
theorem C75_direct_case : ∃ s m, MReach wcfg s m ∧ s.threads = [] ∧ s.faults = [] ∧
    (s.incomplete 6).map (·.m.size) = some 10 ∧ (s.committed [1]).map (·.m.size) = some 3 ∧ s.committed [3] = none ∧
    m.createOps = 3 ∧ m.commitOps = 2 ∧ m.deleteOps = 1 ∧ m.inspectOps = 1 ∧ m.incomplete = 1 ∧ m.committed = 1 ∧ m.dataBytes = 13 := by
  have h : (wrunM (doCreate [1] 3 5 0 ++ doCommit 5 9 0 ++ doCreate [3] 4 7 0 ++ doCommit 7 11 0 ++ [.look [3] none, .look [4] none] ++
      doDelete [3] 0 ++ doCreate [2] 10 6 0)).map (fun y => ((y.1.threads, y.1.faults, (y.1.committed [3]).isNone),
        [(y.1.incomplete 6).map (·.m.size), (y.1.committed [1]).map (·.m.size)],
        [y.2.createOps, y.2.commitOps, y.2.deleteOps, y.2.inspectOps, y.2.incomplete, y.2.committed, y.2.dataBytes])) =
      some (([], [], true), [some 10, some 3], [3, 2, 1, 1, 1, 1, 13]) := by decide +kernel
  obtain ⟨⟨s, m⟩, h1, h2⟩ := Option.map_eq_some_iff.1 h
  simp only [Prod.mk.injEq, List.cons.injEq, and_true] at h2
  obtain ⟨⟨e1, e2, e3⟩, ⟨e4, e5⟩, e6, e7, e8, e9, e10, e11, e12⟩ := h2
  exact ⟨s, m, (wrunM_reach h1).1, e1, e2, e4, e5, by simpa using e3, e6, e7, e8, e9, e10, e11, e12⟩

/-- The code breaks C75 while calls are in progress: a delete can answer before the commit whose object it deletes does; the number of
committed objects is then shown as 2^64 - 1. -/
theorem C75_violated_wrap : ∃ s m, MReach wcfg s m ∧ s.threads.length = 1 ∧ s.faults = [.overlap] ∧
    (∀ k, s.committed k = none) ∧ shown m.committed = 2 ^ 64 - 1 := by
  have h : (wrunM (doCreate [1] 3 5 0 ++ [.commitClaim 5 false, .commitSeal 0, .commitPublish 0 9, .commitUpdate 0, .delete [1] none, .reapTuple 1,
      .snapshot, .page 0, .signal, .reaped 1])).map (fun y => (y.1.threads.length, y.1.faults, y.1.lin.map (·.2), shown y.2.committed)) =
      some (1, [.overlap], [.created 5 ⟨3, 7, [1], [], [1024]⟩, .claimed 5 ⟨3, 7, [1], [], [1024]⟩, .published 5 9 ⟨3, 7, [1], [], [1024]⟩ false,
        .removed [1] none 9], 2 ^ 64 - 1) := by decide +kernel
  obtain ⟨⟨s, m⟩, h1, h2⟩ := Option.map_eq_some_iff.1 h
  simp only [Prod.mk.injEq] at h2
  obtain ⟨e1, e2, e3, e4⟩ := h2
  obtain ⟨hr, hb⟩ := wrunM_reach h1
  refine ⟨s, m, hr, e1, e2, fun k => ?_, e4⟩
  have hv := absRun_vis (reach_lin (mreach_reach hr)).abs
  simp only at hv hb
  rw [hv, e3, hb]
  simp only [visMap, List.foldl_cons, List.foldl_nil, updKey]
  split <;> rfl

/-- The code breaks C75 for good when a call panics: a delete that comes between a commit's making its object visible and its changing the tuple
takes the object away and panics (finding 24); the commit succeeds. No call is in progress any more and there is no object, yet one committed object
and its bytes stay on the counters. -/
theorem C75_violated_panic : ∃ s m, MReach wcfg s m ∧ s.threads.map (·.pc) = [.dead] ∧
    (∀ k, s.committed k = none) ∧ (∀ id, s.incomplete id = none) ∧ m.committed = 1 ∧ m.dataBytes = 3 := by
  have h : (wrunM (doCreate [1] 3 5 0 ++ [.commitClaim 5 false, .commitSeal 0, .commitPublish 0 9, .delete [1] none, .reapTuple 1, .commitUpdate 0,
      .snapshot, .page 0, .signal, .commitFinish 0])).map (fun y => (y.1.threads.map (·.pc), y.1.lin.map (·.2), y.2.committed, y.2.dataBytes)) =
      some ([.dead], [.created 5 ⟨3, 7, [1], [], [1024]⟩, .claimed 5 ⟨3, 7, [1], [], [1024]⟩, .published 5 9 ⟨3, 7, [1], [], [1024]⟩ false,
        .removed [1] none 9], 1, 3) := by decide +kernel
  obtain ⟨⟨s, m⟩, h1, h2⟩ := Option.map_eq_some_iff.1 h
  simp only [Prod.mk.injEq] at h2
  obtain ⟨e1, e3, e4, e5⟩ := h2
  obtain ⟨hr, hb⟩ := wrunM_reach h1
  have ha := (reach_lin (mreach_reach hr)).abs
  simp only at ha hb
  rw [e3, hb] at ha
  simp only [absRun, List.foldlM_cons, List.foldlM_nil, absStep, upd, updKey, Option.bind_eq_bind, if_true, Option.bind_some,
    Option.pure_def, Bool.false_eq_true, false_and, if_false, wants, Option.isNone_none, Bool.true_or, and_self, Option.some.injEq, Abs.mk.injEq] at ha
  refine ⟨s, m, hr, e1, fun k => ?_, fun id => ?_, e4, e5⟩
  · exact (congrFun ha.1 k).symm.trans (by simp only [updKey, upd]; split <;> rfl)
  · exact (congrFun ha.2 id).symm.trans (by simp only [updKey, upd]; split <;> rfl)

/-- The code breaks C75 after a crash between a commit and the removal of the object it replaced: the next start sees both versions of the key; when
it reads the older one first, it counts the bytes of both and shows 21 bytes of data for the one object of 11 bytes. -/
theorem C75_violated_duplicate : ∃ s m, MReach wcfg s m ∧ s.threads = [] ∧ (∀ id, s.incomplete id = none) ∧
    (∀ k, k ≠ [1] → s.committed k = none) ∧ (s.committed [1]).map (·.m.size) = some 11 ∧ m.dataBytes = 21 := by
  have h : (wrunM (doCreate [1] 10 5 0 ++ doCommit 5 9 0 ++ doCreate [1] 11 6 0 ++ [.commitClaim 6 false, .commitSeal 0,
      .commitPublish 0 12, .commitUpdate 0, .snapshot, .page 0, .signal])).bind (fun y =>
        match Buddy.new wcfg.heap.pageNumBits wcfg.heap.base wcfg.heap.heap wcfg.heap.pages wcfg.heap.dir with
        | none => none
        | some a0 => (loadAll wcfg y.1.dev ⟨a0, fun _ => none, fun _ => none, false⟩ (diskTuples wcfg.n y.1.ts)).map (fun l =>
          ((newOkB wcfg.max wcfg.n y.1.ts.disk, (diskTuples wcfg.n y.1.ts).map (fun t => t.state)),
            (diskTuples wcfg.n y.1.ts).map (fun t => (tmeta y.1.dev t).map (·.key)), (l.committed [1]).map (·.m.size),
            ((loadCounted wcfg y.1.dev ⟨a0, fun _ => none, fun _ => none, false⟩ (diskTuples wcfg.n y.1.ts)).map (fun o => (o.m.size : Int))).sum))) =
      some ((true, [.committed, .committed]), [some [1], some [1]], some 11, 21) := by decide +kernel
  obtain ⟨⟨s0, m0⟩, h1, h2⟩ := Option.bind_eq_some_iff.1 h
  split at h2
  · cases h2
  rename_i a0 ha0
  obtain ⟨l, hl, h3⟩ := Option.map_eq_some_iff.1 h2
  simp only [Prod.mk.injEq] at h3
  obtain ⟨⟨e1, e2⟩, e3, e4, e5⟩ := h3
  obtain ⟨hr, _⟩ := wrunM_reach h1
  simp only at hr hl e1 e2 e3 e5
  have hnew := newOkB_ok e1 (fun b hb => ((reach_t (mreach_reach hr)).1.out b hb).2)
  have hload : ∃ s', load wcfg s0 (diskTuples wcfg.n s0.ts) = some s' := by
    unfold load
    rw [ha0]
    simp only [hl, if_pos hnew]
    exact ⟨_, rfl⟩
  obtain ⟨s', hs'⟩ := hload
  obtain ⟨m', hm'⟩ := loadCount_total hs'
  have hlf := loadFrom_all hl
  obtain ⟨a1, l1, b1, b2, _, rfl⟩ := load_some hs'
  rw [ha0] at b1; cases b1
  rw [hl] at b2; cases b2
  refine ⟨_, m', hr.restart _ (List.Perm.refl _) hs' hm', rfl, fun id => ?_, fun k hk => ?_, e4, ?_⟩
  · cases hi : l.incomplete id with
    | none => exact hi
    | some o =>
      exfalso
      obtain ⟨t, ht, hst, _⟩ := hlf.inc id o hi
      have : t.state ∈ [ObjState.committed, .committed] := e2 ▸ List.mem_map.2 ⟨t, ht, rfl⟩
      rw [hst] at this; simp at this
  · cases hi : l.committed k with
    | none => exact hi
    | some o =>
      exfalso
      obtain ⟨t, ht, _, _, hm, hkey⟩ := hlf.com k o hi
      have : (tmeta s0.dev t).map (·.key) ∈ [some [1], some [1]] := e3 ▸ List.mem_map.2 ⟨t, ht, rfl⟩
      rw [hm] at this; simp [hkey, hk] at this
  · obtain ⟨a1, ni, nc, c1, _, _, rfl⟩ := hm'
    rw [ha0] at c1; cases c1
    exact e5

end Props
end Blobd
