import Verif.Proofs.DirectIds
/-! # Direct store: running particular executions

`exec` performs a named step if its conditions hold; used to show concrete executions. -/
namespace Blobd
namespace Direct
open List

/-- a scheduler's choice; `i` picks a thread, a writer or an image -/
inductive Cmd
  | createData (key : List Byte) (size created : Nat)
  | createMeta (i id : Nat)
  | metaWritten (i : Nat)
  | createInsert (i : Nat)
  | created (i : Nat)
  | openHandle (id : Nat)
  | writeStart (h pg : Nat) (data : List Byte)
  | writeDone (i : Nat)
  | writeCancel (i : Nat)
  | orphanDone (i : Nat)
  | commitClaim (id : Nat) (ifne : Bool)
  | commitRefused (id : Nat)
  | commitSeal (i : Nat)
  | commitKept (i : Nat)
  | commitPublish (i newId : Nat)
  | commitUpdate (i : Nat)
  | commitFinish (i : Nat)
  | delete (k : List Byte) (want : Option Nat)
  | look (k : List Byte) (want : Option Nat)
  | reapTuple (i : Nat)
  | reaped (i : Nat)
  | snapshot
  | page (i : Nat)
  | signal
  | restart (rev : Bool)

/-- `TS.newOk`, computed -/
def newOkB (max n : Nat) (init : Nat → List Tuple) : Bool :=
  (List.range n).all (fun b => decide ((init b).length ≤ max)) &&
  (List.range n).all (fun b => decide (((init b).map (·.id)).Nodup)) &&
  (List.range n).all (fun b => (List.range n).all (fun d => b == d ||
    (init b).all (fun t => (init d).all (fun u => t.id != u.id))))

theorem newOkB_ok {max n : Nat} {init : Nat → List Tuple} (h : newOkB max n init = true) (hn : ∀ b, n ≤ b → init b = []) :
    TS.newOk max n init := by
  simp only [newOkB, Bool.and_eq_true, List.all_eq_true, mem_range, decide_eq_true_eq, Bool.or_eq_true, beq_iff_eq,
    bne_iff_ne] at h
  obtain ⟨⟨h1, h2⟩, h3⟩ := h
  refine ⟨h1, hn, h2, ?_⟩
  intro b d hb hd hne t ht u hu
  rcases h3 b hb d hd with h | h
  · exact absurd h hne
  · exact h t ht u hu

def exec (c : SCfg) (s : DSt) : Cmd → Option DSt
  | .createData key size created =>
    if size < 2 ^ 64 ∧ created < 2 ^ 63 then
      match calcObjectLayoutDirect c.pages size with
      | none => none
      | some lay =>
        match allocPages s.alloc (dataSizes c.pages lay) with
        | (some offs, a') => some { s with
            alloc := a'
            threads := s.threads ++ [⟨s.nextCall, s.lin.length,
              .createData ⟨size, created, key, offs.take lay.lpageCount, offs.drop lay.lpageCount⟩⟩]
            nextCall := s.nextCall + 1 }
        | (none, _) => none
    else none
  | .createMeta i id =>
    match s.threads[i]? with
    | none => none
    | some th =>
      match th.pc with
      | .createData m =>
        if m.enc.length ≤ 2 ^ c.pages.lpage ∧ s.names id = none ∧
            m.enc.length ≤ MetaPage.directPageSize c.pages m.enc.length then
          match s.alloc.allocate m.enc.length with
          | (.ok mo, a') => some { s with
              alloc := a'
              threads := s.threads.take i ++ withPc th (.createMeta ⟨id, m⟩
                ⟨.incomplete, id, mo, MetaPage.directRecorded c.pages m.enc.length⟩
                (m.enc ++ List.replicate (MetaPage.directPageSize c.pages m.enc.length - m.enc.length) 0)) ::
                s.threads.drop (i + 1)
              names := upd s.names id (some (mo, m))
              recs := ⟨mo, MetaPage.directRecorded c.pages m.enc.length, m, .fresh⟩ :: s.recs
              faults := (if MetaPage.directRecorded c.pages m.enc.length = MetaPage.allocated c.pages m.enc.length
                then [] else [.largeMetadata]) ++ s.faults }
          | _ => none
        else none
      | _ => none
  | .metaWritten i =>
    match s.threads[i]? with
    | none => none
    | some th =>
      match th.pc with
      | .createMeta o t page => some { s with
          dev := s.dev.write t.metaOff page
          threads := s.threads.take i ++ withPc th (.createInsert o t) :: s.threads.drop (i + 1) }
      | _ => none
  | .createInsert i =>
    match s.threads[i]? with
    | none => none
    | some th =>
      match th.pc with
      | .createInsert o t =>
        match s.ts.insertObject c.max c.n t with
        | none => none
        | some ts' => some { s with
            ts := ts'
            threads := s.threads.take i ++ withPc th (.createTuple o s.ts.next) :: s.threads.drop (i + 1)
            recs := setRec s.recs t.metaOff (.live (chosen c.n s.ts)) }
      | _ => none
  | .created i =>
    match s.threads[i]? with
    | none => none
    | some th =>
      match th.pc with
      | .createTuple o ticket =>
        if ticket ∈ s.ts.fired then some { s with
          threads := s.threads.take i ++ s.threads.drop (i + 1)
          incomplete := upd s.incomplete o.id (some o)
          lin := s.lin ++ [(th.call, .created o.id o.m)]
          acks := s.acks ++ [⟨th.call, th.start, s.lin.length + 1, .created o.id⟩] }
        else none
      | _ => none
  | .openHandle id =>
    match s.incomplete id with
    | none => none
    | some o => some { s with handles := o :: s.handles }
  | .writeStart h pg data =>
    match s.handles[h]? with
    | none => none
    | some o =>
      match (o.m.dataPages c.pages)[pg]? with
      | none => none
      | some (off, p) =>
        if o.id ∉ s.sealed ∧ data.length ≤ 2 ^ p then some { s with writers := s.writers ++ [⟨o.id, off, data⟩] }
        else none
  | .writeDone i =>
    match s.writers[i]? with
    | none => none
    | some w => some { s with dev := s.dev.write w.off w.data, writers := s.writers.take i ++ s.writers.drop (i + 1) }
  | .writeCancel i =>
    match s.writers[i]? with
    | none => none
    | some w => some { s with
        writers := s.writers.take i ++ s.writers.drop (i + 1), orphans := s.orphans ++ [w]
        faults := .writeCancelled :: s.faults }
  | .orphanDone i =>
    match s.orphans[i]? with
    | none => none
    | some w => some { s with dev := s.dev.write w.off w.data, orphans := s.orphans.take i ++ s.orphans.drop (i + 1) }
  | .commitClaim id ifne =>
    match s.incomplete id with
    | none => none
    | some o => some { s with
        incomplete := upd s.incomplete id none
        threads := s.threads ++ [⟨s.nextCall, s.lin.length, .commitClaimed o ifne⟩]
        lin := s.lin ++ [(s.nextCall, .claimed id o.m)]
        nextCall := s.nextCall + 1 }
  | .commitRefused id =>
    match s.incomplete id with
    | some _ => none
    | none => some { s with
        lin := s.lin ++ [(s.nextCall, .refused id)]
        acks := s.acks ++ [⟨s.nextCall, s.lin.length, s.lin.length + 1, .notFound⟩]
        nextCall := s.nextCall + 1 }
  | .commitSeal i =>
    match s.threads[i]? with
    | none => none
    | some th =>
      match th.pc with
      | .commitClaimed o ifne => some { s with
          sealed := o.id :: s.sealed
          threads := s.threads.take i ++ withPc th (.commitSealed o ifne) :: s.threads.drop (i + 1) }
      | _ => none
  | .commitKept i =>
    match s.threads[i]? with
    | none => none
    | some th =>
      match th.pc with
      | .commitSealed o true =>
        if (∀ w ∈ s.writers, w.id ≠ o.id) ∧ s.committed o.m.key ≠ none then some { s with
          threads := s.threads.take i ++ withPc th (.reap o .kept) :: s.threads.drop (i + 1)
          lin := s.lin ++ [(th.call, .kept o.id o.m)] }
        else none
      | _ => none
  | .commitPublish i newId =>
    match s.threads[i]? with
    | none => none
    | some th =>
      match th.pc with
      | .commitSealed o ifne =>
        if (∀ w ∈ s.writers, w.id ≠ o.id) ∧ (ifne = true → s.committed o.m.key = none) ∧ s.names newId = none then
          some { s with
            committed := updKey s.committed o.m.key (some ⟨newId, o.m⟩)
            threads := s.threads.take i ++ withPc th (.commitPublished o.id ⟨newId, o.m⟩ (s.committed o.m.key)) ::
              s.threads.drop (i + 1)
            names := upd s.names newId (s.names o.id)
            lin := s.lin ++ [(th.call, .published o.id newId o.m ifne)]
            faults := (if busy s o.m.key then [.overlap] else []) ++ s.faults }
        else none
      | _ => none
  | .commitUpdate i =>
    match s.threads[i]? with
    | none => none
    | some th =>
      match th.pc with
      | .commitPublished old o ex =>
        match s.ts.updateObject c.max old o.id .committed with
        | none => some { s with threads := s.threads.take i ++ withPc th .dead :: s.threads.drop (i + 1) }
        | some ts' => some { s with
            ts := ts'
            threads := s.threads.take i ++ withPc th (.commitTuple o ex s.ts.next) :: s.threads.drop (i + 1) }
      | _ => none
  | .commitFinish i =>
    match s.threads[i]? with
    | none => none
    | some th =>
      match th.pc with
      | .commitTuple o none ticket =>
        if ticket ∈ s.ts.fired then some { s with
          threads := s.threads.take i ++ s.threads.drop (i + 1)
          acks := s.acks ++ [⟨th.call, th.start, s.lin.length, .committed (some o.id)⟩] }
        else none
      | .commitTuple o (some e) ticket =>
        if ticket ∈ s.ts.fired then some { s with
          threads := s.threads.take i ++ withPc th (.reap e (.replaced o)) :: s.threads.drop (i + 1) }
        else none
      | _ => none
  | .delete k want =>
    match s.committed k with
    | none => none
    | some o =>
      if wants want o = true then some { s with
        committed := updKey s.committed k none
        threads := s.threads ++ [⟨s.nextCall, s.lin.length, .reap o .deleted⟩]
        lin := s.lin ++ [(s.nextCall, .removed k want o.id)]
        nextCall := s.nextCall + 1
        faults := (if busy s k then [.overlap] else []) ++ s.faults }
      else none
  | .look k want =>
    match s.committed k with
    | none => some { s with
        lin := s.lin ++ [(s.nextCall, .missing k want)]
        acks := s.acks ++ [⟨s.nextCall, s.lin.length, s.lin.length + 1, .notFound⟩]
        nextCall := s.nextCall + 1 }
    | some o =>
      if wants want o = true then some { s with
        lin := s.lin ++ [(s.nextCall, .found k want o.id o.m)]
        acks := s.acks ++ [⟨s.nextCall, s.lin.length, s.lin.length + 1, .inspected o.id o.m⟩]
        nextCall := s.nextCall + 1 }
      else none
  | .reapTuple i =>
    match s.threads[i]? with
    | none => none
    | some th =>
      match th.pc with
      | .reap o why =>
        match s.ts.deleteObject o.id with
        | none => some { s with threads := s.threads.take i ++ withPc th .dead :: s.threads.drop (i + 1) }
        | some (ts', t) => some { s with
            ts := ts'
            threads := s.threads.take i ++ withPc th (.reapTuple o t s.ts.next why) :: s.threads.drop (i + 1)
            recs := setRec s.recs t.metaOff (.dying ((s.ts.toBundle o.id).getD 0)) }
      | _ => none
  | .reaped i =>
    match s.threads[i]? with
    | none => none
    | some th =>
      match th.pc with
      | .reapTuple o t ticket why =>
        if ticket ∈ s.ts.fired then
          match s.alloc.releaseAll (o.m.dataPages c.pages ++ [(t.metaOff, t.metaPow2)]) with
          | none => none
          | some a' => some { s with
              alloc := a'
              threads := s.threads.take i ++ s.threads.drop (i + 1)
              recs := s.recs.filter (fun r => r.mo ≠ t.metaOff)
              acks := s.acks ++ [⟨th.call, th.start, s.lin.length, why.resp⟩] }
        else none
      | _ => none
  | .snapshot => match s.ts.batch with
    | none => some { s with ts := s.ts.snapshot c.n }
    | some _ => none
  | .page i => (s.ts.writePage i).map (fun ts' => { s with ts := ts' })
  | .signal => s.ts.signal.map (fun ts' => { s with ts := ts' })
  | .restart rev =>
    match Buddy.new c.heap.pageNumBits c.heap.base c.heap.heap c.heap.pages c.heap.dir with
    | none => none
    | some a0 =>
      match loadAll c s.dev ⟨a0, fun _ => none, fun _ => none, false⟩
          (if rev then (diskTuples c.n s.ts).reverse else diskTuples c.n s.ts) with
      | none => none
      | some l =>
        if newOkB c.max c.n s.ts.disk then some {
          dev := s.dev, alloc := l.alloc, ts := TS.new c.max c.n s.ts.disk
          incomplete := l.incomplete, committed := l.committed
          handles := [], sealed := [], writers := [], orphans := [], threads := []
          nextCall := s.nextCall, names := s.names
          recs := diskRecs c.n s.dev s.ts
          base := (l.committed, l.incomplete), lin := [], acks := []
          faults := (if l.dup then [.duplicateKey] else []) ++ s.faults }
        else none

theorem split_at {α : Type} {l : List α} {i : Nat} {x : α} (h : l[i]? = some x) : l = l.take i ++ x :: l.drop (i + 1) := by
  obtain ⟨hi, rfl⟩ := List.getElem?_eq_some_iff.1 h
  rw [← List.drop_eq_getElem_cons hi, List.take_append_drop]

theorem exec_step {c : SCfg} {s s' : DSt} {cmd : Cmd} (h : exec c s cmd = some s') (hn : ∀ rev, cmd ≠ .restart rev) : Step c s s' := by
  cases cmd with
  | createData key size created =>
    simp only [exec] at h
    split at h <;> [rename_i hb; cases h]
    split at h <;> [cases h; rename_i lay hl]
    split at h <;> [rename_i offs a' ha; cases h]
    cases h
    exact (.createData key size created hb.1 hb.2 hl ha)
  | createMeta i id =>
    simp only [exec] at h
    split at h <;> [cases h; rename_i th hth]
    split at h <;> [rename_i m hpc; cases h]
    split at h <;> [rename_i hb; cases h]
    split at h <;> [rename_i mo a' ha; cases h]
    cases h
    exact (.createMeta _ (split_at hth) hpc hb.1 ha hb.2.1 (by rw [length_replicate]; omega))
  | metaWritten i =>
    simp only [exec] at h
    split at h <;> [cases h; rename_i th hth]
    split at h <;> [rename_i o t page hpc; cases h]
    cases h
    exact (.metaWritten (split_at hth) hpc)
  | createInsert i =>
    simp only [exec] at h
    split at h <;> [cases h; rename_i th hth]
    split at h <;> [rename_i o t hpc; cases h]
    split at h <;> [cases h; rename_i ts' hi]
    cases h
    exact (.createInsert (split_at hth) hpc hi)
  | created i =>
    simp only [exec] at h
    split at h <;> [cases h; rename_i th hth]
    split at h <;> [rename_i o t hpc; cases h]
    split at h <;> [rename_i hf; cases h]
    cases h
    exact (.created (split_at hth) hpc hf)
  | openHandle id =>
    simp only [exec] at h
    split at h <;> [cases h; rename_i o ho]
    cases h
    exact (.openHandle id ho)
  | writeStart hd pg data =>
    simp only [exec] at h
    split at h <;> [cases h; rename_i o ho]
    split at h <;> [cases h; rename_i off p hp]
    split at h <;> [rename_i hb; cases h]
    cases h
    exact (.writeStart data (List.mem_of_getElem? ho) hb.1 (List.mem_of_getElem? hp) hb.2)
  | writeDone i =>
    simp only [exec] at h
    split at h <;> [cases h; rename_i o ho]
    cases h
    exact (.writeDone (split_at ho))
  | writeCancel i =>
    simp only [exec] at h
    split at h <;> [cases h; rename_i o ho]
    cases h
    exact (.writeCancel (split_at ho))
  | orphanDone i =>
    simp only [exec] at h
    split at h <;> [cases h; rename_i o ho]
    cases h
    exact (.orphanDone (split_at ho))
  | commitClaim id ifne =>
    simp only [exec] at h
    split at h <;> [cases h; rename_i o ho]
    cases h
    exact (.commitClaim id ifne ho)
  | commitRefused id =>
    simp only [exec] at h
    split at h <;> [cases h; rename_i ho]
    cases h
    exact (.commitRefused id ho)
  | commitSeal i =>
    simp only [exec] at h
    split at h <;> [cases h; rename_i th hth]
    split at h <;> [rename_i o t hpc; cases h]
    cases h
    exact (.commitSeal (split_at hth) hpc)
  | commitKept i =>
    simp only [exec] at h
    split at h <;> [cases h; rename_i th hth]
    split at h <;> [rename_i o hpc; cases h]
    split at h <;> [rename_i hf; cases h]
    cases h
    exact (.commitKept (split_at hth) hpc hf.1 hf.2)
  | commitPublish i newId =>
    simp only [exec] at h
    split at h <;> [cases h; rename_i th hth]
    split at h <;> [rename_i o t hpc; cases h]
    split at h <;> [rename_i hf; cases h]
    cases h
    exact (.commitPublish (split_at hth) hpc hf.1 hf.2.1 hf.2.2)
  | commitUpdate i =>
    simp only [exec] at h
    split at h <;> [cases h; rename_i th hth]
    split at h <;> [rename_i old o ex hpc; cases h]
    split at h <;> rename_i hu
    · cases h; exact (.commitUpdatePanic (split_at hth) hpc hu)
    · cases h; exact (.commitUpdate (split_at hth) hpc hu)
  | commitFinish i =>
    simp only [exec] at h
    split at h <;> [cases h; rename_i th hth]
    split at h
    · rename_i o ticket hpc
      split at h <;> [rename_i hf; cases h]
      cases h; exact (.commitDone (split_at hth) hpc hf)
    · rename_i o e ticket hpc
      split at h <;> [rename_i hf; cases h]
      cases h; exact (.commitReap (split_at hth) hpc hf)
    · cases h
  | delete k want =>
    simp only [exec] at h
    split at h <;> [cases h; rename_i o ho]
    split at h <;> [rename_i hf; cases h]
    cases h
    exact (.delete k want ho hf)
  | look k want =>
    simp only [exec] at h
    split at h
    · rename_i ho
      cases h
      exact (.missing k want (by intro o h; rw [ho] at h; cases h))
    · rename_i o ho
      split at h <;> [rename_i hf; cases h]
      cases h
      exact (.inspect k want ho hf)
  | reapTuple i =>
    simp only [exec] at h
    split at h <;> [cases h; rename_i th hth]
    split at h <;> [rename_i o why hpc; cases h]
    split at h <;> rename_i hu
    · cases h; exact (.reapPanic (split_at hth) hpc hu)
    · cases h; exact (.reapTuple (split_at hth) hpc hu)
  | reaped i =>
    simp only [exec] at h
    split at h <;> [cases h; rename_i th hth]
    split at h <;> [rename_i o t ticket why hpc; cases h]
    split at h <;> [rename_i hf; cases h]
    split at h <;> [cases h; rename_i a' ha]
    cases h
    exact (.reaped (split_at hth) hpc hf ha)
  | snapshot =>
    simp only [exec] at h
    split at h <;> [rename_i hb; cases h]
    cases h
    exact (.bg (.snapshot hb))
  | page i =>
    simp only [exec, Option.map_eq_some_iff] at h
    obtain ⟨ts', h1, rfl⟩ := h
    exact (.bg (.write i h1))
  | signal =>
    simp only [exec, Option.map_eq_some_iff] at h
    obtain ⟨ts', h1, rfl⟩ := h
    exact (.bg (.signal h1))
  | restart rev => exact absurd rfl (hn rev)

theorem exec_reach {c : SCfg} {s s' : DSt} (hr : Reach c s) {cmd : Cmd} (h : exec c s cmd = some s') : Reach c s' := by
  by_cases hrs : ∃ rev, cmd = .restart rev
  · obtain ⟨rev, rfl⟩ := hrs
    simp only [exec] at h
    split at h <;> [cases h; rename_i a0 ha]
    split at h <;> [cases h; rename_i l hl]
    split at h <;> [rename_i hn; cases h]
    cases h
    have hnew := newOkB_ok hn (fun b hb => ((reach_t hr).1.out b hb).2)
    refine hr.restart (if rev then (diskTuples c.n s.ts).reverse else diskTuples c.n s.ts) ?_ ?_
    · split
      · exact reverse_perm _
      · exact Perm.refl _
    · simp only [load, ha, hl, if_pos hnew]
  · exact hr.step (exec_step h (fun rev e => hrs ⟨rev, e⟩))

/-- run a list of choices -/
def run (c : SCfg) (s : DSt) (cmds : List Cmd) : Option DSt := cmds.foldlM (exec c) s

theorem run_reach {c : SCfg} {cmds : List Cmd} : ∀ {s s' : DSt}, Reach c s → run c s cmds = some s' → Reach c s' := by
  induction cmds with
  | nil => intro s s' hr h; cases h; exact hr
  | cons x xs ih =>
    intro s s' hr h
    simp only [run, foldlM_cons, Option.bind_eq_bind, Option.bind_eq_some_iff] at h
    obtain ⟨s1, h1, h2⟩ := h
    exact ih (exec_reach hr h1) h2

/-- two tuples per bundle, two bundles, pages of 64 and 128 bytes, a heap of 16 large pages -/
def wcfg : SCfg := ⟨⟨32, 1024, 2048, ⟨6, 7⟩, .left⟩, 2⟩

theorem wcfg_ok : wcfg.Ok := ⟨by decide, by decide, by decide, by decide⟩

/-- the execution `cmds` of a freshly formatted `wcfg` store -/
def wrun (cmds : List Cmd) : Option DSt := (fresh wcfg (fun _ => 0)).bind (fun s => run wcfg s cmds)

theorem wrun_reach {cmds : List Cmd} {s : DSt} (h : wrun cmds = some s) : Reach wcfg s := by
  simp only [wrun, Option.bind_eq_some_iff] at h
  obtain ⟨s0, h1, h2⟩ := h
  exact run_reach (.fresh h1) h2

/-- a whole `create_object` of object `id`, run alone as thread `i` -/
def doCreate (key : List Byte) (size id i : Nat) : List Cmd :=
  [.createData key size 7, .createMeta i id, .metaWritten i, .createInsert i, .snapshot, .page 0, .signal, .created i]

/-- a whole `commit_object` of `id` that replaces nothing, run alone as thread `i` -/
def doCommit (id newId i : Nat) : List Cmd :=
  [.commitClaim id false, .commitSeal i, .commitPublish i newId, .commitUpdate i, .snapshot, .page 0, .signal, .commitFinish i]

/-- a whole `delete_object`, run alone as thread `i` -/
def doDelete (key : List Byte) (i : Nat) : List Cmd :=
  [.delete key none, .reapTuple i, .snapshot, .page 0, .signal, .reaped i]

end Direct
end Blobd
