import Verif.Proofs.KvStoreRead
/-! # KV store: building executions -/
namespace Blobd
namespace Kv
open Spec KvAlloc

theorem Steps.trans {c : StoreCfg} {a b d : St} (h1 : Steps c a b) (h2 : Steps c b d) : Steps c a d := by
  induction h2 with
  | refl => exact h1
  | snoc _ hs ih => exact .snoc ih hs

theorem Steps.one {c : StoreCfg} {a b : St} (h : Step c a b) : Steps c a b := .snoc (.refl _) h

theorem Steps.reach {c : StoreCfg} {a b : St} (h : Steps c a b) (hr : Reach c a) : Reach c b := by
  induction h with
  | refl => exact hr
  | snoc _ hs ih => exact .step ih hs

/-- a state with nothing under way -/
structure QSt where
  heap : Mem
  alloc : KvAlloc
  pages : Nat → List Byte
  data : Mem
  head : Nat
  tail : Nat
  gens : Nat → Overlay
  cur : Nat
  issued : List Task
  applied : List Task
  base : List Task
  ul : List Task
  faults : List Fault

def QSt.pend (q : QSt) (p : List Task) : St :=
  { heap := q.heap, alloc := q.alloc, pages := q.pages, log := ⟨q.data, q.head, q.tail, q.tail, []⟩
    preps := [], ready := [], queue := [], pending := p, inserting := [], gens := q.gens, cur := q.cur
    com := none, commit := none, issued := q.issued, applied := q.applied, base := q.base, cl := []
    ul := q.ul, faults := q.faults }

def QSt.st (q : QSt) : St := q.pend []

def qfresh (c : StoreCfg) (heap logData : Mem) (a : KvAlloc) : QSt :=
  { heap := heap, alloc := a, pages := fun _ => List.replicate (2 ^ c.heap.pages.spage) 0, data := logData
    head := 0, tail := 0, gens := fun _ => [], cur := 0, issued := [], applied := [], base := [], ul := [], faults := [] }

theorem fresh_q {c : StoreCfg} {heap logData : Mem} {a : KvAlloc}
    (h : KvAlloc.new c.heap.base c.heap.heap c.heap.pages = some a) :
    fresh c heap logData = some (qfresh c heap logData a).st := by
  unfold fresh; rw [h]; rfl

theorem put_inline {c : StoreCfg} (q : QSt) (p : List Task) (raw data : List Byte) (h1 : data.length ≤ objectSizeMax)
    (h2 : data.length ≤ c.inlineThreshold) :
    Steps c (q.pend p) (QSt.pend { q with issued := q.issued ++ [⟨Key.fromRaw c.H raw, some (.inline data), some data⟩] }
      (p ++ [⟨Key.fromRaw c.H raw, some (.inline data), some data⟩])) :=
  .snoc (.snoc (.one (.writeInline raw data h1 h2)) (.send (pre := []) (post := []) rfl)) (.recv (q := []) rfl)

theorem put_delete {c : StoreCfg} (q : QSt) (p : List Task) (raw : List Byte) :
    Steps c (q.pend p) (QSt.pend { q with issued := q.issued ++ [⟨Key.fromRaw c.H raw, none, none⟩] }
      (p ++ [⟨Key.fromRaw c.H raw, none, none⟩])) :=
  .snoc (.one (.delete raw)) (.recv (q := []) rfl)

theorem put_heap {c : StoreCfg} (q : QSt) (p : List Task) (raw data : List Byte) (junk : Nat → Byte) {off sz : Nat}
    {a' : KvAlloc} (h1 : data.length ≤ objectSizeMax)
    (h2 : c.inlineThreshold < data.length) (h3 : allocateOnHeap q.alloc data.length = (.ok (off, sz), a')) :
    Steps c (q.pend p) (QSt.pend { q with
      alloc := a'
      heap := q.heap.write off (paddedBuf junk data sz)
      issued := q.issued ++ [⟨Key.fromRaw c.H raw, some (.heap data.length off), some data⟩] }
      (p ++ [⟨Key.fromRaw c.H raw, some (.heap data.length off), some data⟩])) :=
  .snoc (.snoc (.snoc (.one (.writeHeap raw data junk h1 h2 h3)) (.heapWritten (pre := []) (post := []) rfl))
    (.send (pre := []) (post := []) rfl)) (.recv (q := []) rfl)

/-- bytes a batch takes in the log -/
def batchLen (c : StoreCfg) (ts : List Task) : Nat :=
  ((encodeTasks ts).map (fun b => (padFlush c.log (fun _ => 0) b).length)).getD 0

def insertAll (m : Overlay) (ts : List Task) : Overlay := ts.foldl (fun m t => m.insert t.key t.op) m

theorem apply_all {c : StoreCfg} (ts : List Task) : ∀ s : St, s.inserting = ts →
    Steps c s { s with
      inserting := []
      gens := fun g => if g = s.cur then insertAll (s.gens g) ts else s.gens g
      applied := s.applied ++ ts, ul := s.ul ++ ts } := by
  induction ts with
  | nil =>
    intro s hs
    have : ({ s with
      inserting := []
      gens := fun g => if g = s.cur then insertAll (s.gens g) [] else s.gens g
      applied := s.applied ++ [], ul := s.ul ++ [] } : St) = s := by
      obtain ⟨⟩ := s
      simp only at hs
      subst hs
      simp [insertAll]
    rw [this]
    exact .refl _
  | cons t ts ih =>
    intro s hs
    refine (Steps.one (.apply hs)).trans ?_
    have := ih { s with
        inserting := ts
        gens := fun g => if g = s.cur then (s.gens g).insert t.key t.op else s.gens g
        applied := s.applied ++ [t], ul := s.ul ++ [t] } rfl
    have e : ({ ({ s with
        inserting := ts
        gens := fun g => if g = s.cur then (s.gens g).insert t.key t.op else s.gens g
        applied := s.applied ++ [t], ul := s.ul ++ [t] } : St) with
      inserting := []
      gens := fun g => if g = s.cur then insertAll (if g = s.cur then (s.gens g).insert t.key t.op else s.gens g) ts
        else if g = s.cur then (s.gens g).insert t.key t.op else s.gens g
      applied := s.applied ++ [t] ++ ts, ul := s.ul ++ [t] ++ ts } : St) = { s with
      inserting := []
      gens := fun g => if g = s.cur then insertAll (s.gens g) (t :: ts) else s.gens g
      applied := s.applied ++ (t :: ts), ul := s.ul ++ (t :: ts) } := by
      simp only [List.append_assoc, List.singleton_append]
      congr 1
      funext g
      by_cases hg : g = s.cur <;> simp [hg, insertAll]
    rw [← e]
    exact this

theorem plan_nowrap (c : LogCfg) (data : Mem) (head tail : Nat) (ts : List Task) (buf : List Byte)
    (he : encodeTasks ts = some buf) (hal : modPow2 tail c.spage = 0)
    (hfit : tail + (padFlush c (fun _ => 0) buf).length < c.dataLen) :
    planFlush c ⟨data, head, tail, tail, []⟩ (fun _ => 0) (fun _ => 0) ts = some
      (⟨data, head, tail, tail + (padFlush c (fun _ => 0) buf).length,
        [⟨[(tail % c.dataLen, padFlush c (fun _ => 0) buf)], tail + (padFlush c (fun _ => 0) buf).length, ts, false⟩]⟩,
       ⟨[(tail % c.dataLen, padFlush c (fun _ => 0) buf)], tail + (padFlush c (fun _ => 0) buf).length, ts, false⟩) := by
  have hmod : tail % c.dataLen = tail := Nat.mod_eq_of_lt (by omega)
  unfold planFlush
  rw [he]
  simp only [hal, if_true]
  rw [if_neg (by rw [hmod]; omega), if_neg (by omega)]
  rfl

/-- a batch goes through the log and is acknowledged -/
theorem run_batch {c : StoreCfg} (q : QSt) (ts : List Task) (hne : ts ≠ []) {buf : List Byte}
    (he : encodeTasks ts = some buf) (hal : modPow2 q.tail c.log.spage = 0)
    (hfit : q.tail + batchLen c ts < c.log.dataLen) (hbuf : batchLen c ts ≤ c.log.bufSize) :
    Steps c (q.pend ts) (QSt.st { q with
      data := q.data.writeAll [(q.tail % c.log.dataLen, padFlush c.log (fun _ => 0) buf)]
      tail := q.tail + batchLen c ts
      gens := fun g => if g = q.cur then insertAll (q.gens g) ts else q.gens g
      applied := q.applied ++ ts
      ul := q.ul ++ ts }) := by
  have hbl : batchLen c ts = (padFlush c.log (fun _ => 0) buf).length := by unfold batchLen; rw [he]; rfl
  have hmod : q.tail % c.log.dataLen = q.tail := Nat.mod_eq_of_lt (by omega)
  have hplan : planFlush c.log (q.pend ts).log (fun _ => 0) (fun _ => 0) ts = some
      (⟨q.data, q.head, q.tail, q.tail + batchLen c ts,
        [⟨[(q.tail % c.log.dataLen, padFlush c.log (fun _ => 0) buf)], q.tail + batchLen c ts, ts, false⟩]⟩,
       ⟨[(q.tail % c.log.dataLen, padFlush c.log (fun _ => 0) buf)], q.tail + batchLen c ts, ts, false⟩) := by
    rw [hbl] at hfit ⊢
    exact plan_nowrap _ _ _ _ _ _ he hal hfit
  have s1 := Step.flush (c := c) (s := q.pend ts) (fun _ => 0) (fun _ => 0) (by exact hne) hplan
  have hcond : ((encodeTasks (q.pend ts).pending).map (fun b => (padFlush c.log (fun _ => 0) b).length)).getD 0
      ≤ c.log.bufSize := hbuf
  rw [if_pos hcond] at s1
  have s2 := Step.logWritten (c := c) (s := { q.pend ts with
        log := ⟨q.data, q.head, q.tail, q.tail + batchLen c ts,
          [⟨[(q.tail % c.log.dataLen, padFlush c.log (fun _ => 0) buf)], q.tail + batchLen c ts, ts, false⟩]⟩
        pending := [], faults := [] ++ (q.pend ts).faults }) (i := 0)
        (f := ⟨[(q.tail % c.log.dataLen, padFlush c.log (fun _ => 0) buf)], q.tail + batchLen c ts, ts, false⟩) rfl rfl
  have s3 := Step.complete (c := c) (s := { q.pend ts with
        log := ⟨q.data.writeAll [(q.tail % c.log.dataLen, padFlush c.log (fun _ => 0) buf)], q.head, q.tail,
          q.tail + batchLen c ts,
          [⟨[(q.tail % c.log.dataLen, padFlush c.log (fun _ => 0) buf)], q.tail + batchLen c ts, ts, true⟩]⟩
        pending := [], faults := [] ++ (q.pend ts).faults })
        (log' := ⟨q.data.writeAll [(q.tail % c.log.dataLen, padFlush c.log (fun _ => 0) buf)], q.head,
          q.tail + batchLen c ts, q.tail + batchLen c ts, []⟩) (ts := ts) 1 rfl
        (by simp [completeFlushes])
  have s4 := apply_all (c := c) ts ({ q.pend ts with
        log := ⟨q.data.writeAll [(q.tail % c.log.dataLen, padFlush c.log (fun _ => 0) buf)], q.head,
          q.tail + batchLen c ts, q.tail + batchLen c ts, []⟩
        pending := [], faults := [] ++ (q.pend ts).faults, inserting := ts }) rfl
  exact ((Steps.one s1).snoc s2).snoc s3 |>.trans s4

/-! ### Commits of a store with one bundle -/

theorem moveAll_small (junk : Nat → Byte) (a : KvAlloc) (es : List (Key × Option Data))
    (h : ∀ e ∈ es, ∀ d, e.2 = some (.inline d) → d.length ≤ 7) : moveAll junk a es = (a, some (es, [])) := by
  induction es with
  | nil => rfl
  | cons e es ih =>
    have h1 : moveEntry junk a e = (a, some (e, [])) := by
      obtain ⟨k, o⟩ := e
      unfold moveEntry
      split
      · rename_i d heq
        have := h (k, some (.inline d)) (by cases heq; simp) d rfl
        cases heq
        rw [if_neg (by omega)]
      · rfl
    simp only [moveAll, h1, ih (fun e he => h e (by simp [he])), List.append_nil]

theorem groupsOf_one {c : StoreCfg} (hb : c.bundleCount = 1) (es : List (Key × Option Data)) (hne : es ≠ []) :
    groupsOf c es = [(0, es)] := by
  have : es.filter (fun e => bundleOf c e.1 = 0) = es := by
    rw [List.filter_eq_self]
    intro e _
    simp [bundleOf, bundleIndex, hb, Nat.mod_one]
  unfold groupsOf
  rw [hb]
  simp only [List.range_one, List.map_cons, List.map_nil, this]
  simp [hne]

/-- apply entries to a bundle in memory -/
def applyAll (a : KvAlloc) (m : List (Key × Data)) : List (Key × Option Data) → Option (KvAlloc × List (Key × Data))
  | [] => some (a, m)
  | e :: es =>
    match applyEntry a m e with
    | (a', some m') => applyAll a' m' es
    | _ => none

theorem entries_all {c : StoreCfg} (upTo : Nat) (es : List (Key × Option Data)) : ∀ (s : St) (m : List (Key × Data))
    {a' : KvAlloc} {m' : List (Key × Data)},
    s.commit = some ⟨upTo, .updating [] [⟨0, m, es⟩] []⟩ → applyAll s.alloc m es = some (a', m') →
    Steps c s { s with alloc := a', commit := some ⟨upTo, .updating [] [⟨0, m', []⟩] []⟩ } := by
  induction es with
  | nil =>
    intro s m a' m' hc ha
    cases ha
    have : ({ s with alloc := s.alloc, commit := some ⟨upTo, .updating [] [⟨0, m, []⟩] []⟩ } : St) = s := by
      rw [← hc]
    rw [this]; exact .refl _
  | cons e es ih =>
    intro s m a' m' hc ha
    unfold applyAll at ha
    split at ha
    · rename_i a1 m1 h1
      refine (Steps.one (.bundleEntry (pre := []) (post := []) hc h1)).trans ?_
      exact ih { s with alloc := a1, commit := some ⟨upTo, .updating [] [⟨0, m1, es⟩] []⟩ } m1 rfl ha
    · cases ha

/-- a commit up to the bundle's new contents in memory -/
theorem run_commit_memory {c : StoreCfg} (hb : c.bundleCount = 1) (q : QSt)
    (hth : q.tail - q.head ≥ c.commitThreshold) (hne : q.gens q.cur ≠ [])
    (hsm : ∀ e ∈ q.gens q.cur, ∀ d, e.2 = some (.inline d) → d.length ≤ 7) {ts : List (Key × Data)}
    (hts : bundleDeserialise (q.pages 0) = some ts) {a' : KvAlloc} {m' : List (Key × Data)}
    (hap : applyAll q.alloc (collectMap ts) (q.gens q.cur) = some (a', m')) :
    Steps c q.st { q.st with
      com := some q.cur, cur := q.cur + 1, cl := q.ul, ul := [], alloc := a'
      commit := some ⟨q.tail, .updating [] [⟨0, m', []⟩] []⟩ } := by
  have s1 := Step.commitStart (c := c) (s := q.st) rfl rfl hth
  have s2 := Step.group (c := c) (s := { q.st with
        com := some q.cur, cur := q.cur + 1
        commit := some ⟨q.tail, .started⟩
        cl := q.ul, ul := [] }) (g := q.cur) (upTo := q.tail) (es := q.gens q.cur) (a' := q.alloc)
        (es' := q.gens q.cur) (ws := []) (fun _ => 0) rfl rfl (List.Perm.refl _) (moveAll_small _ _ _ hsm)
  rw [groupsOf_one hb _ hne] at s2
  have s3 := Step.movedAll (c := c) (s := { q.st with
        com := some q.cur, cur := q.cur + 1
        commit := some ⟨q.tail, .moving [] [(0, q.gens q.cur)]⟩
        cl := q.ul, ul := [] }) rfl
  have s4 := Step.bundleRead (c := c) (s := { q.st with
        com := some q.cur, cur := q.cur + 1
        commit := some ⟨q.tail, .updating [(0, q.gens q.cur)] [] []⟩
        cl := q.ul, ul := [] }) (pre := []) (post := []) rfl hts
  have s5 := entries_all (c := c) q.tail (q.gens q.cur) { q.st with
        com := some q.cur, cur := q.cur + 1
        commit := some ⟨q.tail, .updating [] [⟨0, collectMap ts, q.gens q.cur⟩] []⟩
        cl := q.ul, ul := [] } (collectMap ts) rfl hap
  exact ((((Steps.one s1).snoc s2).snoc s3).snoc s4).trans s5

/-- a commit whose bundle fits its page -/
theorem run_commit {c : StoreCfg} (hb : c.bundleCount = 1) (q : QSt)
    (hth : q.tail - q.head ≥ c.commitThreshold) (hne : q.gens q.cur ≠ [])
    (hsm : ∀ e ∈ q.gens q.cur, ∀ d, e.2 = some (.inline d) → d.length ≤ 7) {ts : List (Key × Data)}
    (hts : bundleDeserialise (q.pages 0) = some ts) {a' : KvAlloc} {m' : List (Key × Data)}
    (hap : applyAll q.alloc (collectMap ts) (q.gens q.cur) = some (a', m')) {page : List Byte}
    (hser : serialiseBundle (2 ^ c.heap.pages.spage) (fun _ => 0) m' = some page) :
    Steps c q.st (QSt.st { q with
      alloc := a'
      pages := fun j => if j = 0 then page else q.pages j
      head := q.tail, cur := q.cur + 1, base := q.base ++ q.ul, ul := [] }) := by
  refine (run_commit_memory hb q hth hne hsm hts hap).trans ?_
  refine (((Steps.one (.bundleSerialise (pre := []) (post := []) (fun _ => 0) rfl (List.Perm.refl _) hser)).snoc
    (.bundleWritten (pre := []) (post := []) rfl)).snoc (.headWrite rfl)).snoc (.commitEnd rfl)

/-- a commit whose bundle does not fit its page -/
theorem run_commit_overflow {c : StoreCfg} (hb : c.bundleCount = 1) (q : QSt)
    (hth : q.tail - q.head ≥ c.commitThreshold) (hne : q.gens q.cur ≠ [])
    (hsm : ∀ e ∈ q.gens q.cur, ∀ d, e.2 = some (.inline d) → d.length ≤ 7) {ts : List (Key × Data)}
    (hts : bundleDeserialise (q.pages 0) = some ts) {a' : KvAlloc} {m' : List (Key × Data)}
    (hap : applyAll q.alloc (collectMap ts) (q.gens q.cur) = some (a', m'))
    (hser : serialiseBundle (2 ^ c.heap.pages.spage) (fun _ => 0) m' = none) :
    Steps c q.st { QSt.st { q with
      alloc := a'
      head := q.tail, cur := q.cur + 1, base := q.base ++ q.ul, ul := [] } with
      faults := .bundleTaskPanicked :: q.faults } := by
  refine (run_commit_memory hb q hth hne hsm hts hap).trans ?_
  exact ((Steps.one (.serialisePanic (pre := []) (post := []) (fun _ => 0) rfl (List.Perm.refl _) hser)).snoc
    (.headWrite rfl)).snoc (.commitEnd rfl)

end Kv
end Blobd
