import Verif.Proofs.KvStoreHeap
/-! # KV store: calls, channel, flusher and completer keep the invariant -/
namespace Blobd
namespace Kv
open Spec KvAlloc

theorem recTasks_app (a b : List Rec) : recTasks (a ++ b) = recTasks a ++ recTasks b := by
  simp [recTasks]

theorem taskRegs_perm {p p' : List Task} (h : p.Perm p') : (taskRegs p).Perm (taskRegs p') :=
  h.flatMap_right _

theorem taskRegs_append (a b : List Task) : taskRegs (a ++ b) = taskRegs a ++ taskRegs b := by
  simp [taskRegs]

/-- the pipe may lose tasks (their regions leak) and be reordered -/
theorem AllocPart.pipe {c : StoreCfg} {alloc : KvAlloc} {preps : List Prep} {p p' extra : List Task}
    {cm : Option Commit} {cl : List Task} {pages : Nat → List Byte}
    (h : AllocPart c alloc preps p cm cl pages) (hp : p.Perm (p' ++ extra)) :
    AllocPart c alloc preps p' cm cl pages := by
  obtain ⟨rest, h⟩ := h
  refine ⟨taskRegs extra ++ rest, h.perm ?_⟩
  have hp := taskRegs_perm hp
  rw [taskRegs_append, List.perm_iff_count] at hp
  rw [List.perm_iff_count]
  intro a
  have := hp a
  simp only [List.count_append] at this ⊢
  omega

theorem PipePart.mono {heap : Mem} {p p' : List Task} (h : PipePart heap p) (hs : ∀ t ∈ p', t ∈ p) :
    PipePart heap p' := ⟨fun t ht => h.good t (hs t ht), fun t ht => h.val t (hs t ht)⟩

theorem PipePart.perm {heap : Mem} {p p' extra : List Task} (h : PipePart heap p) (hp : p.Perm (p' ++ extra)) :
    PipePart heap p' := h.mono fun t ht => hp.mem_iff.2 (by simp [ht])

theorem PipePart.cons {heap : Mem} {p p' : List Task} {t : Task} (h : PipePart heap p) (hg : TaskGood t)
    (hv : TaskVal heap t) (hp : p'.Perm (t :: p)) : PipePart heap p' := by
  constructor <;> intro t' ht' <;> rcases List.mem_cons.1 (hp.mem_iff.1 ht') with rfl | hm
  · exact hg
  · exact h.good _ hm
  · exact hv
  · exact h.val _ hm

/-- adding a task without heap data -/
theorem AllocPart.cons {c : StoreCfg} {alloc : KvAlloc} {preps : List Prep} {p p' : List Task} {t : Task}
    {cm : Option Commit} {cl : List Task} {pages : Nat → List Byte}
    (h : AllocPart c alloc preps p cm cl pages) (ht : optRegs t.op = []) (hp : p'.Perm (t :: p)) :
    AllocPart c alloc preps p' cm cl pages := by
  obtain ⟨rest, h⟩ := h
  refine ⟨rest, h.perm ?_⟩
  have hp := taskRegs_perm hp
  rw [List.perm_iff_count] at hp
  rw [List.perm_iff_count]
  intro a
  have := hp a
  simp only [taskRegs, List.flatMap_cons, ht, List.nil_append, List.count_append] at this ⊢
  omega

theorem keyOk_raw {c : StoreCfg} (hc : c.Ok) {raw : List Byte} (h : Key.fromRaw c.H raw ≠ .literal []) :
    KeyOk (Key.fromRaw c.H raw) := by
  unfold Key.fromRaw at h ⊢
  split
  · rename_i hl
    rw [if_pos hl] at h
    refine ⟨?_, by omega⟩
    cases raw with
    | nil => exact absurd rfl h
    | cons a l => simp
  · exact hc.hash _

theorem allocateOnHeap_ok {a a' : KvAlloc} {size off sz : Nat}
    (h : allocateOnHeap a size = (.ok (off, sz), a')) :
    a.allocate size = (.ok off, a') ∧ sz = max (1 <<< a.pages.spage) (ceilPow2 size a.pages.spage) := by
  unfold allocateOnHeap at h
  split at h
  · simp at h
  · simp at h
  · rename_i off' a'' e
    simp only [Prod.mk.injEq, Outcome.ok.injEq] at h
    obtain ⟨⟨rfl, rfl⟩, rfl⟩ := h
    exact ⟨e, rfl⟩

theorem alloc_inv {c : StoreCfg} (hc : c.Ok) {a a' : KvAlloc} {live : List (Nat × Nat)} {size off : Nat}
    (h : KvAlloc.Inv c.heap a live) (e : a.allocate size = (.ok off, a')) :
    KvAlloc.Inv c.heap a' ((off, size) :: live) := by
  have hsp := hc.spage
  by_cases hk : contPow2 c.heap.pages size ≤ c.heap.pages.lpage
  · rcases h.alloc (by omega) hc.lpage size hk with ⟨off', a'', e', hi, _⟩ | ⟨e', _⟩
    · rw [e] at e'; simp only [Prod.mk.injEq, Outcome.ok.injEq] at e'
      obtain ⟨rfl, rfl⟩ := e'; exact hi
    · rw [e] at e'; simp at e'
  · unfold KvAlloc.allocate at e
    rw [h.hpages] at e
    simp [hk] at e

theorem ceil_of_pos {size p : Nat} (h : 1 ≤ size) : max (1 <<< p) (ceilPow2 size p) = ceilPow2 size p := by
  have h1 := ceilPow2_dvd size p
  have h2 := le_ceilPow2 size p
  have := Nat.le_of_dvd (by omega) h1
  rw [Nat.one_shiftLeft]
  omega

theorem paddedBuf_length (junk : Nat → Byte) (d : List Byte) {n : Nat} (h : d.length ≤ n) :
    (paddedBuf junk d n).length = n := by simp [paddedBuf]; omega

theorem paddedBuf_take (junk : Nat → Byte) (d : List Byte) (n : Nat) :
    (paddedBuf junk d n).take d.length = d := by simp [paddedBuf]

/-- heap data of an allocation can be represented -/
theorem heap_dataOk {c : StoreCfg} (hc : c.Ok) {r : Nat × Nat} (hr : RegionOk c.heap r) (h1 : 1 ≤ r.2)
    (h2 : r.2 ≤ 2 ^ 24) : DataOk (.heap r.2 r.1) := by
  have hfit := hr.fits
  have hend := hc.heapEnd
  unfold regionEnd at hfit
  have hce := le_ceilPow2 r.2 c.heap.pages.spage
  refine ⟨h1, h2, ?_, by omega⟩
  have hs : c.heap.pages.spage ≤ contPow2 c.heap.pages r.2 := Nat.le_max_left _ _
  have hsp := hc.spage
  have d1 : 2 ^ 9 ∣ r.1 - c.heap.base := Nat.dvd_trans (Nat.pow_dvd_pow 2 (by omega)) hr.dvd
  have d2 : 2 ^ 9 ∣ c.heap.base := Nat.dvd_trans (Nat.pow_dvd_pow 2 (by have := hr.small; omega)) hc.base
  have hge := hr.ge
  have d3 : 2 ^ 9 ∣ r.1 := by
    have := Nat.dvd_add d1 d2
    rwa [Nat.sub_add_cancel hge] at this
  exact Nat.mod_eq_zero_of_dvd d3

theorem inv_writeInline {c : StoreCfg} (hc : c.Ok) {s : St} (h : Inv c s) (raw data : List Byte)
    (hk : Key.fromRaw c.H raw ≠ .literal []) (hd : data.length ≤ objectSizeMax) :
    Inv c { s with
        ready := s.ready ++ [⟨Key.fromRaw c.H raw, some (.inline data), some data⟩]
        issued := s.issued ++ [⟨Key.fromRaw c.H raw, some (.inline data), some data⟩] } := by
  have hmax : objectSizeMax = 2 ^ 24 := by decide
  have hp : (pipe (s.ready ++ [⟨Key.fromRaw c.H raw, some (.inline data), some data⟩]) s.queue s.pending
      s.log.inflight s.inserting s.ul).Perm (⟨Key.fromRaw c.H raw, some (.inline data), some data⟩ ::
      pipe s.ready s.queue s.pending s.log.inflight s.inserting s.ul) := by
    rw [List.perm_iff_count]
    intro a
    simp only [pipe, List.count_append, List.count_cons, List.count_nil]
    omega
  refine ⟨h.log, h.ov, h.pipe.cons ?_ (by unfold TaskVal; rfl) hp, h.preps, h.page, h.alloc.cons rfl hp, h.ws, h.disk, h.vals⟩
  refine ⟨keyOk_raw hc hk, ?_, ?_⟩
  · intro d e
    simp only [Option.some.injEq] at e
    subst e
    show data.length < 2 ^ 32
    omega
  · intro d e
    simp only [Option.some.injEq, Data.inline.injEq] at e
    subst e; omega

theorem inv_delete {c : StoreCfg} (hc : c.Ok) {s : St} (h : Inv c s) (raw : List Byte)
    (hk : Key.fromRaw c.H raw ≠ .literal []) :
    Inv c { s with
        queue := s.queue ++ [⟨Key.fromRaw c.H raw, none, none⟩]
        issued := s.issued ++ [⟨Key.fromRaw c.H raw, none, none⟩] } := by
  have hp : (pipe s.ready (s.queue ++ [⟨Key.fromRaw c.H raw, none, none⟩]) s.pending
      s.log.inflight s.inserting s.ul).Perm (⟨Key.fromRaw c.H raw, none, none⟩ ::
      pipe s.ready s.queue s.pending s.log.inflight s.inserting s.ul) := by
    rw [List.perm_iff_count]
    intro a
    simp only [pipe, List.count_append, List.count_cons, List.count_nil]
    omega
  refine ⟨h.log, h.ov, h.pipe.cons ?_ (by unfold TaskVal; rfl) hp, h.preps, h.page, h.alloc.cons rfl hp, h.ws, h.disk, h.vals⟩
  exact ⟨keyOk_raw hc hk, by simp, by simp⟩

theorem inv_writeHeap {c : StoreCfg} (hc : c.Ok) {s : St} (h : Inv c s) (raw data : List Byte) (junk : Nat → Byte)
    {off sizeOnDev : Nat} {a' : KvAlloc} (hk : Key.fromRaw c.H raw ≠ .literal [])
    (hd : data.length ≤ objectSizeMax) (hp : c.inlineThreshold < data.length)
    (ha : allocateOnHeap s.alloc data.length = (.ok (off, sizeOnDev), a')) :
    Inv c { s with
        alloc := a'
        preps := s.preps ++ [⟨⟨Key.fromRaw c.H raw, some (.heap data.length off), some data⟩,
          (off, paddedBuf junk data sizeOnDev)⟩]
        issued := s.issued ++ [⟨Key.fromRaw c.H raw, some (.heap data.length off), some data⟩] } := by
  have hmax : objectSizeMax = 2 ^ 24 := by decide
  obtain ⟨e, hsz⟩ := allocateOnHeap_ok ha
  obtain ⟨rest, hal⟩ := h.alloc
  have hi := alloc_inv hc hal e
  have hpg := hal.hpages
  rw [hpg, ceil_of_pos (by omega)] at hsz
  have hle := le_ceilPow2 data.length c.heap.pages.spage
  refine ⟨h.log, h.ov, h.pipe, ?_, h.page, ⟨rest, hi.perm ?_⟩, h.ws, h.disk, h.vals⟩
  · intro p hp'
    rcases List.mem_append.1 hp' with hp' | hp'
    · exact h.preps p hp'
    · rw [List.mem_singleton] at hp'
      subst hp'
      refine ⟨⟨keyOk_raw hc hk, ?_, by simp⟩, data.length, data, rfl, rfl, rfl, ?_, paddedBuf_take _ _ _⟩
      · intro d e'
        simp only [Option.some.injEq] at e'
        subst e'
        exact heap_dataOk hc (hi.regs (off, data.length) (by simp)) (by simp only; omega) (by simp only; omega)
      · simp only; rw [paddedBuf_length _ _ (by omega), hsz]
  · rw [List.perm_iff_count]
    intro a
    simp only [taskRegs, List.map_append, List.flatMap_append, List.count_append, List.count_cons, List.map_cons, List.map_nil,
      List.flatMap_cons, List.flatMap_nil, optRegs, dataRegs, List.count_nil]
    omega

theorem inv_heapDevice {c : StoreCfg} (hc : c.Ok) {s : St} (h : Inv c s) {heap' : Mem}
    (hch : ∀ x, heap' x ≠ s.heap x → HeapTarget s x) : Inv c { s with heap := heap' } := by
  obtain ⟨h1, h2⟩ := heap_stable hc h hch
  exact ⟨h.log, h.ov, h1, h.preps, h.page, h.alloc, h.ws, h.disk, h2⟩

theorem write_changes {m : Mem} {w : Nat × List Byte} {x : Nat} (h : m.write w.1 w.2 x ≠ m x) : Covers w x := by
  rcases covers_dec w x with hc | hc
  · exact hc
  · exact absurd (Mem.write_out hc) h

theorem inv_heapWritten {c : StoreCfg} (hc : c.Ok) {s : St} (h : Inv c s) {pre post : List Prep} {p : Prep}
    (hp : s.preps = pre ++ p :: post) :
    Inv c { s with
        heap := s.heap.write p.write.1 p.write.2
        preps := pre ++ post, ready := s.ready ++ [p.task] } := by
  have hpm : p ∈ s.preps := by rw [hp]; simp
  obtain ⟨h1, h2⟩ := heap_stable hc h (heap' := s.heap.write p.write.1 p.write.2)
    (fun x hx => .inl ⟨p, hpm, write_changes hx⟩)
  have hperm : (pipe (s.ready ++ [p.task]) s.queue s.pending s.log.inflight s.inserting s.ul).Perm (p.task ::
      pipe s.ready s.queue s.pending s.log.inflight s.inserting s.ul) := by
    rw [List.perm_iff_count]
    intro a
    simp only [pipe, List.count_append, List.count_cons, List.count_nil]
    omega
  have hpo := h.preps p hpm
  refine ⟨h.log, h.ov, h1.cons hpo.good ?_ hperm, ?_, h.page, ?_, h.ws, h.disk, h2⟩
  · obtain ⟨n, v, e1, e2, e3, e4, e5⟩ := hpo.ex
    unfold TaskVal
    rw [e1, e2]
    simp only [Option.map_some, valueOf, Option.some.injEq]
    have hle := le_ceilPow2 n c.heap.pages.spage
    have := Mem.read_write_same s.heap p.write.1 p.write.2
    have ht := Mem.read_take (s.heap.write p.write.1 p.write.2) p.write.1 p.write.2.length n (by omega)
    rw [this, e5] at ht
    exact ht.symm
  · intro q hq
    apply h.preps q
    rw [hp]
    rcases List.mem_append.1 hq with hq | hq <;> simp [hq]
  · obtain ⟨rest, hal⟩ := h.alloc
    refine ⟨rest, hal.perm ?_⟩
    have h3 := taskRegs_perm hperm
    rw [List.perm_iff_count] at h3
    rw [List.perm_iff_count]
    intro a
    have h3 := h3 a
    simp only [hp, taskRegs, List.map_append, List.map_cons, List.flatMap_append, List.flatMap_cons, List.count_append] at h3 ⊢
    omega

theorem inv_send {c : StoreCfg} {s : St} (h : Inv c s) {pre post : List Task} {t : Task}
    (hr : s.ready = pre ++ t :: post) :
    Inv c { s with ready := pre ++ post, queue := s.queue ++ [t] } := by
  have hperm : (pipe s.ready s.queue s.pending s.log.inflight s.inserting s.ul).Perm
      (pipe (pre ++ post) (s.queue ++ [t]) s.pending s.log.inflight s.inserting s.ul ++ []) := by
    rw [List.perm_iff_count]
    intro a
    simp only [hr, pipe, List.count_append, List.count_cons, List.count_nil]
    omega
  exact ⟨h.log, h.ov, h.pipe.perm hperm, h.preps, h.page, h.alloc.pipe hperm, h.ws, h.disk, h.vals⟩

theorem inv_recv {c : StoreCfg} {s : St} (h : Inv c s) {q : List Task} {t : Task} (hq : s.queue = t :: q) :
    Inv c { s with queue := q, pending := s.pending ++ [t] } := by
  have hperm : (pipe s.ready s.queue s.pending s.log.inflight s.inserting s.ul).Perm
      (pipe s.ready q (s.pending ++ [t]) s.log.inflight s.inserting s.ul ++ []) := by
    rw [List.perm_iff_count]
    intro a
    simp only [hq, pipe, List.count_append, List.count_cons, List.count_nil]
    omega
  exact ⟨h.log, h.ov, h.pipe.perm hperm, h.preps, h.page, h.alloc.pipe hperm, h.ws, h.disk, h.vals⟩

theorem StoreCfg.Ok.logOk {c : StoreCfg} (hc : c.Ok) : c.log.Ok := ⟨hc.logPos, hc.logPages, hc.bufPos, hc.bufPages⟩

theorem TaskGood.ok {t : Task} (h : TaskGood t) : TaskOk t := ⟨.inl h.key, h.data⟩

theorem inv_flush {c : StoreCfg} (hc : c.Ok) {s : St} (h : Inv c s) {j1 j2 : Nat → Byte} {log' : LogSt} {f : Flush}
    (hpl : planFlush c.log s.log j1 j2 s.pending = some (log', f)) (fl : List Fault)
    (hb : ((encodeTasks s.pending).map (fun b => (padFlush c.log j1 b).length)).getD 0 ≤ c.log.bufSize) :
    Inv c { s with log := log', pending := [], faults := fl } := by
  obtain ⟨recs, hl, e1, e2⟩ := h.log.ex
  have hpm : ∀ t ∈ s.pending, t ∈ pipe s.ready s.queue s.pending s.log.inflight s.inserting s.ul := by
    intro t ht; simp [pipe, ht]
  obtain ⟨l1, l2, l3, l4, l5, l6, _, _⟩ := hl.plan hc.logOk (fun t ht => (h.pipe.good t (hpm t ht)).ok)
    (fun buf e => by rw [e] at hb; simpa using hb) hpl
  have hperm : (pipe s.ready s.queue s.pending s.log.inflight s.inserting s.ul).Perm
      (pipe s.ready s.queue [] log'.inflight s.inserting s.ul ++ []) := by
    rw [List.perm_iff_count]
    intro a
    simp only [pipe, l5, l6, List.flatMap_append, List.flatMap_cons, List.flatMap_nil, List.count_append, List.count_nil]
    omega
  refine ⟨⟨recs, l1, e1, ?_⟩, h.ov, h.pipe.perm hperm, h.preps, h.page, h.alloc.pipe hperm, h.ws, h.disk, h.vals⟩
  intro u hu
  simp only [l3]
  exact e2 u hu

theorem inv_logDevice {c : StoreCfg} {s : St} (h : Inv c s) {data' : Mem} (hcf : Confined s.log data') :
    Inv c { s with log := { s.log with data := data' } } := by
  obtain ⟨recs, hl, e1, e2⟩ := h.log.ex
  exact ⟨⟨recs, hl.scribble hcf, e1, e2⟩, h.ov, h.pipe, h.preps, h.page, h.alloc, h.ws, h.disk, h.vals⟩

theorem finish_tasks {log : LogSt} (i : Nat) :
    (finishFlush log i).inflight.flatMap (·.tasks) = log.inflight.flatMap (·.tasks) ∧
    (finishFlush log i).head = log.head := by
  unfold finishFlush
  split
  · exact ⟨rfl, rfl⟩
  · rename_i f hf
    refine ⟨?_, rfl⟩
    simp only
    rw [List.flatMap_def, List.flatMap_def]
    congr 1
    apply List.ext_getElem?
    intro n
    rw [List.getElem?_map, List.getElem?_map, List.getElem?_set]
    by_cases hin : i = n
    · subst hin
      have : i < log.inflight.length := by
        rw [List.getElem?_eq_some_iff] at hf; exact hf.1
      simp only [if_true, this, hf, Option.map_some]
    · simp [hin]

theorem inv_logWritten {c : StoreCfg} {s : St} (h : Inv c s) {i : Nat} {f : Flush}
    (hi : s.log.inflight[i]? = some f) (hd : f.done = false) : Inv c { s with log := finishFlush s.log i } := by
  obtain ⟨recs, hl, e1, e2⟩ := h.log.ex
  obtain ⟨t1, t2⟩ := finish_tasks (log := s.log) i
  have hp : pipe s.ready s.queue s.pending (finishFlush s.log i).inflight s.inserting s.ul =
      pipe s.ready s.queue s.pending s.log.inflight s.inserting s.ul := by unfold pipe; rw [t1]
  refine ⟨⟨recs, hl.finish i ?_, e1, ?_⟩, h.ov, ?_, h.preps, h.page, ?_, h.ws, h.disk, h.vals⟩
  · intro f' hf'; rw [hi] at hf'; cases hf'; exact hd
  · intro u hu; simp only [t2]; exact e2 u hu
  · simp only [hp]; exact h.pipe
  · simp only [hp]; exact h.alloc

theorem inv_complete {c : StoreCfg} {s : St} (h : Inv c s) {n : Nat} {log' : LogSt} {ts : List Task}
    (hi : s.inserting = []) (hcf : completeFlushes s.log n = some (log', ts)) :
    Inv c { s with log := log', inserting := ts } := by
  obtain ⟨recs, hl, e1, e2⟩ := h.log.ex
  obtain ⟨l1, l2, l3⟩ := hl.complete hcf
  have hts : ts = (s.log.inflight.take n).flatMap (·.tasks) ∧ log'.inflight = s.log.inflight.drop n := by
    unfold completeFlushes at hcf
    simp only at hcf
    split at hcf
    · cases hcf
    · split at hcf
      · simp only [Option.some.injEq, Prod.mk.injEq] at hcf
        obtain ⟨rfl, rfl⟩ := hcf
        exact ⟨rfl, rfl⟩
      · cases hcf
  have hperm : (pipe s.ready s.queue s.pending s.log.inflight s.inserting s.ul).Perm
      (pipe s.ready s.queue s.pending log'.inflight ts s.ul ++ []) := by
    rw [List.perm_iff_count]
    intro a
    have : s.log.inflight.flatMap (·.tasks) = ts ++ log'.inflight.flatMap (·.tasks) := by
      rw [hts.1, hts.2, ← List.flatMap_append, List.take_append_drop]
    simp only [pipe, hi, this, List.count_append, List.count_nil]
    omega
  refine ⟨⟨_, l1, ?_, ?_⟩, h.ov, h.pipe.perm hperm, h.preps, h.page, h.alloc.pipe hperm, h.ws, h.disk, h.vals⟩
  · rw [recTasks_app, e1, ← l3, hi]; simp
  · intro u hu
    obtain ⟨r1, r2, rfl, e3, e4⟩ := e2 u hu
    exact ⟨r1, r2 ++ (s.log.inflight.take n).flatMap (·.recs), by simp, by simp only [l2]; exact e3, e4⟩

theorem shadow_snoc {cm : Option Commit} {cl ul : List Task} {t : Task} {k : Key} (hs : Shadow cm cl ul k) :
    Shadow cm cl (ul ++ [t]) k := by
  cases cm with
  | some cm => exact hs
  | none =>
    simp only [Shadow] at hs ⊢
    rw [lastFor_snoc]
    split
    · simp
    · exact hs

theorem inv_apply {c : StoreCfg} {s : St} (h : Inv c s) {t : Task} {r : List Task} (hi : s.inserting = t :: r) :
    Inv c { s with
        inserting := r
        gens := fun g => if g = s.cur then (s.gens g).insert t.key t.op else s.gens g
        applied := s.applied ++ [t], ul := s.ul ++ [t] } := by
  obtain ⟨recs, hl, e1, e2⟩ := h.log.ex
  have hperm : (pipe s.ready s.queue s.pending s.log.inflight s.inserting s.ul).Perm
      (pipe s.ready s.queue s.pending s.log.inflight r (s.ul ++ [t]) ++
        (surv s.ul).filter (fun x => ¬ (x.key ≠ t.key))) := by
    rw [List.perm_iff_count]
    intro a
    have h1 := List.perm_iff_count.1 (List.filter_append_perm (fun x : Task => decide (x.key ≠ t.key)) (surv s.ul)) a
    simp only [pipe, hi, surv_snoc, List.count_append, List.count_cons] at h1 ⊢
    simp only [decide_not, Bool.not_not] at h1 ⊢
    omega
  refine ⟨⟨recs, hl, ?_, e2⟩, ?_, h.pipe.perm hperm, h.preps, h.page, h.alloc.pipe hperm, h.ws, h.disk, ?_⟩
  · rw [e1, hi]; simp
  · obtain ⟨o1, o2, o3, o4, o5, o6⟩ := h.ov
    refine ⟨by rw [o1]; simp, ?_, ?_, o4, ?_, o6⟩
    · simp only [if_true, o2]
      rw [List.map_append, List.map_cons, List.map_nil, ofEntries_snoc]; rfl
    · intro g hg
      obtain ⟨h1, h2⟩ := o3 g hg
      exact ⟨h1, by simp only [Nat.ne_of_lt h1, if_false]; exact h2⟩
    · intro g hg
      simp only [Nat.ne_of_gt hg, if_false]; exact o5 g hg
  · obtain ⟨v0, v1, v2, v3, v4, v5⟩ := h.vals
    refine ⟨v0, v1, v2, v3, v4, fun k hk => v5 k fun hs => hk ?_⟩
    exact shadow_snoc hs

end Kv
end Blobd
