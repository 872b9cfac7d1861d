import Verif.Proofs.KvStoreRuns
import Verif.Props.KvObject
/-! # KV store: particular executions -/
namespace Blobd
namespace Kv
open Spec KvAlloc

/-- a store with one bundle of 512 bytes, a heap of one 16 MiB page and a 1 MiB log -/
def wcfg : StoreCfg where
  H := fun _ => List.replicate 32 0
  log := ⟨9, 2 ^ 20, 2 ^ 16⟩
  heap := ⟨0, 2 ^ 24, ⟨9, 24⟩⟩
  bundleCount := 1
  inlineThreshold := 100
  commitThreshold := 512

theorem wcfg_ok : wcfg.Ok where
  hash := fun _ => List.length_replicate
  bundles := by decide
  spage := by decide
  lpage := by decide
  base := by decide
  heapEnd := by decide
  logPos := by decide
  logPages := by decide
  bufPos := by decide
  bufPages := by decide

def a0 : KvAlloc where
  base := 0
  heap := 2 ^ 24
  pages := ⟨9, 24⟩
  free := fun p => if p = 24 then Finset.range (divPow2 (2 ^ 24) p) else ∅
  allocatedBytes := 0

theorem new_a0 : KvAlloc.new wcfg.heap.base wcfg.heap.heap wcfg.heap.pages = some a0 := by
  unfold KvAlloc.new
  rw [if_pos (by decide)]
  rfl

theorem alloc_whole {a : KvAlloc} (h : KvAlloc.Inv wcfg.heap a []) :
    ∃ a', allocateOnHeap a (2 ^ 24) = (.ok (0, 2 ^ 24), a') ∧ KvAlloc.Inv wcfg.heap a' [(0, 2 ^ 24)] := by
  have hk : contPow2 wcfg.heap.pages (2 ^ 24) = 24 := by decide +kernel
  rcases h.alloc (by decide) (by decide) (2 ^ 24) (by rw [hk]; decide) with ⟨off, a', e, hi, ⟨n, hv, hn⟩, _⟩ | ⟨e, hv⟩
  · have hr := hi.regs (off, 2 ^ 24) (by simp)
    have h1 := hr.fits
    have h2 : off = 0 := by
      have h3 : ceilPow2 (2 ^ 24) wcfg.heap.pages.spage = 2 ^ 24 := by decide +kernel
      unfold regionEnd at h1
      rw [h3] at h1
      have h4 : wcfg.heap.base + wcfg.heap.heap = 2 ^ 24 := rfl
      rw [h4] at h1
      simp only at h1
      omega
    subst h2
    refine ⟨a', ?_, hi⟩
    unfold allocateOnHeap
    rw [e]
    have : max (1 <<< a.pages.spage) (ceilPow2 (2 ^ 24) a.pages.spage) = 2 ^ 24 := by
      rw [h.hpages]; decide +kernel
    simp only [this]
  · exfalso
    apply hv 0
    rw [hk, vac_avail_iff]
    exact ⟨by simp [wcfg], by simp⟩

theorem inv_a0 : KvAlloc.Inv wcfg.heap a0 [] := new_inv new_a0

def ka : List Byte := [1]
def kb : List Byte := [2]

def tA (v : List Byte) : Task := ⟨.literal ka, some (.heap (2 ^ 24) 0), some v⟩
def tB (v : List Byte) : Task := ⟨.literal kb, some (.heap (2 ^ 24) 0), some v⟩
def tD : Task := ⟨.literal ka, none, none⟩

theorem ka_raw : Key.fromRaw wcfg.H ka = .literal ka := rfl
theorem kb_raw : Key.fromRaw wcfg.H kb = .literal kb := rfl

theorem encA (v : List Byte) : encodeTasks [tA v] = some [1, 1, 1, 0, 0, 0, 0, 0, 255, 255, 255] := by
  have : encodeTasks [tA v] = encodeTasks [tA []] := rfl
  rw [this]
  decide +kernel

theorem encD : encodeTasks [tD] = some [2, 1, 1] := by decide +kernel

theorem lenA (v : List Byte) : batchLen wcfg [tA v] = 512 := by
  unfold batchLen; rw [encA]; decide +kernel

theorem lenD : batchLen wcfg [tD] = 512 := by
  unfold batchLen; rw [encD]; decide +kernel

theorem written_read (m : Mem) (v : List Byte) (hv : v.length = 2 ^ 24) (junk : Nat → Byte) :
    (m.write 0 (paddedBuf junk v (2 ^ 24))).read 0 (2 ^ 24) = v := by
  have hp : paddedBuf junk v (2 ^ 24) = v := by unfold paddedBuf; rw [hv, Nat.sub_self]; simp
  rw [hp]
  apply List.ext_getElem
  · simp [Mem.read, hv]
  · intro i h1 h2
    simp [Mem.read, Mem.write, h2]

theorem put_big {q : QSt} (h : KvAlloc.Inv wcfg.heap q.alloc []) (p : List Task) (raw v : List Byte)
    (hv : v.length = 2 ^ 24) : ∃ a' heap', KvAlloc.Inv wcfg.heap a' [(0, 2 ^ 24)] ∧ heap'.read 0 (2 ^ 24) = v ∧
      Steps wcfg (q.pend p) (QSt.pend { q with
        alloc := a'
        heap := heap'
        issued := q.issued ++ [⟨Key.fromRaw wcfg.H raw, some (.heap (2 ^ 24) 0), some v⟩] }
        (p ++ [⟨Key.fromRaw wcfg.H raw, some (.heap (2 ^ 24) 0), some v⟩])) := by
  obtain ⟨a', e, hi⟩ := alloc_whole h
  refine ⟨a', _, hi, written_read q.heap v hv (fun _ => 0), ?_⟩
  have := put_heap (c := wcfg) q p raw v (fun _ => 0) (by rw [hv]; decide) (by rw [hv]; decide) (by rw [hv]; exact e)
  rw [hv] at this
  exact this

/-- the state after the large value `v` was written under `ka` and acknowledged -/
theorem runA (heap logData : Mem) (v : List Byte) (hv : v.length = 2 ^ 24) :
    ∃ q : QSt, Reach wcfg q.st ∧ KvAlloc.Inv wcfg.heap q.alloc [(0, 2 ^ 24)] ∧ q.heap.read 0 (2 ^ 24) = v ∧
      q.pages = (fun _ => List.replicate 512 0) ∧ q.head = 0 ∧ q.tail = 512 ∧
      q.gens = (fun g => if g = 0 then [(.literal ka, some (.heap (2 ^ 24) 0))] else []) ∧ q.cur = 0 ∧ q.issued = [tA v] ∧
      q.applied = [tA v] ∧ q.base = [] ∧ q.ul = [tA v] ∧ q.faults = [] := by
  obtain ⟨a', heap', h1, h2, h3⟩ := put_big (q := qfresh wcfg heap logData a0) inv_a0 [] ka v hv
  have h4 := run_batch (c := wcfg) { qfresh wcfg heap logData a0 with
        alloc := a'
        heap := heap'
        issued := [tA v] } [tA v] (by simp) (encA v) (show modPow2 0 9 = 0 by decide)
    (by rw [lenA]; exact (by decide : 0 + 512 < 2 ^ 20)) (by rw [lenA]; decide)
  refine ⟨_, (h3.trans h4).reach (.fresh (fresh_q new_a0)), h1, h2, rfl, rfl, ?_, ?_, rfl, rfl, rfl, rfl, rfl, rfl⟩
  · simp only [qfresh]; rw [lenA]
  · rfl

theorem inv_of_fields {q : QSt} (h : Reach wcfg q.st) (hf : q.faults = []) (hk : ∀ t ∈ q.issued, t.key ≠ .literal []) :
    Inv wcfg q.st := reach_inv wcfg_ok h hf hk

end Kv
end Blobd

namespace Blobd
namespace Kv
open Spec KvAlloc

/-! ### Restarting from pages without heap tuples -/

theorem loadRegs_zero (c : StoreCfg) (n : Nat) (hb : c.bundleCount = 1) :
    loadRegs c (fun _ => List.replicate n 0) = some [] := by
  unfold loadRegs
  rw [hb]
  simp [List.range_one, deser_zero]

/-- a restart of a quiet store whose bundles are empty -/
theorem load_q {q : QSt} {es : List (Key × Option Data)} (hp : q.pages = fun _ => List.replicate 512 0)
    (hr : replay wcfg.log q.data q.head q.tail = some es) :
    load wcfg q.st = some (QSt.st { q with
      alloc := a0
      gens := fun g => if g = 0 then Overlay.ofEntries es else []
      cur := 0
      faults := (if es.any isHeapEntry then [.heapTupleInReplayedLog] else []) ++ q.faults }) := by
  have h1 : loadRegs wcfg q.st.pages = some [] := by
    show loadRegs wcfg q.pages = some []
    rw [hp]; exact loadRegs_zero wcfg 512 rfl
  have h2 : replay wcfg.log q.st.log.data q.st.log.head q.st.log.tail = some es := hr
  unfold load
  rw [new_a0, h1, h2]
  simp [kvMarkAll, QSt.st, QSt.pend, Commit.replayed]

/-! ### Overflowing bundle -/

theorem put_all {c : StoreCfg} (ws : List (List Byte × List Byte)) : ∀ (q : QSt) (p : List Task),
    (∀ w ∈ ws, w.2.length ≤ objectSizeMax ∧ w.2.length ≤ c.inlineThreshold) →
    Steps c (q.pend p) (QSt.pend { q with
      issued := q.issued ++ ws.map (fun w => ⟨Key.fromRaw c.H w.1, some (.inline w.2), some w.2⟩) }
      (p ++ ws.map (fun w => ⟨Key.fromRaw c.H w.1, some (.inline w.2), some w.2⟩))) := by
  induction ws with
  | nil =>
    intro q p _
    simp only [List.map_nil, List.append_nil]
    exact .refl _
  | cons w ws ih =>
    intro q p h
    refine (put_inline q p w.1 w.2 (h w (by simp)).1 (h w (by simp)).2).trans ?_
    have := ih { q with issued := q.issued ++ [⟨Key.fromRaw c.H w.1, some (.inline w.2), some w.2⟩] }
      (p ++ [⟨Key.fromRaw c.H w.1, some (.inline w.2), some w.2⟩]) (fun w' hw' => h w' (by simp [hw']))
    simpa only [List.append_assoc, List.map_cons, List.singleton_append] using this

theorem applyEntry_inline (a : KvAlloc) (m : List (Key × Data)) (e : Key × Option Data)
    (hm : ∀ t ∈ m, ∃ d, t.2 = .inline d) : applyEntry a m e = (a, some (putEntry m e)) := by
  unfold applyEntry
  cases hf : m.find? (fun x => x.1 = e.1) with
  | none => simp only [Option.map_none]; unfold putEntry; cases e.2 <;> rfl
  | some t =>
    obtain ⟨d, hd⟩ := hm t (List.mem_of_find?_eq_some hf)
    simp only [Option.map_some, hd]
    unfold putEntry
    cases e.2 <;> rfl

theorem applyAll_inline (a : KvAlloc) (es : List (Key × Option Data)) : ∀ m : List (Key × Data),
    (∀ t ∈ m, ∃ d, t.2 = .inline d) → (∀ e ∈ es, ∃ d, e.2 = some (.inline d)) →
    applyAll a m es = some (a, es.foldl putEntry m) := by
  induction es with
  | nil => intro m _ _; rfl
  | cons e es ih =>
    intro m hm he
    unfold applyAll
    rw [applyEntry_inline a m e hm]
    simp only [List.foldl_cons]
    apply ih
    · intro t ht
      unfold putEntry at ht
      obtain ⟨d, hd⟩ := he e (by simp)
      rw [hd] at ht
      simp only [List.mem_cons, List.mem_filter] at ht
      rcases ht with rfl | ht
      · exact ⟨d, rfl⟩
      · exact hm t ht.1
    · exact fun e he' => he e (by simp [he'])

/-- thirteen 32-byte keys with 7-byte values -/
def manyWrites : List (List Byte × List Byte) :=
  (List.range 13).map (fun i => (UInt8.ofNat (i + 1) :: List.replicate 31 0, List.replicate 7 9))

def manyTasks : List Task :=
  manyWrites.map (fun w => ⟨Key.fromRaw wcfg.H w.1, some (.inline w.2), some w.2⟩)

theorem many_enc : (encodeTasks manyTasks).isSome = true := by decide +kernel
theorem many_len : batchLen wcfg manyTasks = 1024 := by decide +kernel
theorem many_inline : ∀ e ∈ insertAll [] manyTasks, e.2 = some (.inline (List.replicate 7 9)) := by decide +kernel
theorem many_overflow : serialiseBundle 512 (fun _ => 0) ((insertAll [] manyTasks).foldl putEntry []) = none := by
  decide +kernel

/-- the thirteen writes are acknowledged and then lost -/
theorem overflow_run (heap logData : Mem) : ∃ q : QSt, ∃ s, Reach wcfg q.st ∧ q.faults = [] ∧
    q.applied = manyTasks ∧ q.issued = manyTasks ∧
    s.applied = manyTasks ∧ s.issued = manyTasks ∧ Steps wcfg q.st s ∧ (∀ k, readTuple wcfg s k = none) ∧
    ∃ s', load wcfg s = some s' ∧ s'.applied = manyTasks ∧ ∀ k, readTuple wcfg s' k = none := by
  obtain ⟨buf, hbuf⟩ := Option.isSome_iff_exists.1 many_enc
  have h1 := put_all (c := wcfg) manyWrites (qfresh wcfg heap logData a0) [] (by
    have : ∀ w ∈ manyWrites, w.2.length = 7 := by decide +kernel
    intro w hw
    rw [this w hw]
    decide)
  have h2 := run_batch (c := wcfg) { qfresh wcfg heap logData a0 with issued := manyTasks } manyTasks (by decide +kernel)
    hbuf (show modPow2 0 9 = 0 by decide) (by rw [many_len]; exact (by decide : 0 + 1024 < 2 ^ 20))
    (by rw [many_len]; decide)
  rw [many_len] at h2
  obtain ⟨q, hq⟩ : ∃ q : QSt, q = { qfresh wcfg heap logData a0 with
      issued := manyTasks
      data := logData.writeAll [(0 % 2 ^ 20, padFlush wcfg.log (fun _ => 0) buf)]
      tail := 0 + 1024
      gens := fun g => if g = 0 then insertAll [] manyTasks else []
      applied := [] ++ manyTasks
      ul := [] ++ manyTasks } := ⟨_, rfl⟩
  have h3 : Steps wcfg (qfresh wcfg heap logData a0).st q.st := by
    rw [hq]; exact h1.trans h2
  have hg : q.gens q.cur = insertAll [] manyTasks := by rw [hq]; rfl
  have h4 := run_commit_overflow (c := wcfg) rfl q (by rw [hq]; exact (by decide : 0 + 1024 - 0 ≥ 512))
    (by rw [hg]; decide +kernel)
    (by
      rw [hg]
      intro e he d hd
      rw [many_inline e he] at hd
      cases hd
      decide)
    (ts := []) (by rw [hq]; exact deser_zero _)
    (a' := q.alloc) (m' := (insertAll [] manyTasks).foldl putEntry [])
    (by
      rw [hg]
      apply applyAll_inline
      · simp [collectMap]
      · exact fun e he => ⟨_, many_inline e he⟩)
    many_overflow
  have hpg : q.pages = fun _ => List.replicate 512 0 := by rw [hq]; rfl
  have hnone : ∀ k, pageGet (List.replicate 512 0) k = none := by
    intro k; unfold pageGet; rw [deser_zero]; rfl
  refine ⟨q, _, h3.reach (.fresh (fresh_q new_a0)), by rw [hq]; rfl, by rw [hq]; rfl, by rw [hq], ?_, ?_, h4, ?_, ?_⟩
  · rw [hq]; rfl
  · show q.issued = _; rw [hq]
  · intro k
    have hg1 : q.gens (q.cur + 1) = [] := by rw [hq]; rfl
    unfold readTuple
    simp only [QSt.st, QSt.pend, hg1, hpg, Option.bind_none]
    exact hnone k
  · have hl := load_q (q := { q with
      alloc := q.alloc
      head := q.tail, cur := q.cur + 1, base := q.base ++ q.ul, ul := []
      faults := .bundleTaskPanicked :: q.faults }) (es := []) hpg (by
        have e1 : q.tail = 1024 := by rw [hq]
        simp only [e1]
        unfold replay
        rw [if_pos (by decide)]
        rfl)
    refine ⟨_, hl, ?_, ?_⟩
    · show q.applied = _; rw [hq]; rfl
    intro k
    unfold readTuple
    simp only [QSt.st, QSt.pend, hpg, Option.bind_none]
    exact hnone k

/-! ### Heap space of replayed tuples is not reserved -/

theorem replay_q {q : QSt} (h : Inv wcfg q.st) : replay wcfg.log q.data q.head q.tail = some (q.ul.map Task.erase) := by
  obtain ⟨recs, hl, e1, _⟩ := h.log.ex
  have := hl.replay wcfg_ok.logOk
  rw [e1] at this
  simpa [QSt.st, QSt.pend, openAt] using this

theorem restart_run (heap logData : Mem) (v w : List Byte) (hv : v.length = 2 ^ 24) (hw : w.length = 2 ^ 24) :
    ∃ s s1 s2, Reach wcfg s ∧ s.faults = [] ∧ NoEmptyKey s ∧ s.applied = [tA v] ∧ load wcfg s = some s1 ∧
      s1.applied = [tA v] ∧ Steps wcfg s1 s2 ∧ s2.applied = [tA v] ∧
      found s1 (readTuple wcfg s1 (.literal ka)) = some v ∧ found s2 (readTuple wcfg s2 (.literal ka)) = some w := by
  obtain ⟨q, hr, hal, hh, hpg, hhd, htl, hg, hcur, hiss, happ, hbase, hul, hf⟩ := runA heap logData v hv
  have hi := inv_of_fields hr hf (by rw [hiss]; simp [tA, ka])
  have hrep := replay_q hi
  rw [hul] at hrep
  have hl := load_q hpg hrep
  obtain ⟨a', heap', h1, h2, h3⟩ := put_big (q := { q with
      alloc := a0
      gens := fun g => if g = 0 then Overlay.ofEntries ([tA v].map Task.erase) else []
      cur := 0
      faults := (if ([tA v].map Task.erase).any isHeapEntry then [.heapTupleInReplayedLog] else []) ++ q.faults })
      inv_a0 [] kb w hw
  refine ⟨q.st, _, _, hr, hf, ?_,
    happ, hl, happ, h3, happ, ?_, ?_⟩
  · intro t ht
    have ht : t ∈ q.issued := ht
    rw [hiss, List.mem_singleton] at ht
    subst ht
    simp [tA, ka]
  · have : readTuple wcfg (QSt.st { q with
      alloc := a0
      gens := fun g => if g = 0 then Overlay.ofEntries ([tA v].map Task.erase) else []
      cur := 0
      faults := (if ([tA v].map Task.erase).any isHeapEntry then [.heapTupleInReplayedLog] else []) ++ q.faults })
      (.literal ka) = some (.heap (2 ^ 24) 0) := by
      apply readTuple_cur
      simp [QSt.st, QSt.pend, Overlay.ofEntries, Overlay.insert, Overlay.get, Task.erase, tA]
    rw [this]
    unfold found
    rw [Option.map_some]
    exact congrArg some hh
  · rw [readTuple_cur (e := some (.heap (2 ^ 24) 0)) (by
      simp [QSt.pend, Overlay.ofEntries, Overlay.insert, Overlay.get, Task.erase, tA])]
    unfold found
    rw [Option.map_some]
    exact congrArg some h2

/-! ### Reading a tuple whose space is reused -/

theorem reuse_run (heap logData : Mem) (v w : List Byte) (hv : v.length = 2 ^ 24) (hw : w.length = 2 ^ 24) :
    ∃ s1 s2, Reach wcfg s1 ∧ Steps wcfg s1 s2 ∧ s2.faults = [] ∧ NoEmptyKey s2 ∧ s1.applied = [tA v] ∧
      s2.issued = [tA v, tD, tB w] ∧
      readTuple wcfg s1 (.literal ka) = some (.heap (2 ^ 24) 0) ∧ valueOf s1.heap (.heap (2 ^ 24) 0) = v ∧
      valueOf s2.heap (.heap (2 ^ 24) 0) = w := by
  obtain ⟨q, hr, hal, hh, hpg, hhd, htl, hg, hcur, hiss, happ, hbase, hul, hf⟩ := runA heap logData v hv
  have hgc : q.gens q.cur = [(.literal ka, some (.heap (2 ^ 24) 0))] := by rw [hg, hcur]; rfl
  obtain ⟨page, hpage⟩ : ∃ page, serialiseBundle 512 (fun _ => 0) [(Key.literal ka, Data.heap (2 ^ 24) 0)] = some page :=
    Option.isSome_iff_exists.1 (by decide +kernel)
  have hdes : bundleDeserialise page = some [(Key.literal ka, Data.heap (2 ^ 24) 0)] :=
    (bundle_roundtrip 512 _ _ (by
      intro t ht
      simp only [List.mem_singleton] at ht
      subst ht
      exact ⟨by simp [KeyOk, ka], by simp [DataOk]⟩) hpage).2
  have h1 := run_commit (c := wcfg) rfl q (by rw [hhd, htl]; decide) (by rw [hgc]; simp) (by rw [hgc]; simp) (ts := [])
    (by rw [hpg]; exact deser_zero _) (a' := q.alloc) (m' := [(Key.literal ka, Data.heap (2 ^ 24) 0)])
    (by rw [hgc]; rfl) hpage
  have h2 := put_delete (c := wcfg) { q with
      alloc := q.alloc
      pages := fun j => if j = 0 then page else q.pages j
      head := q.tail, cur := q.cur + 1, base := q.base ++ q.ul, ul := [] } [] ka
  have h3 := run_batch (c := wcfg) { q with
      alloc := q.alloc
      pages := fun j => if j = 0 then page else q.pages j
      head := q.tail, cur := q.cur + 1, base := q.base ++ q.ul, ul := []
      issued := q.issued ++ [tD] } [tD] (by simp) encD (by simp only [htl]; decide)
      (by simp only [htl, lenD]; decide) (by rw [lenD]; decide)
  rw [lenD] at h3
  obtain ⟨a2, e2, i2, _⟩ := hal.rel (by decide) (by decide)
  have h4 := run_commit (c := wcfg) rfl { q with
      alloc := q.alloc
      pages := fun j => if j = 0 then page else q.pages j
      data := q.data.writeAll [(q.tail % wcfg.log.dataLen, padFlush wcfg.log (fun _ => 0) [2, 1, 1])]
      tail := q.tail + 512
      gens := fun g => if g = q.cur + 1 then insertAll (q.gens g) [tD] else q.gens g
      applied := q.applied ++ [tD]
      head := q.tail, cur := q.cur + 1, base := q.base ++ q.ul, ul := [] ++ [tD]
      issued := q.issued ++ [tD] } (by simp only [htl]; decide) (by simp [hg, hcur, insertAll, Overlay.insert])
      (by simp [hg, hcur, insertAll, Overlay.insert, tD]) (ts := [(Key.literal ka, Data.heap (2 ^ 24) 0)])
      (by simp only [if_true]; exact hdes) (a' := a2) (m' := [])
      (by
        have : (fun g => if g = q.cur + 1 then insertAll (q.gens g) [tD] else q.gens g) (q.cur + 1) =
          [(Key.literal ka, none)] := by simp [hg, hcur, insertAll, Overlay.insert, tD]
        simp only at this ⊢
        rw [this]
        show applyAll q.alloc [(Key.literal ka, Data.heap (2 ^ 24) 0)] [(Key.literal ka, none)] = some (a2, [])
        unfold applyAll applyEntry
        have hfi : ((([(Key.literal ka, Data.heap (2 ^ 24) 0)] : List (Key × Data)).find?
          (fun x => x.1 = Key.literal ka)).map (fun x => x.2)) = some (Data.heap (2 ^ 24) 0) := by decide
        simp only [hfi, e2]
        rfl)
      (page := List.replicate 512 0) (by decide +kernel)
  obtain ⟨a', heap', g1, g2, g3⟩ := put_big (q := { q with
      alloc := a2
      pages := fun j => if j = 0 then List.replicate 512 0 else if j = 0 then page else q.pages j
      data := q.data.writeAll [(q.tail % wcfg.log.dataLen, padFlush wcfg.log (fun _ => 0) [2, 1, 1])]
      tail := q.tail + 512
      gens := fun g => if g = q.cur + 1 then insertAll (q.gens g) [tD] else q.gens g
      applied := q.applied ++ [tD]
      head := q.tail + 512, cur := q.cur + 1 + 1, base := q.base ++ q.ul ++ ([] ++ [tD]), ul := []
      issued := q.issued ++ [tD] }) i2 [] kb w hw
  refine ⟨q.st, _, hr, (((h1.trans h2).trans h3).trans h4).trans g3, hf, ?_, happ, ?_, ?_, hh, g2⟩
  · intro t ht
    have ht : t ∈ q.issued ++ [tD] ++ [tB w] := ht
    rw [hiss] at ht
    simp only [List.mem_append, List.mem_singleton] at ht
    rcases ht with (rfl | rfl) | rfl <;> simp [tA, tD, tB, ka, kb]
  · show q.issued ++ [tD] ++ [tB w] = _
    rw [hiss]; rfl
  · apply readTuple_cur
    show (q.gens q.cur).get _ = _
    rw [hgc]
    decide

end Kv
end Blobd
