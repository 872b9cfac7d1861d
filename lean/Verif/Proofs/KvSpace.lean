import Verif.Proofs.KvDiscipline
import Verif.Spec.KvSpace
/-! # KV store: what the heap allocator holds, exactly -/
set_option autoImplicit false
namespace Blobd
namespace Kv
open Spec KvAlloc Props

/-- allocated: the regions the store knows of, and `rest` -/
def AllocAt (c : StoreCfg) (alloc : KvAlloc) (preps : List Prep) (pipe : List Task)
    (cm : Option Commit) (cl : List Task) (pages : Nat → List Byte) (rest : List (Nat × Nat)) : Prop :=
  KvAlloc.Inv c.heap alloc (taskRegs (preps.map (·.task)) ++ (taskRegs pipe ++
    (earlyRegs cm cl ++ (entRegs (rem cm) ++ (effRegs c pages cm ++ rest)))))

def Held (c : StoreCfg) (s : St) (rest : List (Nat × Nat)) : Prop :=
  AllocAt c s.alloc s.preps (pipe s.ready s.queue s.pending s.log.inflight s.inserting s.ul) s.commit s.cl s.pages rest

variable {c : StoreCfg} {s s' : St} {rest : List (Nat × Nat)}

theorem AllocAt.pipe {alloc : KvAlloc} {preps : List Prep} {p p' extra : List Task}
    {cm : Option Commit} {cl : List Task} {pages : Nat → List Byte}
    (h : AllocAt c alloc preps p cm cl pages rest) (hp : p.Perm (p' ++ extra)) (he : taskRegs extra = []) :
    AllocAt c alloc preps p' cm cl pages rest := by
  refine h.perm ?_
  have hp := taskRegs_perm hp
  rw [taskRegs_append, he, List.append_nil, List.perm_iff_count] at hp
  rw [List.perm_iff_count]
  intro a
  have := hp a
  simp only [List.count_append] at this ⊢
  omega

theorem AllocAt.cons {alloc : KvAlloc} {preps : List Prep} {p p' : List Task} {t : Task}
    {cm : Option Commit} {cl : List Task} {pages : Nat → List Byte}
    (h : AllocAt c alloc preps p cm cl pages rest) (ht : optRegs t.op = []) (hp : p'.Perm (t :: p)) :
    AllocAt c alloc preps p' cm cl pages rest := by
  refine h.perm ?_
  have hp := taskRegs_perm hp
  rw [List.perm_iff_count] at hp
  rw [List.perm_iff_count]
  intro a
  have := hp a
  simp only [taskRegs, List.flatMap_cons, ht, List.nil_append, List.count_append] at this ⊢
  omega

theorem AllocAt.commit {alloc : KvAlloc} {preps : List Prep} {p : List Task}
    {cm cm' : Option Commit} {cl : List Task} {pages pages' : Nat → List Byte}
    (h : AllocAt c alloc preps p cm cl pages rest) (he1 : isEarly cm = false) (he2 : isEarly cm' = false)
    (hrem : (rem cm').Perm (rem cm)) (heff : ∀ i, (eff pages' cm' i).Perm (eff pages cm i)) :
    AllocAt c alloc preps p cm' cl pages' rest := by
  refine h.perm ?_
  have r1 := entRegs_perm hrem
  have r2 : (effRegs c pages' cm').Perm (effRegs c pages cm) :=
    flatMap_perm_pointwise _ fun i _ => mapRegs_perm (heff i)
  rw [List.perm_iff_count] at *
  intro a
  have r1 := r1 a
  have r2 := r2 a
  simp only [earlyRegs, he1, he2, Bool.false_eq_true, if_false, List.count_append, List.count_nil] at *
  omega

/-! ### Calls, channel, flusher, completer -/

theorem held_writeInline (h : Held c s rest) (raw data : List Byte) :
    Held c { s with
        ready := s.ready ++ [⟨Key.fromRaw c.H raw, some (.inline data), some data⟩]
        issued := s.issued ++ [⟨Key.fromRaw c.H raw, some (.inline data), some data⟩] } rest := by
  refine AllocAt.cons h (t := ⟨Key.fromRaw c.H raw, some (.inline data), some data⟩) rfl ?_
  rw [List.perm_iff_count]
  intro a
  simp only [pipe, List.count_append, List.count_cons, List.count_nil]
  omega

theorem held_delete (h : Held c s rest) (raw : List Byte) :
    Held c { s with
        queue := s.queue ++ [⟨Key.fromRaw c.H raw, none, none⟩]
        issued := s.issued ++ [⟨Key.fromRaw c.H raw, none, none⟩] } rest := by
  refine AllocAt.cons h (t := ⟨Key.fromRaw c.H raw, none, none⟩) rfl ?_
  rw [List.perm_iff_count]
  intro a
  simp only [pipe, List.count_append, List.count_cons, List.count_nil]
  omega

theorem held_writeHeap (hc : c.Ok) (h : Held c s rest) (raw data : List Byte) (junk : Nat → Byte)
    {off sizeOnDev : Nat} {a' : KvAlloc} 
    (ha : allocateOnHeap s.alloc data.length = (.ok (off, sizeOnDev), a')) :
    Held c { s with
        alloc := a'
        preps := s.preps ++ [⟨⟨Key.fromRaw c.H raw, some (.heap data.length off), some data⟩,
          (off, paddedBuf junk data sizeOnDev)⟩]
        issued := s.issued ++ [⟨Key.fromRaw c.H raw, some (.heap data.length off), some data⟩] } rest := by
  obtain ⟨e, _⟩ := allocateOnHeap_ok ha
  have hi := alloc_inv hc h e
  refine hi.perm ?_
  rw [List.perm_iff_count]
  intro a
  simp only [taskRegs, List.map_append, List.flatMap_append, List.count_append, List.count_cons, List.map_cons, List.map_nil,
    List.flatMap_cons, List.flatMap_nil, optRegs, dataRegs, List.count_nil]
  omega

theorem held_heapWritten (h : Held c s rest) {pre post : List Prep} {p : Prep}
    (hp : s.preps = pre ++ p :: post) :
    Held c { s with
        heap := s.heap.write p.write.1 p.write.2
        preps := pre ++ post, ready := s.ready ++ [p.task] } rest := by
  refine h.perm ?_
  rw [List.perm_iff_count]
  intro a
  simp only [hp, pipe, taskRegs, List.map_append, List.map_cons, List.flatMap_append, List.flatMap_cons, List.flatMap_nil,
    List.append_nil, List.count_append]
  omega

theorem held_send (h : Held c s rest) {pre post : List Task} {t : Task}
    (hr : s.ready = pre ++ t :: post) :
    Held c { s with ready := pre ++ post, queue := s.queue ++ [t] } rest := by
  refine AllocAt.pipe h (extra := []) ?_ rfl
  rw [List.perm_iff_count]
  intro a
  simp only [hr, pipe, List.count_append, List.count_cons, List.count_nil]
  omega

theorem held_recv (h : Held c s rest) {q : List Task} {t : Task} (hq : s.queue = t :: q) :
    Held c { s with queue := q, pending := s.pending ++ [t] } rest := by
  refine AllocAt.pipe h (extra := []) ?_ rfl
  rw [List.perm_iff_count]
  intro a
  simp only [hq, pipe, List.count_append, List.count_cons, List.count_nil]
  omega

theorem held_flush (h : Held c s rest) {j1 j2 : Nat → Byte} {log' : LogSt} {f : Flush}
    (hpl : planFlush c.log s.log j1 j2 s.pending = some (log', f)) (fl : List Fault) :
    Held c { s with log := log', pending := [], faults := fl } rest := by
  refine AllocAt.pipe h (extra := []) ?_ rfl
  rw [List.perm_iff_count]
  intro a
  simp only [pipe, Props.plan_tasks hpl, List.count_append, List.count_nil]
  omega

theorem held_logWritten (h : Held c s rest) (i : Nat) : Held c { s with log := finishFlush s.log i } rest := by
  have h1 : pipe s.ready s.queue s.pending (finishFlush s.log i).inflight s.inserting s.ul =
      pipe s.ready s.queue s.pending s.log.inflight s.inserting s.ul := by
    unfold pipe; rw [(finish_tasks (log := s.log) i).1]
  unfold Held at h ⊢
  simp only [h1]
  exact h

theorem held_complete (h : Held c s rest) {n : Nat} {log' : LogSt} {ts : List Task}
    (hi : s.inserting = []) (hcf : completeFlushes s.log n = some (log', ts)) :
    Held c { s with log := log', inserting := ts } rest := by
  have hts : ts = (s.log.inflight.take n).flatMap (·.tasks) ∧ log'.inflight = s.log.inflight.drop n := by
    unfold completeFlushes at hcf
    simp only at hcf
    split at hcf
    · cases hcf
    · split at hcf
      · simp only [Option.some.injEq, Prod.mk.injEq] at hcf
        obtain ⟨rfl, rfl⟩ := hcf
        exact ⟨rfl, rfl⟩
      · cases hcf
  refine AllocAt.pipe h (extra := []) ?_ rfl
  rw [List.perm_iff_count]
  intro a
  have : s.log.inflight.flatMap (·.tasks) = ts ++ log'.inflight.flatMap (·.tasks) := by
    rw [hts.1, hts.2, ← List.flatMap_append, List.take_append_drop]
  simp only [pipe, hi, this, List.count_append, List.count_nil]
  omega

/-- applying a task leaks the space of the uncommitted value it replaces, and nothing else -/
theorem held_apply (h : Held c s rest) {t : Task} {r : List Task} (hi : s.inserting = t :: r) :
    Held c { s with
        inserting := r
        gens := fun g => if g = s.cur then (s.gens g).insert t.key t.op else s.gens g
        applied := s.applied ++ [t], ul := s.ul ++ [t] }
      (taskRegs ((surv s.ul).filter (fun x => ¬ (x.key ≠ t.key))) ++ rest) := by
  refine h.perm ?_
  have hperm : (pipe s.ready s.queue s.pending s.log.inflight s.inserting s.ul).Perm
      (pipe s.ready s.queue s.pending s.log.inflight r (s.ul ++ [t]) ++
        (surv s.ul).filter (fun x => ¬ (x.key ≠ t.key))) := by
    rw [List.perm_iff_count]
    intro a
    have h1 := List.perm_iff_count.1 (List.filter_append_perm (fun x : Task => decide (x.key ≠ t.key)) (surv s.ul)) a
    simp only [pipe, hi, surv_snoc, List.count_append, List.count_cons] at h1 ⊢
    simp only [decide_not, Bool.not_not] at h1 ⊢
    omega
  have hp := taskRegs_perm hperm
  rw [taskRegs_append, List.perm_iff_count] at hp
  rw [List.perm_iff_count]
  intro a
  have := hp a
  simp only [List.count_append] at this ⊢
  omega

theorem replaced_small (h : Inv c s) {k : Key} (hk : ¬ LargeUncommitted s k) :
    taskRegs ((surv s.ul).filter (fun x => ¬ (x.key ≠ k))) = [] := by
  rw [List.eq_nil_iff_forall_not_mem]
  intro r hr
  obtain ⟨t, ht, hr⟩ := List.mem_flatMap.1 hr
  rw [List.mem_filter] at ht
  obtain ⟨ht, hkey⟩ := ht
  have hkey : t.key = k := by simpa using hkey
  apply hk
  refine ⟨r.2, r.1, ?_⟩
  rw [h.ov.genCur, get_ofEntries, ← hkey, mem_surv.1 ht]
  simp only [Option.map_some, mem_optRegs hr]

/-! ### Background commit -/

theorem held_commitStart (h : Held c s rest) (hi : Inv c s) (hcm : s.commit = none) :
    Held c { s with
        com := some s.cur, cur := s.cur + 1
        commit := some ⟨s.log.tail, .started⟩
        cl := s.ul, ul := [] } rest := by
  unfold Held at h ⊢
  rw [hcm] at h
  refine h.perm ?_
  have h1 : effRegs c s.pages (some ⟨s.log.tail, .started⟩) = effRegs c s.pages none := rfl
  rw [List.perm_iff_count]
  intro a
  simp only [h1, pipe, taskRegs_append, earlyRegs, isEarly, rem, tdo, wrk, entRegs, List.count_append, List.flatMap_nil,
    List.count_nil, if_true, Bool.false_eq_true, if_false, surv, List.foldl_nil, List.nil_append]
  simp only [taskRegs, List.flatMap_nil, List.count_nil]
  omega

theorem held_group (hc : c.Ok) (h : Held c s rest) (hinv : Inv c s) {g upTo : Nat} {es es' : List (Key × Option Data)}
    {ws : List (Nat × List Byte)} {a' : KvAlloc} {junk : Nat → Byte} (hg : s.com = some g)
    (hcm : s.commit = some ⟨upTo, .started⟩) (hes : es.Perm (s.gens g))
    (hmv : moveAll junk s.alloc es = (a', some (es', ws))) :
    Held c { s with alloc := a', commit := some ⟨upTo, .moving ws (groupsOf c es')⟩ } rest := by
  rw [(hinv.ov.genCom g hg).2, ofEntries_erase] at hes
  obtain ⟨new, hi, hregs, _, _⟩ := moveAll_spec hc h hmv
  have hrem : (rem (some ⟨upTo, .moving ws (groupsOf c es')⟩)).Perm es' := by
    have : rem (some ⟨upTo, .moving ws (groupsOf c es')⟩) = (groupsOf c es').flatMap (·.2) := by
      simp [rem, tdo, wrk]
    rw [this]; exact groups_perm hc es'
  rw [hcm] at hi
  refine hi.perm ?_
  have h1 : effRegs c s.pages (some ⟨upTo, .moving ws (groupsOf c es')⟩) = effRegs c s.pages (some ⟨upTo, .started⟩) := rfl
  have h2 := List.perm_iff_count.1 ((entRegs_perm hrem).trans hregs)
  have h3 := List.perm_iff_count.1 (entRegs_perm hes)
  rw [List.perm_iff_count]
  intro a
  have h2 := h2 a
  have h3 := h3 a
  rw [erase_regs] at h3
  rw [List.count_append] at h2
  have h4 : entRegs (rem (some ⟨upTo, .started⟩)) = [] := rfl
  have h5 : earlyRegs (some ⟨upTo, .started⟩) s.cl = taskRegs (surv s.cl) := rfl
  have h6 : earlyRegs (some ⟨upTo, .moving ws (groupsOf c es')⟩) s.cl = [] := rfl
  simp only [h1, h4, h5, h6, List.count_append, List.count_nil]
  omega

theorem held_bundleRead (h : Held c s rest) (hinv : Inv c s) {upTo i : Nat} {pre post : List Group}
    {es : List (Key × Option Data)} {work : List Work} {comp : List (Nat × List Byte)} {ts : List (Key × Data)}
    (hcm : s.commit = some ⟨upTo, .updating (pre ++ (i, es) :: post) work comp⟩)
    (hts : bundleDeserialise (s.pages i) = some ts) :
    Held c { s with
        commit := some ⟨upTo, .updating (pre ++ post) (⟨i, collectMap ts, es⟩ :: work) comp⟩ } rest := by
  have hp := hinv.page
  rw [hcm] at hp
  have hn := hp.nodup
  simp only [tdo, wrk, cmp] at hn
  obtain ⟨n1, n2, n3, n4, n5, n6⟩ := nodup_split hn
  have hiw : i ∉ work.map (·.idx) := n4 i (by simp)
  have hic : i ∉ comp.map (·.1) := n5 i (by simp)
  obtain ⟨ts', e', hok⟩ := hp.disk i
  rw [hts] at e'
  cases e'
  have hcoll := collectMap_eq ts hok.1
  unfold Held at h ⊢
  rw [hcm] at h
  refine h.commit rfl rfl ?_ ?_
  · rw [List.perm_iff_count]
    intro a
    simp only [rem, tdo, wrk, List.flatMap_append, List.flatMap_cons, List.count_append]
    omega
  · intro j
    by_cases hj : j = i
    · subst hj
      rw [eff_disk (cm := some ⟨upTo, .updating (pre ++ (j, es) :: post) work comp⟩) hiw hic, hts]
      simp only [eff, wrk, List.find?_cons, decide_true, Option.getD_some, hcoll]
      exact List.reverse_perm ts
    · have hij : i ≠ j := Ne.symm hj
      simp only [eff, wrk, cmp, List.find?_cons, hij, decide_false]
      exact .refl _

theorem held_bundleSerialise (h : Held c s rest) (hinv : Inv c s) {upTo i : Nat} {todo : List Group}
    {pre post : List Work} {m order : List (Key × Data)} {comp : List (Nat × List Byte)} {page : List Byte}
    {junk : Nat → Byte}
    (hcm : s.commit = some ⟨upTo, .updating todo (pre ++ ⟨i, m, []⟩ :: post) comp⟩)
    (hord : order.Perm m) (hser : serialiseBundle (2 ^ c.heap.pages.spage) junk order = some page) :
    Held c { s with commit := some ⟨upTo, .updating todo (pre ++ post) ((i, page) :: comp)⟩ } rest := by
  have hp := hinv.page
  rw [hcm] at hp
  have hn := hp.nodup
  simp only [tdo, wrk, cmp] at hn
  obtain ⟨n1, n2, n3, n4, n5, n6⟩ := nodup_split hn
  have hmok : MapOk c i m := hp.work ⟨i, m, []⟩ (by simp [wrk])
  have hook : MapOk c i order := ⟨(hord.map _).nodup_iff.2 hmok.1, fun t ht => hmok.2 t (hord.mem_iff.1 ht)⟩
  have hdes := (bundle_roundtrip _ junk order (fun t ht => ⟨(hook.2 t ht).1, (hook.2 t ht).2.1⟩) hser).2
  have hiw : i ∉ (pre ++ post).map (·.idx) := by
    rw [List.map_append, List.map_cons, List.nodup_middle, List.nodup_cons] at n2
    rw [List.map_append]; exact n2.1
  unfold Held at h ⊢
  rw [hcm] at h
  refine h.commit rfl rfl ?_ ?_
  · rw [List.perm_iff_count]
    intro a
    simp only [rem, tdo, wrk, List.flatMap_append, List.flatMap_cons, List.count_append, List.count_nil]
    omega
  · intro j
    by_cases hj : j = i
    · subst hj
      have e1 : eff s.pages (some ⟨upTo, .updating todo (pre ++ ⟨j, m, []⟩ :: post) comp⟩) j = m :=
        eff_work (cm := some ⟨upTo, .updating todo (pre ++ ⟨j, m, []⟩ :: post) comp⟩) (w := ⟨j, m, []⟩) n2 (by simp [wrk])
      have hfn : (pre ++ post).find? (fun w => w.idx = j) = none := by
        rw [List.find?_eq_none]
        intro w hw
        simp only [decide_eq_true_eq]
        exact fun e => hiw (List.mem_map.2 ⟨w, hw, e⟩)
      rw [e1]
      simp only [eff, wrk, cmp, hfn, List.find?_cons, decide_true, hdes, Option.getD_some]
      exact hord
    · have hij : i ≠ j := Ne.symm hj
      simp only [eff, wrk, cmp, List.find?_cons, List.find?_append, hij, decide_false]
      exact .refl _

theorem held_bundleWritten (h : Held c s rest) (hinv : Inv c s) {upTo i : Nat} {todo : List Group}
    {work : List Work} {pre post : List (Nat × List Byte)} {page : List Byte}
    (hcm : s.commit = some ⟨upTo, .updating todo work (pre ++ (i, page) :: post)⟩) :
    Held c { s with
        pages := fun j => if j = i then page else s.pages j
        commit := some ⟨upTo, .updating todo work (pre ++ post)⟩ } rest := by
  have hp := hinv.page
  rw [hcm] at hp
  have hn := hp.nodup
  simp only [tdo, wrk, cmp] at hn
  obtain ⟨n1, n2, n3, n4, n5, n6⟩ := nodup_split hn
  have hiw : i ∉ work.map (·.idx) := fun hx => n6 i hx (by simp)
  have hic : i ∉ (pre ++ post).map (·.1) := by
    rw [List.map_append, List.map_cons, List.nodup_middle, List.nodup_cons] at n3
    rw [List.map_append]; exact n3.1
  unfold Held at h ⊢
  rw [hcm] at h
  refine h.commit rfl rfl (.refl _) ?_
  intro j
  by_cases hj : j = i
  · subst hj
    rw [eff_disk (cm := some ⟨upTo, .updating todo work (pre ++ post)⟩) hiw hic,
      eff_comp (cm := some ⟨upTo, .updating todo work (pre ++ (j, page) :: post)⟩) (p := (j, page)) hiw n3 (by simp [cmp])]
    simp
  · have hij : i ≠ j := Ne.symm hj
    simp only [eff, wrk, cmp, List.find?_cons, List.find?_append, hij, hj, decide_false, if_false]
    exact .refl _

theorem held_bundleEntry (hc : c.Ok) (h : Held c s rest) (hinv : Inv c s) {upTo i : Nat} {todo : List Group}
    {pre post : List Work} {m m' : List (Key × Data)} {e : Key × Option Data} {es : List (Key × Option Data)}
    {comp : List (Nat × List Byte)} {a' : KvAlloc}
    (hcm : s.commit = some ⟨upTo, .updating todo (pre ++ ⟨i, m, e :: es⟩ :: post) comp⟩)
    (happ : applyEntry s.alloc m e = (a', some m')) :
    Held c { s with
        alloc := a'
        commit := some ⟨upTo, .updating todo (pre ++ ⟨i, m', es⟩ :: post) comp⟩ } rest := by
  have hp := hinv.page
  unfold Held at h ⊢
  rw [hcm] at hp h
  have hn := hp.nodup
  simp only [tdo, wrk, cmp] at hn
  obtain ⟨n1, n2, n3, n4, n5, n6⟩ := nodup_split hn
  have hmok : MapOk c i m := hp.work ⟨i, m, e :: es⟩ (by simp [wrk])
  have hilt : i < c.bundleCount := hp.below i (by simp [wrk])
  have hrem : (rem (some ⟨upTo, .updating todo (pre ++ ⟨i, m, e :: es⟩ :: post) comp⟩)).Perm
      (e :: rem (some ⟨upTo, .updating todo (pre ++ ⟨i, m', es⟩ :: post) comp⟩)) := by
    rw [List.perm_iff_count]
    intro a
    simp only [rem, tdo, wrk, List.flatMap_append, List.flatMap_cons, List.count_append, List.count_cons]
    omega
  have he1 : eff s.pages (some ⟨upTo, .updating todo (pre ++ ⟨i, m, e :: es⟩ :: post) comp⟩) i = m :=
    eff_work (cm := some ⟨upTo, .updating todo (pre ++ ⟨i, m, e :: es⟩ :: post) comp⟩) (w := ⟨i, m, e :: es⟩) n2
      (by simp [wrk])
  have he2 : eff s.pages (some ⟨upTo, .updating todo (pre ++ ⟨i, m', es⟩ :: post) comp⟩) i = m' :=
    eff_work (cm := some ⟨upTo, .updating todo (pre ++ ⟨i, m', es⟩ :: post) comp⟩) (w := ⟨i, m', es⟩)
      (by simpa [wrk] using n2) (by simp [wrk])
  have heff : ∀ j, j ≠ i → eff s.pages (some ⟨upTo, .updating todo (pre ++ ⟨i, m', es⟩ :: post) comp⟩) j =
      eff s.pages (some ⟨upTo, .updating todo (pre ++ ⟨i, m, e :: es⟩ :: post) comp⟩) j := by
    intro j hj
    have hij : i ≠ j := Ne.symm hj
    simp only [eff, wrk, cmp, List.find?_cons, List.find?_append, hij, decide_false]
  generalize hcmA : (some ⟨upTo, .updating todo (pre ++ ⟨i, m, e :: es⟩ :: post) comp⟩ : Option Commit) = A at *
  generalize hcmB : (some ⟨upTo, .updating todo (pre ++ ⟨i, m', es⟩ :: post) comp⟩ : Option Commit) = B at *
  have hEA : isEarly A = false := by rw [← hcmA]; rfl
  have hEB : isEarly B = false := by rw [← hcmB]; rfl
  have hsplit := List.perm_iff_count.1 (regs_split hmok.1 e.1)
  have hremc := List.perm_iff_count.1 (entRegs_perm hrem)
  have hmid : KvAlloc.Inv c.heap s.alloc (optRegs (tget m e.1) ++ (taskRegs (s.preps.map (·.task)) ++ (taskRegs (pipe
      s.ready s.queue s.pending s.log.inflight s.inserting s.ul) ++ (earlyRegs B s.cl ++ (entRegs (rem B) ++
      (((List.range c.bundleCount).flatMap (fun j => if j = i then mapRegs (putEntry m e) else mapRegs (eff s.pages A j)))
        ++ rest)))))) := by
    refine h.perm ?_
    rw [List.perm_iff_count]
    intro a
    have h1 := count_flatMap_update (List.range c.bundleCount) List.nodup_range (fun j => mapRegs (eff s.pages A j))
      (fun j => if j = i then mapRegs (putEntry m e) else mapRegs (eff s.pages A j)) i (by simpa using hilt)
      (fun j _ hj => by simp only [hj, if_false]) a
    have h4 := congrArg (List.count a) (putEntry_regs m e)
    have h2 := hsplit a
    have h3 := hremc a
    generalize (List.range c.bundleCount).flatMap
      (fun j => if j = i then mapRegs (putEntry m e) else mapRegs (eff s.pages A j)) = F at h1 ⊢
    simp only [if_true, he1] at h1
    change List.count a (effRegs c s.pages A) + _ = _ at h1
    simp only [entRegs, List.flatMap_cons] at h3
    simp only [earlyRegs, hEA, hEB, Bool.false_eq_true, if_false, List.count_append, List.count_nil, entRegs]
      at h1 h2 h3 h4 ⊢
    omega
  obtain ⟨hi', hm'⟩ := applyEntry_spec hc hmid happ
  have heffB : ∀ j, mapRegs (eff s.pages B j) = if j = i then mapRegs (putEntry m e) else mapRegs (eff s.pages A j) := by
    intro j
    by_cases hj : j = i
    · subst hj; rw [if_pos rfl, he2, hm']
    · rw [if_neg hj, heff j hj]
  have : effRegs c s.pages B = (List.range c.bundleCount).flatMap
      (fun j => if j = i then mapRegs (putEntry m e) else mapRegs (eff s.pages A j)) := by
    unfold effRegs
    congr 1
    funext j
    exact heffB j
  unfold AllocAt
  simp only
  rw [this]
  exact hi'

def isDead : Option Commit → Bool
  | some ⟨_, .dead⟩ => true
  | _ => false

/-- one step of an execution without faults: nothing is lost unless a large uncommitted value is replaced or a
commit dies -/
theorem held_step (hc : c.Ok) (hinv : Inv c s) (h : isDead s.commit = true ∨ Held c s rest) (hs : Step c s s')
    (hf : s'.faults = []) (hl : ∀ t, s'.applied = s.applied ++ [t] → ¬ LargeUncommitted s t.key) :
    isDead s'.commit = true ∨ Held c s' rest := by
  rcases h with h | h
  · left
    cases hs <;> first
      | exact h
      | (rename_i hcm; rw [hcm] at h; simp [isDead] at h; done)
      | (rename_i hcm _; rw [hcm] at h; simp [isDead] at h; done)
      | (rename_i hcm _ _; rw [hcm] at h; simp [isDead] at h; done)
  · cases hs with
    | writeInline raw data h1 h2 => exact .inr (held_writeInline h raw data)
    | writeHeap raw data junk h1 h2 h3 => exact .inr (held_writeHeap hc h raw data junk h3)
    | heapDevice heap' h1 => exact .inr h
    | heapWritten h1 => exact .inr (held_heapWritten h h1)
    | send h1 => exact .inr (held_send h h1)
    | delete raw => exact .inr (held_delete h raw)
    | recv h1 => exact .inr (held_recv h h1)
    | flush j1 j2 h1 h2 => exact .inr (held_flush h h2 _)
    | logDevice data' h1 => exact .inr h
    | logWritten h1 h2 => exact .inr (held_logWritten h _)
    | complete n h1 h2 => exact .inr (held_complete h h1 h2)
    | @apply t r h1 =>
      have := held_apply h h1
      rw [replaced_small hinv (hl t rfl), List.nil_append] at this
      exact .inr this
    | commitStart h1 h2 h3 => exact .inr (held_commitStart h hinv h2)
    | group junk h1 h2 h3 h4 => exact .inr (held_group hc h hinv h1 h2 h3 h4)
    | groupPanic junk h1 h2 h3 h4 => exact .inl rfl
    | moved h1 => right; unfold Held at h ⊢; rw [h1] at h; exact h
    | movedAll h1 => right; unfold Held at h ⊢; rw [h1] at h; exact h
    | bundleRead h1 h2 => exact .inr (held_bundleRead h hinv h1 h2)
    | bundleEntry h1 h2 => exact .inr (held_bundleEntry hc h hinv h1 h2)
    | bundleSerialise junk h1 h2 h3 => exact .inr (held_bundleSerialise h hinv h1 h2 h3)
    | readPanic => simp at hf
    | entryPanic => simp at hf
    | serialisePanic => simp at hf
    | bundleWritten h1 => exact .inr (held_bundleWritten h hinv h1)
    | headWrite h1 => right; unfold Held at h ⊢; rw [h1] at h; exact h
    | commitEnd h1 => right; unfold Held at h ⊢; rw [h1] at h; exact h

/-! ### Formatting and restarting -/

theorem held_fresh {heap logData : Mem} (h : fresh c heap logData = some s) : Held c s [] := by
  unfold fresh at h
  cases ha : KvAlloc.new c.heap.base c.heap.heap c.heap.pages with
  | none => rw [ha] at h; cases h
  | some a =>
    rw [ha] at h
    cases h
    have he : ∀ i, eff (fun _ : Nat => List.replicate (2 ^ c.heap.pages.spage) (0 : Byte)) none i = [] := by
      intro i; rw [eff_idle rfl rfl, deser_zero]; rfl
    have h0 : effRegs c (fun _ : Nat => List.replicate (2 ^ c.heap.pages.spage) (0 : Byte)) none = [] := by
      simp [effRegs, he, mapRegs]
    unfold Held AllocAt
    simp only [h0]
    simpa [taskRegs, pipe, surv, LogSt.fresh, earlyRegs, isEarly, entRegs, rem, tdo, wrk] using new_inv ha

theorem mem_ofEntries {es : List (Key × Option Data)} {e : Key × Option Data} (h : e ∈ Overlay.ofEntries es) : e ∈ es := by
  induction es using snocInd with
  | h0 => cases h
  | h1 l x ih =>
    rw [ofEntries_snoc] at h
    unfold Overlay.insert at h
    rcases List.mem_cons.1 h with h | h
    · simp [h]
    · exact List.mem_append_left _ (ih (List.mem_filter.1 h).1)

/-- after a restart exactly the regions of the bundles' tuples are allocated -/
theorem held_load (hc : c.Ok) (h : Inv c s) (hl : load c s = some s') (hf : s'.faults = []) : Held c s' [] := by
  have hnew : ∃ a0, KvAlloc.new c.heap.base c.heap.heap c.heap.pages = some a0 := by
    unfold load at hl
    split at hl
    · exact ⟨_, by assumption⟩
    · cases hl
  obtain ⟨a0, hnew⟩ := hnew
  obtain ⟨s2, e2, _, _, _, h5⟩ := load_spec hc h hnew
  rw [hl] at e2
  cases e2
  have hi := h5 hf
  have hgen := hi.ov.genCur
  have hdisk := h.disk
  have hpw : ((List.range c.bundleCount).flatMap
      (fun i => mapRegs ((bundleDeserialise (s.pages i)).getD []))).Pairwise (RegionDisj c.heap.pages) := by
    apply pairwise_flatMap_of List.nodup_range
    · intro i hi; exact hdisk.pw i (by simpa using hi)
    · intro i hi j hj hij x hx y hy
      exact hdisk.apart i j (by simpa using hi) (by simpa using hj) hij x y (.inl hx) (.inl hy)
  obtain ⟨a, ha, hinv⟩ := kvMarkAll_inv hc (new_inv hnew) (regs := (List.range c.bundleCount).flatMap
      (fun i => mapRegs ((bundleDeserialise (s.pages i)).getD []))) (by
        intro r hr
        obtain ⟨i, hi, hr⟩ := List.mem_flatMap.1 hr
        exact hdisk.ok i (by simpa using hi) r (.inl hr)) (by simpa using hpw)
  unfold load at hl
  rw [hnew, loadRegs_eq h.page.disk] at hl
  split at hl
  · rename_i a1 regs es q1 q2 q3
    cases q1
    cases q2
    rw [ha] at hl
    simp only [Option.some.injEq] at hl
    subst hl
    simp only [if_true] at hgen
    have hno : es.any isHeapEntry = false := by
      cases hx : es.any isHeapEntry with
      | false => rfl
      | true => simp [hx] at hf
    have hu : taskRegs (surv (Commit.replayed s.commit s.cl ++ s.ul ++ s.inserting)) = [] := by
      rw [← erase_regs, ← ofEntries_erase, ← hgen, List.eq_nil_iff_forall_not_mem]
      intro r hr
      obtain ⟨e, he, hr⟩ := List.mem_flatMap.1 hr
      have := List.any_eq_false.1 hno e (mem_ofEntries he)
      apply this
      unfold isHeapEntry
      rw [mem_optRegs hr]
    have he : effRegs c s.pages none = (List.range c.bundleCount).flatMap
        (fun i => mapRegs ((bundleDeserialise (s.pages i)).getD [])) := by
      unfold effRegs
      congr 1
    unfold Held AllocAt
    have hp : pipe [] [] [] [] [] (Commit.replayed s.commit s.cl ++ s.ul ++ s.inserting) =
        surv (Commit.replayed s.commit s.cl ++ s.ul ++ s.inserting) := by simp [pipe]
    simp only [hp, hu, he, List.map_nil]
    simpa [taskRegs, earlyRegs, isEarly, entRegs, rem, tdo, wrk] using hinv
  · cases hl

theorem thrifty_reach (h : Thrifty c s) : Reach c s := by
  induction h with
  | fresh h => exact .fresh h
  | restart h hl => exact .restart h hl
  | step _ hs _ ih => exact .step ih hs

theorem thrifty_held (hc : c.Ok) (h : Thrifty c s) (hf : s.faults = []) (hk : NoEmptyKey s) :
    isDead s.commit = true ∨ Held c s [] := by
  induction h with
  | fresh h => exact .inr (held_fresh h)
  | @restart s s' h hl =>
    obtain ⟨⟨x, hx⟩, hy⟩ := load_mono hl
    have h1 := hx ▸ hf
    rw [List.append_eq_nil_iff] at h1
    exact .inr (held_load hc (reach_inv hc h h1.2 (fun t ht => hk t (by rw [hy]; exact ht))) hl hf)
  | @step s s' h hs hn ih =>
    obtain ⟨⟨x, hx⟩, y, hy⟩ := step_mono hs
    have h1 := hx ▸ hf
    rw [List.append_eq_nil_iff] at h1
    have hk' : NoEmptyKey s := fun t ht => hk t (by rw [hy]; simp [ht])
    exact held_step hc (reach_inv hc (thrifty_reach h) h1.2 hk') (ih h1.2 hk') hs hf hn

/-! ### At rest -/

theorem atRest_idle (h : Inv c s) (hr : AtRest s) : s.commit = none ∧ s.cl = [] ∧ surv s.ul = [] := by
  have hcm : s.commit = none := by
    have := com_of_commit h
    rw [hr.committed.1] at this
    cases hx : s.commit with
    | none => rfl
    | some x => rw [hx] at this; cases this
  refine ⟨hcm, h.ov.idle hr.committed.1, ?_⟩
  have := h.ov.genCur
  rw [hr.committed.2, ofEntries_erase] at this
  simpa using this.symm

theorem inUse_iff (hc : c.Ok) (h : Inv c s) (hr : AtRest s) (r : Nat × Nat) :
    InUse c s r ↔ r ∈ effRegs c s.pages s.commit := by
  obtain ⟨h1, h2, h3⟩ := atRest_idle h hr
  have hnone : ∀ k, lastFor s.ul k = none := by
    intro k
    cases hx : lastFor s.ul k with
    | none => rfl
    | some t => have := lastFor_mem_surv hx; rw [h3] at this; cases this
  have hread : ∀ k, readTuple c s k = tget (eff s.pages s.commit (bundleOf c k)) k := by
    intro k
    rw [readTuple_lasts h, hnone k, h2, h1, pageGet_eq, eff_idle rfl rfl]
    rfl
  constructor
  · rintro ⟨k, hk⟩
    rw [hread] at hk
    exact mem_effRegs (bundleOf_lt hc k) (mem_mapRegs (tget_mem hk) (by simp [dataRegs]))
  · intro hm
    obtain ⟨i, _, hm⟩ := List.mem_flatMap.1 hm
    obtain ⟨t, ht, hm⟩ := List.mem_flatMap.1 hm
    have hok := h.page.effOk i
    refine ⟨t.1, ?_⟩
    rw [hread, (hok.2 t ht).2.2, tget_of_mem hok.1 ht]
    have : r ∈ optRegs (some t.2) := hm
    exact mem_optRegs this

theorem rest_live (h : Inv c s) (hr : AtRest s) {rest : List (Nat × Nat)} (hh : Held c s rest) :
    KvAlloc.Inv c.heap s.alloc (effRegs c s.pages s.commit ++ rest) := by
  obtain ⟨h1, h2, h3⟩ := atRest_idle h hr
  have hout := hr.calls
  simp only [outstanding, List.append_eq_nil_iff] at hout
  obtain ⟨⟨⟨⟨⟨o1, o2⟩, o3⟩, o4⟩, o5⟩, o6⟩ := hout
  unfold Held AllocAt at hh
  simp only [pipe, o1, o2, o3, o4, o5, o6, h3, h1] at hh
  rw [h1]
  simpa [taskRegs, earlyRegs, isEarly, entRegs, rem, tdo, wrk] using hh

theorem room_iff {live : List (Nat × Nat)} {used : Nat × Nat → Prop} (hu : ∀ r, used r ↔ r ∈ live) (size : Nat) :
    Room c used size ↔ ∃ n, Buddy.Vac (Avail c.heap live) (contPow2 c.heap.pages size) n := by
  unfold Room
  simp only [vac_avail_iff, hu]

/-- a heap write fails exactly if there is no room beside the live regions -/
theorem prepare_iff (hc : c.Ok) {a : KvAlloc} {live : List (Nat × Nat)} (hi : KvAlloc.Inv c.heap a live)
    {used : Nat × Nat → Prop} (hu : ∀ r, used r ↔ r ∈ live) (hsl : c.heap.pages.spage ≤ c.heap.pages.lpage)
    {data : List Byte} (h1 : data.length ≤ objectSizeMax) (h2 : c.inlineThreshold < data.length)
    (h3 : data.length ≤ 2 ^ c.heap.pages.lpage) (junk : Nat → Byte) (dev : Mem) :
    ((writePrepare c.inlineThreshold junk a dev data).1 = .err .outOfSpace ↔ ¬ Room c used data.length) ∧
    (writePrepare c.inlineThreshold junk a dev data).1 ≠ .panic := by
  have hsp := hc.spage
  have hk : contPow2 c.heap.pages data.length ≤ c.heap.pages.lpage := Nat.max_le.2 ⟨hsl, nextPow2Exp_le h3⟩
  rw [room_iff hu]
  unfold writePrepare
  rw [if_neg (by omega), if_neg (by omega)]
  unfold allocateOnHeap
  rcases hi.alloc (by omega) hc.lpage data.length hk with ⟨off, a', e, _, ⟨n, hv, _⟩, _⟩ | ⟨e, hv⟩
  · rw [e]
    simp only [reduceCtorEq, false_iff, not_not, ne_eq, not_false_eq_true, and_true]
    exact ⟨n, hv⟩
  · rw [e]
    simp only [true_iff, ne_eq, reduceCtorEq, not_false_eq_true, and_true]
    rintro ⟨n, hn⟩
    exact hv n hn

end Kv
end Blobd
