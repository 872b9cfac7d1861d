import Verif.Proofs.KvStoreBundle
/-! # KV store: the invariant over all executions, reading, restarting -/
namespace Blobd
namespace Kv
open Spec KvAlloc

theorem step_mono {c : StoreCfg} {s s' : St} (h : Step c s s') :
    (∃ x, s'.faults = x ++ s.faults) ∧ (∃ y, s'.issued = s.issued ++ y) := by
  cases h <;> refine ⟨?_, ?_⟩ <;>
    first
    | exact ⟨[], rfl⟩
    | exact ⟨[], (List.append_nil _).symm⟩
    | exact ⟨[_], rfl⟩
    | exact ⟨_, rfl⟩

theorem inv_step {c : StoreCfg} (hc : c.Ok) {s s' : St} (h : Inv c s) (hs : Step c s s') (hf : s'.faults = [])
    (hk : NoEmptyKey s') : Inv c s' := by
  cases hs with
  | writeInline raw data h1 h2 => exact inv_writeInline hc h raw data (hk ⟨Key.fromRaw c.H raw, some (.inline data), some data⟩ (List.mem_append_right _ (List.mem_singleton.2 rfl))) h1
  | writeHeap raw data junk h1 h2 h3 => exact inv_writeHeap hc h raw data junk (hk _ (List.mem_append_right _ (List.mem_singleton.2 rfl))) h1 h2 h3
  | heapDevice heap' h1 => exact inv_heapDevice hc h h1
  | heapWritten h1 => exact inv_heapWritten hc h h1
  | send h1 => exact inv_send h h1
  | delete raw => exact inv_delete hc h raw (hk ⟨Key.fromRaw c.H raw, none, none⟩ (List.mem_append_right _ (List.mem_singleton.2 rfl)))
  | recv h1 => exact inv_recv h h1
  | flush j1 j2 h1 h2 =>
    refine inv_flush hc h h2 _ ?_
    simp only [List.append_eq_nil_iff] at hf
    by_cases hb : ((encodeTasks s.pending).map (fun b => (padFlush c.log j1 b).length)).getD 0 ≤ c.log.bufSize
    · exact hb
    · rw [if_neg hb] at hf; simp at hf
  | logDevice data' h1 => exact inv_logDevice h h1
  | logWritten h1 h2 => exact inv_logWritten h h1 h2
  | complete n h1 h2 => exact inv_complete h h1 h2
  | apply h1 => exact inv_apply h h1
  | commitStart h1 h2 h3 => exact inv_commitStart h h1 h2
  | group junk h1 h2 h3 h4 => exact inv_group hc h h1 h2 h3 h4
  | groupPanic junk h1 h2 h3 h4 => exact inv_groupPanic hc h h2 h4
  | moved h1 => exact inv_moved hc h h1
  | movedAll h1 => exact inv_movedAll h h1
  | bundleRead h1 h2 => exact inv_bundleRead h h1 h2
  | bundleEntry h1 h2 => exact inv_bundleEntry hc h h1 h2
  | bundleSerialise junk h1 h2 h3 => exact inv_bundleSerialise h h1 h2 h3
  | readPanic => simp at hf
  | entryPanic => simp at hf
  | serialisePanic => simp at hf
  | bundleWritten h1 => exact inv_bundleWritten h h1
  | headWrite h1 => exact inv_headWrite hc h h1
  | commitEnd h1 => exact inv_commitEnd h h1

/-! ### Reading -/

theorem surv_ul_pipe {ready queue pending ins ul : List Task} {fl : List Flush} {t : Task} (h : t ∈ surv ul) :
    t ∈ pipe ready queue pending fl ins ul := by simp [pipe, h]

theorem ins_pipe {ready queue pending ins ul : List Task} {fl : List Flush} {t : Task} (h : t ∈ ins) :
    t ∈ pipe ready queue pending fl ins ul := by simp [pipe, h]

theorem not_shadow {c : StoreCfg} {heap : Mem} {pages : Nat → List Byte} {cm : Option Commit} {base cl ul : List Task}
    (hv : ValPart c heap pages cm base cl ul) {k : Key} (h1 : lastFor ul k = none) (h2 : lastFor cl k = none) :
    ¬ Shadow cm cl ul k := by
  cases cm with
  | none => simp [Shadow, h1]
  | some x =>
    simp only [Shadow]
    split
    · simp [h2]
    · intro hm
      obtain ⟨e, he, rfl⟩ := List.mem_map.1 hm
      obtain ⟨t, ht, _⟩ := hv.ents e he
      rw [h2] at ht; cases ht

/-- a tuple on a bundle page of a key no overlay knows holds the value of the map -/
theorem page_value {c : StoreCfg} {heap : Mem} {pages : Nat → List Byte} {cm : Option Commit} {base cl ul : List Task}
    (hp : PagePart c pages cm cl)
    (hv : ValPart c heap pages cm base cl ul) {k : Key} (h1 : lastFor ul k = none) (h2 : lastFor cl k = none) :
    (pageGet (pages (bundleOf c k)) k).map (valueOf heap) = specMap base k := by
  rw [hp.same k h2, hv.tup k (not_shadow hv h1 h2), specMap_append_none h2]

theorem read_value {c : StoreCfg} {s : St} (h : Inv c s) (k : Key) :
    found s (readTuple c s k) = specMap s.applied k := by
  unfold found readTuple
  rw [h.ov.genCur, get_ofEntries, h.ov.split]
  cases h1 : lastFor s.ul k with
  | some t =>
    rw [specMap_append_some h1]
    exact h.pipe.val t (surv_ul_pipe (lastFor_mem_surv h1))
  | none =>
    rw [specMap_append_none h1]
    simp only [Option.map_none]
    cases hcom : s.com with
    | none =>
      have := h.ov.idle hcom
      have h2 : lastFor s.cl k = none := by rw [this]; rfl
      rw [specMap_append_none h2]
      exact page_value h.page h.vals h1 h2
    | some g =>
      simp only [Option.bind_some]
      rw [(h.ov.genCom g hcom).2, get_ofEntries]
      cases h2 : lastFor s.cl k with
      | some t =>
        rw [specMap_append_some h2]
        exact h.vals.cls t (lastFor_mem_surv h2)
      | none =>
        rw [specMap_append_none h2]
        exact page_value h.page h.vals h1 h2

/-! ### Formatting -/

theorem deser_zero (n : Nat) : bundleDeserialise (List.replicate n 0) = some [] := by
  cases n with
  | zero => rfl
  | succ n => simp [bundleDeserialise, List.replicate_succ, bundleDeserialiseAux]

theorem inv_fresh {c : StoreCfg} (hc : c.Ok) {heap logData : Mem} {s : St} (h : fresh c heap logData = some s) :
    Inv c s := by
  unfold fresh at h
  cases ha : KvAlloc.new c.heap.base c.heap.heap c.heap.pages with
  | none => rw [ha] at h; cases h
  | some a =>
    rw [ha] at h
    cases h
    have hz : ∀ i : Nat, bundleDeserialise ((fun _ : Nat => List.replicate (2 ^ c.heap.pages.spage) (0 : Byte)) i) =
      some [] := fun _ => deser_zero _
    have he : ∀ i, eff (fun _ : Nat => List.replicate (2 ^ c.heap.pages.spage) (0 : Byte)) none i = [] := by
      intro i; rw [eff_idle rfl rfl, hz i]; rfl
    refine ⟨⟨[], LogInv.fresh hc.logOk _, rfl, by simp [openAt]⟩, ⟨rfl, rfl, by simp, fun _ => rfl, fun _ _ => rfl, rfl⟩,
      ⟨by simp [pipe, surv, LogSt.fresh], by simp [pipe, surv, LogSt.fresh]⟩, by simp, ?_, ⟨[], ?_⟩,
      ⟨by simp [wrt], by simp [wrt], by simp [wrt]⟩, ?_, ?_⟩
    · refine ⟨fun i => ⟨[], hz i, by simp [MapOk]⟩, by simp [cmp], by simp [wrk], by simp [tdo, wrk, cmp],
        by simp [tdo, wrk, cmp], by simp [tdo], by simp [wrk], by simp [rem, tdo, wrk], ?_⟩
      intro k _
      rw [pageGet_eq, eff_idle rfl rfl]
    · have h0 : effRegs c (fun _ : Nat => List.replicate (2 ^ c.heap.pages.spage) (0 : Byte)) none = [] := by
        simp [effRegs, he, mapRegs]
      simp only [h0]
      simpa [taskRegs, pipe, surv, LogSt.fresh, earlyRegs, isEarly, entRegs, rem, tdo, wrk] using new_inv ha
    · have hno : ∀ i r, ¬ Around c (fun _ : Nat => List.replicate (2 ^ c.heap.pages.spage) (0 : Byte)) none i r := by
        rintro i r (hr | hr | ⟨e, he', _⟩)
        · rw [hz i] at hr; simp [mapRegs] at hr
        · rw [he] at hr; simp [mapRegs] at hr
        · simp [rem, tdo, wrk] at he'
      exact ⟨fun i j _ _ _ r r' hr => absurd hr (hno i r), fun i _ => by rw [hz i]; simp [mapRegs],
        fun i _ r hr => absurd hr (hno i r)⟩
    · refine ⟨by simp [surv], by simp [surv], by simp [rem, tdo, wrk], by simp [surv], by simp [rem, tdo, wrk], ?_⟩
      intro k _
      rw [he]
      rfl

/-! ### Restarting -/

theorem kvMarkAll_inv {c : StoreCfg} (hc : c.Ok) {a : KvAlloc} {done regs : List (Nat × Nat)}
    (h : KvAlloc.Inv c.heap a done) (hok : ∀ r ∈ regs, RegionOk c.heap r)
    (hd : (regs ++ done).Pairwise (RegionDisj c.heap.pages)) :
    ∃ a', kvMarkAll a regs = some a' ∧ KvAlloc.Inv c.heap a' (regs ++ done) := by
  have hsp : 0 < c.heap.pages.spage := by have := hc.spage; omega
  induction regs generalizing a done with
  | nil => exact ⟨a, rfl, h⟩
  | cons r regs ih =>
    rw [List.cons_append, List.pairwise_cons] at hd
    obtain ⟨a1, e1, i1, _⟩ := h.mark hsp hc.lpage r (hok r (by simp)) (fun r' hr' => hd.1 r' (by simp [hr']))
    have hp : (regs ++ r :: done).Perm (r :: regs ++ done) := by
      simpa using (List.perm_middle (a := r) (l₁ := regs) (l₂ := done))
    obtain ⟨a2, e2, i2⟩ := ih (done := r :: done) i1 (fun r' hr' => hok r' (by simp [hr'])) (by
      rw [hp.pairwise_iff (fun {a b} (h : RegionDisj c.heap.pages a b) => RegionDisj.symm h), List.cons_append,
        List.pairwise_cons]
      exact hd)
    refine ⟨a2, ?_, i2.perm hp⟩
    simp only [kvMarkAll, e1, e2]

theorem loadRegs_eq {c : StoreCfg} {pages : Nat → List Byte}
    (h : ∀ i, ∃ ts, bundleDeserialise (pages i) = some ts ∧ MapOk c i ts) :
    loadRegs c pages = some ((List.range c.bundleCount).flatMap
      (fun i => mapRegs ((bundleDeserialise (pages i)).getD []))) := by
  unfold loadRegs
  have : ∀ (l : List Nat) (acc : List (Nat × Nat)), l.foldlM (fun acc i =>
      match bundleDeserialise (pages i) with
      | none => none
      | some ts => some (acc ++ ts.flatMap (fun t => dataRegs t.2))) acc =
      some (acc ++ l.flatMap (fun i => mapRegs ((bundleDeserialise (pages i)).getD []))) := by
    intro l
    induction l with
    | nil => intro acc; simp
    | cons i l ih =>
      intro acc
      obtain ⟨ts, hts, _⟩ := h i
      rw [List.foldlM_cons, hts]
      simp only [Option.bind_eq_bind, Option.bind_some]
      rw [ih, List.flatMap_cons, hts, List.append_assoc]
      rfl
  have h2 := this (List.range c.bundleCount) []
  rw [List.nil_append] at h2
  exact h2

theorem pairwise_flatMap_of {α β : Type} {R : β → β → Prop} {l : List α} {f : α → List β}
    (hn : l.Nodup) (h1 : ∀ a ∈ l, (f a).Pairwise R)
    (h2 : ∀ a ∈ l, ∀ b ∈ l, a ≠ b → ∀ x ∈ f a, ∀ y ∈ f b, R x y) : (l.flatMap f).Pairwise R := by
  induction l with
  | nil => simp
  | cons a l ih =>
    rw [List.nodup_cons] at hn
    rw [List.flatMap_cons, List.pairwise_append]
    refine ⟨h1 a (by simp), ih hn.2 (fun b hb => h1 b (by simp [hb])) (fun b hb d hd => h2 b (by simp [hb]) d (by simp [hd])), ?_⟩
    intro x hx y hy
    obtain ⟨b, hb, hy⟩ := List.mem_flatMap.1 hy
    exact h2 a (by simp) b (by simp [hb]) (fun e => hn.1 (e ▸ hb)) x hx y hy

/-- what is needed of a state to read from it -/
theorem load_spec {c : StoreCfg} (hc : c.Ok) {s : St} (h : Inv c s) {a0 : KvAlloc}
    (hnew : KvAlloc.new c.heap.base c.heap.heap c.heap.pages = some a0) :
    ∃ s', load c s = some s' ∧ s'.applied = s.applied ++ s.inserting ∧ s'.issued = s.issued ∧
      (∀ k, found s' (readTuple c s' k) = specMap (s.applied ++ s.inserting) k) ∧
      (s'.faults = [] → Inv c s') := by
  obtain ⟨⟨recs, hl, e1, e2⟩, hov, hpipe, hpreps, hpage, halloc, hws, hdisk, hvals⟩ := h
  have hrep := hl.replay hc.logOk
  -- the replayed tasks
  have hul : recTasks recs = Commit.replayed s.commit s.cl ++ s.ul ++ s.inserting := by
    rw [e1]
    congr 2
    cases hcm : s.commit with
    | none =>
      have : s.com = none := by
        have := hov.busyIff
        rw [hcm] at this
        cases hh : s.com with
        | none => rfl
        | some g => rw [hh] at this; cases this
      simp [openAt, Commit.replayed, hov.idle this]
    | some cm =>
      obtain ⟨u, ph⟩ := cm
      cases ph <;> simp [openAt, Commit.replayed]
  generalize hU : Commit.replayed s.commit s.cl ++ s.ul ++ s.inserting = U at hul
  -- the allocator
  have hpw : ((List.range c.bundleCount).flatMap
      (fun i => mapRegs ((bundleDeserialise (s.pages i)).getD []))).Pairwise (RegionDisj c.heap.pages) := by
    apply pairwise_flatMap_of List.nodup_range
    · intro i hi; exact hdisk.pw i (by simpa using hi)
    · intro i hi j hj hij x hx y hy
      exact hdisk.apart i j (by simpa using hi) (by simpa using hj) hij x y (.inl hx) (.inl hy)
  obtain ⟨a, ha, hinv⟩ := kvMarkAll_inv hc (new_inv hnew) (regs := (List.range c.bundleCount).flatMap
      (fun i => mapRegs ((bundleDeserialise (s.pages i)).getD []))) (by
        intro r hr
        obtain ⟨i, hi, hr⟩ := List.mem_flatMap.1 hr
        exact hdisk.ok i (by simpa using hi) r (.inl hr)) (by simpa using hpw)
  obtain ⟨base', hbase⟩ : ∃ b, b = (match s.commit with
          | some ⟨_, .headWritten⟩ => s.base ++ s.cl
          | _ => s.base) := ⟨_, rfl⟩
  have hload : load c s = some { s with
        alloc := a
        log := ⟨s.log.data, s.log.head, s.log.tail, s.log.tail, []⟩
        preps := [], ready := [], queue := [], pending := [], inserting := []
        gens := fun g => if g = 0 then Overlay.ofEntries (U.map Task.erase) else []
        cur := 0, com := none, commit := none
        applied := s.applied ++ s.inserting
        base := base'
        cl := []
        ul := U
        faults := (if (U.map Task.erase).any isHeapEntry then [.heapTupleInReplayedLog] else []) ++ s.faults } := by
    unfold load
    rw [hnew, loadRegs_eq hpage.disk, hrep, hul]
    simp only
    rw [ha, hU, hbase]
    cases s.commit <;> rfl
  have hgoodU : ∀ t ∈ surv U, TaskGood t ∧ TaskVal s.heap t := by
    intro t ht
    rw [← hU] at ht
    rcases surv_append ht with ht | ht
    · rcases surv_append ht with ht | ht
      · have : t ∈ surv s.cl := by
          revert ht
          unfold Commit.replayed
          split
          · intro ht; simp [surv] at ht
          · exact id
        exact ⟨hvals.good t this, hvals.cls t this⟩
      · exact ⟨hpipe.good t (surv_ul_pipe ht), hpipe.val t (surv_ul_pipe ht)⟩
    · exact ⟨hpipe.good t (ins_pipe (surv_mem ht)), hpipe.val t (ins_pipe (surv_mem ht))⟩
  have hsplit : s.applied ++ s.inserting = base' ++ U := by
    rw [hov.split, ← hU, hbase]
    have hcl : s.commit = none → s.cl = [] := by
      intro hcm
      apply hov.idle
      have := hov.busyIff
      rw [hcm] at this
      cases hh : s.com with
      | none => rfl
      | some g => rw [hh] at this; cases this
    cases hcm : s.commit with
    | none => simp [Commit.replayed]
    | some cm =>
      obtain ⟨u, ph⟩ := cm
      cases ph <;> simp [Commit.replayed]
  have htup : ∀ k, lastFor U k = none → (pageGet (s.pages (bundleOf c k)) k).map (valueOf s.heap) = specMap base' k := by
    intro k hk
    rw [← hU, lastFor_append, lastFor_append] at hk
    have hk1 : lastFor s.ul k = none := by
      cases hx : lastFor s.ul k with
      | none => rfl
      | some t => rw [hx] at hk; cases hy : lastFor s.inserting k <;> rw [hy] at hk <;> simp at hk
    have hk2 : lastFor (Commit.replayed s.commit s.cl) k = none := by
      rw [hk1] at hk
      cases hy : lastFor s.inserting k with
      | none => rw [hy] at hk; simpa using hk
      | some t => rw [hy] at hk; simp at hk
    have hgen : base' = s.base → lastFor s.cl k = none →
        (pageGet (s.pages (bundleOf c k)) k).map (valueOf s.heap) = specMap base' k := by
      intro hb hk2
      rw [hb]
      exact page_value hpage hvals hk1 hk2
    cases hcm : s.commit with
    | none => rw [hcm] at hbase hk2; exact hgen hbase hk2
    | some cm =>
      obtain ⟨u, ph⟩ := cm
      cases ph with
      | headWritten =>
        rw [hcm] at hvals hbase
        have := hvals.tup k (by simp [Shadow, isEarly, rem, tdo, wrk])
        rw [eff_idle rfl rfl] at this
        rw [hbase]
        exact this
      | _ => rw [hcm] at hbase hk2; exact hgen hbase hk2
  refine ⟨_, hload, rfl, rfl, ?_, ?_⟩
  · intro k
    rw [hsplit]
    unfold found readTuple
    simp only [if_true, Option.bind_none]
    rw [get_ofEntries]
    cases h1 : lastFor U k with
    | some t =>
      rw [specMap_append_some h1]
      exact (hgoodU t (lastFor_mem_surv h1)).2
    | none =>
      rw [specMap_append_none h1]
      exact htup k h1
  · intro hf
    have hnoheap : ∀ t ∈ U, optRegs t.op = [] := by
      intro t ht
      simp only [List.append_eq_nil_iff] at hf
      have hany : (U.map Task.erase).any isHeapEntry = false := by
        cases hh : (U.map Task.erase).any isHeapEntry with
        | false => rfl
        | true => rw [if_pos hh] at hf; simp at hf
      rw [List.any_eq_false] at hany
      have := hany _ (List.mem_map.2 ⟨t, ht, rfl⟩)
      cases ho : t.op with
      | none => rfl
      | some d =>
        cases d with
        | inline d => rfl
        | heap n o => simp [isHeapEntry, Task.erase, ho] at this
    have hnr : taskRegs (surv U) = [] := by
      unfold taskRegs
      rw [List.flatMap_eq_nil_iff]
      intro t ht
      exact hnoheap t (surv_mem ht)
    refine ⟨⟨recs, hl.crash, by simp [openAt, hul], by simp [openAt]⟩, ?_, ?_, by simp, ?_, ⟨[], ?_⟩, ?_, ?_, ?_⟩
    · exact ⟨by simp [hsplit], rfl, by simp, fun _ => rfl, fun g hg => by
        have : g ≠ 0 := by have : 0 < g := hg; omega
        simp [this], rfl⟩
    · refine ⟨?_, ?_⟩ <;> intro t ht <;> simp [pipe] at ht
      · exact (hgoodU t ht).1
      · exact (hgoodU t ht).2
    · refine ⟨hpage.disk, by simp [cmp], by simp [wrk], by simp [tdo, wrk, cmp], by simp [tdo, wrk, cmp], by simp [tdo],
        by simp [wrk], by simp [rem, tdo, wrk], ?_⟩
      intro k _
      rw [pageGet_eq, eff_idle rfl rfl]
    · have hpr : pipe ([] : List Task) [] [] [] [] U = surv U := by simp [pipe]
      simp only [hpr, hnr, earlyRegs, isEarly, rem, tdo, wrk]
      simpa [taskRegs, entRegs, effRegs, eff_idle (cm := none) rfl rfl] using hinv
    · exact ⟨by simp [wrt], by simp [wrt], by simp [wrt]⟩
    · have har : ∀ i r, Around c s.pages none i r → Around c s.pages s.commit i r := by
        rintro i r (hr | hr | ⟨e, he', _⟩)
        · exact .inl hr
        · rw [eff_idle rfl rfl] at hr; exact .inl hr
        · simp [rem, tdo, wrk] at he'
      exact ⟨fun i j hi hj hij r r' hr hr' => hdisk.apart i j hi hj hij r r' (har i r hr) (har j r' hr'), hdisk.pw,
        fun i hi r hr => hdisk.ok i hi r (har i r hr)⟩
    · refine ⟨by simp [surv], by simp [surv], by simp [rem, tdo, wrk], by simp [surv], by simp [rem, tdo, wrk], ?_⟩
      intro k hk
      rw [eff_idle rfl rfl, List.append_nil]
      apply htup k
      simpa [Shadow] using hk

theorem load_mono {c : StoreCfg} {s s' : St} (h : load c s = some s') :
    (∃ x, s'.faults = x ++ s.faults) ∧ s'.issued = s.issued := by
  unfold load at h
  split at h
  · split at h
    · cases h
    · cases h; exact ⟨⟨_, rfl⟩, rfl⟩
  · cases h

theorem reach_new {c : StoreCfg} {s : St} (h : Reach c s) :
    ∃ a0, KvAlloc.new c.heap.base c.heap.heap c.heap.pages = some a0 := by
  induction h with
  | fresh h =>
    unfold fresh at h
    split at h
    · cases h
    · exact ⟨_, by assumption⟩
  | step _ _ ih => exact ih
  | restart _ _ ih => exact ih

theorem reach_inv {c : StoreCfg} (hc : c.Ok) {s : St} (h : Reach c s) (hf : s.faults = []) (hk : NoEmptyKey s) :
    Inv c s := by
  induction h with
  | fresh h => exact inv_fresh hc h
  | step h hs ih =>
    obtain ⟨⟨x, hx⟩, y, hy⟩ := step_mono hs
    have h1 := hx ▸ hf
    rw [List.append_eq_nil_iff] at h1
    exact inv_step hc (ih h1.2 (fun t ht => hk t (by rw [hy]; simp [ht]))) hs hf hk
  | restart h hs ih =>
    obtain ⟨⟨x, hx⟩, hy⟩ := load_mono hs
    have h1 := hx ▸ hf
    rw [List.append_eq_nil_iff] at h1
    obtain ⟨a0, ha0⟩ := reach_new h
    obtain ⟨s2, e2, _, _, _, h5⟩ := load_spec hc (ih h1.2 (fun t ht => hk t (by rw [hy]; exact ht))) ha0
    rw [hs] at e2
    cases e2
    exact h5 hf

end Kv
end Blobd
