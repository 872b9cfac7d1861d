import Verif.Proofs.KvIo
import Verif.Proofs.DirectIo
import Verif.Proofs.KvStoreWitness
import Verif.Props.DirectCrash
import Verif.Props.ReadWrite
/-!
# C70: device accesses consist of whole pages, stay in their region, and do not collide
-/
set_option autoImplicit false
namespace Blobd
namespace Props
open Spec

section Kv
open Kv KvAlloc

/-- Whatever is going on in the KV store, every heap write in flight consists of whole small pages and stays inside the
heap, every log write consists of whole log pages and stays inside the ring, and every bundle page on its way to the
device has the index of a bundle and the size of a page. -/
theorem C70_kv_writes_partial {c : StoreCfg} (hc : c.Ok) {s : Kv.St} (h : Kv.Reach c s) (hf : s.faults = [])
    (hk : NoEmptyKey s) :
    (∀ w ∈ heapWrites s, Proper c.heap.pages.spage c.heap.base (c.heap.base + c.heap.heap) w.1 w.2.length) ∧
    (∀ w ∈ logWrites s, Proper c.log.spage 0 c.log.dataLen w.1 w.2.length) ∧
    (∀ w ∈ pageWrites s, w.1 < c.bundleCount ∧ w.2.length = 2 ^ c.heap.pages.spage) := by
  have hi := Kv.reach_inv hc h hf hk
  refine ⟨?_, ?_, ?_⟩
  · intro w hw
    rw [heapWrites_eq] at hw
    rcases List.mem_append.1 hw with hw | hw
    · obtain ⟨p, hp, rfl⟩ := List.mem_map.1 hw
      obtain ⟨n, v, e1, e2, e3, e4, _⟩ := (hi.preps p hp).ex
      obtain ⟨rest, ha⟩ := hi.alloc
      rw [e4]
      have hr : (p.write.1, n) ∈ taskRegs (s.preps.map (·.task)) :=
        mem_taskRegs (List.mem_map.2 ⟨p, hp, rfl⟩) (by rw [e1]; simp [optRegs, dataRegs])
      have hn : 0 < n := prep_pos h p hp e1
      exact proper_of_region hc (r := (p.write.1, n)) (ha.regs _ (by simp [hr])) hn
    · exact wok hc h hf hk w hw
  · intro w hw
    obtain ⟨f, hff, hw⟩ := List.mem_flatMap.1 hw
    exact (fok hc h hf hk f (List.mem_filter.1 hff).1).1 w hw
  · intro w hw
    rw [pageWrites_eq] at hw
    exact ⟨hi.page.below w.1 (by simp only [List.mem_append]; exact Or.inr (List.mem_map.2 ⟨w, hw, rfl⟩)),
      (page_len h).2 w hw⟩

/-- No two writes in flight in the KV store touch the same byte, so the order in which the device performs them does not
matter; nor does any of them touch the log between its head and its tail. -/
theorem C70_kv_apart_partial {c : StoreCfg} (hc : c.Ok) {s : Kv.St} (h : Kv.Reach c s) (hf : s.faults = [])
    (hk : NoEmptyKey s) :
    (heapWrites s).Pairwise Apart ∧ (logWrites s).Pairwise Apart ∧ ((pageWrites s).map (·.1)).Nodup ∧
    ∀ w ∈ logWrites s, ∀ v, s.log.head ≤ v → v < s.log.tail → ¬ Covers w (v % c.log.dataLen) := by
  have hi := Kv.reach_inv hc h hf hk
  obtain ⟨recs, hl, _⟩ := hi.log
  have hfo := fok hc h hf hk
  refine ⟨?_, ?_, ?_, ?_⟩
  · have hp := (C70_kv_writes_partial hc h hf hk).1
    rw [heapWrites_eq] at hp ⊢
    obtain ⟨rest, ha⟩ := hi.alloc
    obtain ⟨d0, d1, x1⟩ := pw_app ha.disj
    rw [List.pairwise_append]
    refine ⟨?_, ?_, ?_⟩
    · exact preps_apart (fun p hp' => hi.preps p hp') (fun p hp' => (hp p.write (by simp; exact Or.inl ⟨p, hp', rfl⟩)).pos) d0
    · refine hi.ws.pw.imp_of_mem ?_
      intro a b ha hb hab
      exact apart_of (hp a (by simp [ha])).pos (hp b (by simp [hb])).pos hab
    · intro a hma b hmb
      refine apart_of (hp a (List.mem_append_left _ hma)).pos (hp b (by simp [hmb])).pos ?_
      rintro x ⟨ca, cb⟩
      obtain ⟨p, hpp, rfl⟩ := List.mem_map.1 hma
      obtain ⟨r, hr, hin⟩ := prep_covers (hi.preps p hpp) ca
      obtain ⟨r', hr', hin'⟩ := hi.ws.inside b hmb
      exact x1 r (mem_taskRegs (List.mem_map.2 ⟨p, hpp, rfl⟩) hr) r' (by simp [hr']) x ⟨hin, hin' x cb⟩
  · have := flights_apart (cl := c.log) hl.space s.log.inflight s.log.tail hl.holds.le hl.flight hfo
    refine this.sublist ?_
    exact List.Sublist.flatMap List.filter_sublist _
  · rw [pageWrites_eq]
    have := hi.page.nodup
    rw [List.nodup_append] at this
    exact this.2.1
  · intro w hw v h1 h2 hcov
    obtain ⟨f, hff, hw⟩ := List.mem_flatMap.1 hw
    obtain ⟨y, y1, y2, ye⟩ := inflight_bytes s.log.inflight s.log.tail hl.flight f (List.mem_filter.1 hff).1 w hw _ hcov.1 hcov.2
    have := hl.flight.le
    have := hl.space
    have := mod_inj_window (n := c.log.dataLen) (h := s.log.head) (y := y) (z := v) (by omega) (by omega) (by omega) (by omega) ye
    omega

/-- Reading any part of a value that is in the heap reads whole small pages inside the heap. -/
theorem C70_kv_reads_partial {c : StoreCfg} (hc : c.Ok) {s : Kv.St} (h : Kv.Reach c s) (hf : s.faults = [])
    (hk : NoEmptyKey s) {k : Key} {size off : Nat} (hr : readTuple c s k = some (.heap size off)) {start stop : Nat}
    (h1 : start < stop) (h2 : stop ≤ size) :
    let span := unalignedSpan c.heap.pages.spage (off + start) (stop - start)
    Proper c.heap.pages.spage c.heap.base (c.heap.base + c.heap.heap) span.1 (span.2 - span.1) := by
  have hi := Kv.reach_inv hc h hf hk
  have hreg : RegionOk c.heap (off, size) := visible_region hc hi hr
  have hp := proper_of_region hc hreg (by simp only; omega)
  obtain ⟨p1, p2, p3, p4, p5⟩ := hp
  simp only at p1 p2 p3 p4 p5
  have := le_ceilPow2 size c.heap.pages.spage
  exact span_proper p2 p3 p4 p5 (by omega) (by omega) (by omega)

/-- A case with both kinds of writes in flight: a 16 MiB value on its way to the heap while a deletion is on its way to
the log. -/
theorem C70_kv_case (v : List Byte) (hv : v.length = 2 ^ 24) : ∃ s : Kv.St, Kv.Reach Kv.wcfg s ∧ s.faults = [] ∧ NoEmptyKey s ∧
    (heapWrites s).map (fun w => (w.1, w.2.length)) = [(0, 2 ^ 24)] ∧
    (logWrites s).map (fun w => (w.1, w.2.length)) = [(0, 512)] := by
  obtain ⟨a', e, _⟩ := alloc_whole inv_a0
  have s1 := put_delete (c := Kv.wcfg) (qfresh Kv.wcfg (fun _ => 0) (fun _ => 0) a0) [] ka
  have hpl := plan_nowrap Kv.wcfg.log (fun _ => 0) 0 0 [tD] [2, 1, 1] encD (by decide) (by decide +kernel)
  have s2 := Step.flush (c := Kv.wcfg) (s := QSt.pend { qfresh Kv.wcfg (fun _ => 0) (fun _ => 0) a0 with issued := [tD] } [tD])
    (fun _ => 0) (fun _ => 0) (by simp [QSt.pend]) hpl
  have hb : ((encodeTasks [tD]).map (fun b => (padFlush Kv.wcfg.log (fun _ => 0) b).length)).getD 0 ≤ Kv.wcfg.log.bufSize := by
    decide +kernel
  rw [if_pos (show ((encodeTasks (QSt.pend { qfresh Kv.wcfg (fun _ => 0) (fun _ => 0) a0 with issued := [tD] }
    [tD]).pending).map (fun b => (padFlush Kv.wcfg.log (fun _ => 0) b).length)).getD 0 ≤ Kv.wcfg.log.bufSize from hb)] at s2
  have s3 := s1.snoc s2
  have s4 := s3.snoc (Step.writeHeap (off := 0) (sizeOnDev := 2 ^ 24) (a' := a') [2] v (fun _ => 0) (by rw [hv]; decide)
    (by rw [hv]; decide) (by rw [hv]; exact e))
  refine ⟨_, s4.reach (.fresh (fresh_q new_a0)), ?_, ?_, ?_, ?_⟩
  · rfl
  · intro t ht
    simp only [QSt.pend, qfresh, List.nil_append, List.cons_append, List.mem_cons, List.not_mem_nil, or_false] at ht
    rcases ht with rfl | rfl
    · simp [tD, ka]
    · rw [show Key.fromRaw Kv.wcfg.H [2] = Key.literal [2] from rfl]; simp
  · simp [heapWrites, QSt.pend, qfresh, paddedBuf, hv]
  · simp only [logWrites]
    decide +kernel

/-- A case with a value in the heap. -/
theorem C70_kv_read_case (v : List Byte) (hv : v.length = 2 ^ 24) : ∃ s : Kv.St, Kv.Reach Kv.wcfg s ∧ s.faults = [] ∧
    NoEmptyKey s ∧ readTuple Kv.wcfg s (.literal ka) = some (.heap (2 ^ 24) 0) := by
  obtain ⟨q, h1, _, _, h4, _, _, h7, h8, h9, _, _, _, hf⟩ := runA (fun _ => 0) (fun _ => 0) v hv
  refine ⟨q.st, h1, hf, ?_, ?_⟩
  · intro t ht
    have : t ∈ q.issued := ht
    rw [h9] at this
    simp only [List.mem_singleton] at this
    subst this
    simp [tA, ka]
  · unfold readTuple
    simp only [QSt.st, QSt.pend, h7, h8]
    rfl

end Kv

section Direct
open Direct

/-- The device writes of the direct store: metadata pages of creates in progress are whole small pages inside the heap;
data writes start at a small page boundary and stay inside one page of the object, inside the heap; tuple pages have the
index of a bundle, no page is written twice at a time, and none has too many tuples. -/
theorem C70_direct_writes_partial {c : SCfg} (hc : c.Ok) {s : DSt} (h : Direct.Reach c s) (hf : PageFaultFree s) :
    (∀ th ∈ s.threads, ∀ o t page, th.pc = .createMeta o t page →
      Proper c.heap.pages.spage c.heap.base (c.heap.base + c.heap.heap) t.metaOff page.length) ∧
    (∀ w ∈ s.writers ++ s.orphans, ∃ (o : Obj) (p : Nat), o.id = w.id ∧ (w.off, p) ∈ o.m.dataPages c.pages ∧ w.data.length ≤ 2 ^ p ∧
      Proper c.heap.pages.spage c.heap.base (c.heap.base + c.heap.heap) w.off (2 ^ p)) ∧
    (∀ ws sig, s.ts.batch = some (ws, sig) → (ws.map Prod.fst).Nodup ∧ ∀ w ∈ ws, w.1 < c.n ∧ w.2.length ≤ c.max) := by
  have hs := reach_safe hc h hf.1 hf.2.1 hf.2.2
  obtain ⟨lk, ha⟩ := hs.A.alloc
  refine ⟨?_, ?_, ?_⟩
  · intro th hth o t page hpc
    have hR := hs.R.thr th hth
    have hV := hs.V.thr th hth
    rw [hpc] at hR hV
    rw [hV.1]
    exact page_proper (ha.pgs (t.metaOff, t.metaPow2)
      (List.mem_append_left _ (List.mem_flatMap.2 ⟨_, hR.2, by simp [regs, objPages]⟩)))
  · intro w hw
    rw [hs.W.orp, List.append_nil] at hw
    obtain ⟨hh, o, p, hn, ho, hp, hl⟩ := hs.W.wr w hw
    obtain ⟨mo, mp, b, hr'⟩ := held_rec (reach_k h) hs.R hn (ho ▸ hh)
    exact ⟨o, p, ho, hp, hl, page_proper (ha.pgs (w.off, p)
      (List.mem_append_left _ (List.mem_flatMap.2 ⟨_, hr', by simp [regs, objPages, hp]⟩)))⟩
  · intro ws sig hb
    obtain ⟨h1, h2⟩ := (reach_t h).1.batchNodup ws sig hb
    exact ⟨h1, fun w hw => ⟨h2 w hw, (hs.R.fly w (by simp [TS.inflight, hb, hw])).len⟩⟩

/-- Writes in flight do not collide: two creates write different metadata pages, no data write touches a metadata page
being written, and two data writes go to different pages unless they go to the same page of the same object. -/
theorem C70_direct_apart_partial {c : SCfg} (hc : c.Ok) {s : DSt} (h : Direct.Reach c s) (hf : PageFaultFree s) :
    (∀ x ∈ s.threads, ∀ y ∈ s.threads, x ≠ y → ∀ o t page o' t' page', x.pc = .createMeta o t page →
      y.pc = .createMeta o' t' page' → Apart (t.metaOff, page) (t'.metaOff, page')) ∧
    (∀ x ∈ s.threads, ∀ o t page, x.pc = .createMeta o t page → ∀ w ∈ s.writers ++ s.orphans,
      Apart (t.metaOff, page) (w.off, w.data)) ∧
    (∀ w ∈ s.writers ++ s.orphans, ∀ w' ∈ s.writers ++ s.orphans,
      (w.id = w'.id ∧ w.off = w'.off) ∨ Apart (w.off, w.data) (w'.off, w'.data)) := by
  have hs := reach_safe hc h hf.1 hf.2.1 hf.2.2
  have hk := reach_k h
  refine ⟨?_, ?_, ?_⟩
  · intro x hx y hy hne o t page o' t' page' hpx hpy
    have hRx := hs.R.thr x hx
    have hRy := hs.R.thr y hy
    have hVx := hs.V.thr x hx
    have hVy := hs.V.thr y hy
    rw [hpx] at hRx hVx
    rw [hpy] at hRy hVy
    have hmo : t.metaOff ≠ t'.metaOff := fun e => hne (hold_uniq hs.R hx hy (mo := t.metaOff)
      (by rw [hpx]; simp [PC.hold]) (by rw [hpy]; simp [PC.hold, e]))
    have := hs.A.recs_disj hRx.2 hRy.2 (a := (t.metaOff, t.metaPow2)) (a' := (t'.metaOff, t'.metaPow2))
      (by simp [regs, objPages]) (by simp [regs, objPages]) (Or.inr (fun e => hmo (congrArg Prod.fst e)))
    unfold Apart
    simp only [hVx.1, hVy.1]
    exact this
  · intro x hx o t page hpx w hw
    rw [hs.W.orp, List.append_nil] at hw
    have hRx := hs.R.thr x hx
    have hVx := hs.V.thr x hx
    rw [hpx] at hRx hVx
    obtain ⟨hh, o', p, hn, ho, hp, hl⟩ := hs.W.wr w hw
    obtain ⟨mo, mp, b, hr'⟩ := held_rec hk hs.R hn (ho ▸ hh)
    have := hs.A.meta_data hRx.2 hr' hp
    unfold Apart
    simp only [hVx.1]
    unfold PageDisj at this
    simp only at this
    omega
  · intro w hw w' hw'
    rw [hs.W.orp, List.append_nil] at hw hw'
    obtain ⟨hh, o, p, hn, ho, hp, hl⟩ := hs.W.wr w hw
    obtain ⟨hh', o', p', hn', ho', hp', hl'⟩ := hs.W.wr w' hw'
    by_cases he : w.id = w'.id ∧ w.off = w'.off
    · exact Or.inl he
    · right
      obtain ⟨b, t, ht, hti, _, hr⟩ := held_tup hk hs.R hn (ho ▸ hh)
      obtain ⟨b', t', ht', hti', _, hr'⟩ := held_tup hk hs.R hn' (ho' ▸ hh')
      have := hs.A.recs_disj hr hr' (a := (w.off, p)) (a' := (w'.off, p'))
        (by simp [regs, objPages, hp]) (by simp [regs, objPages, hp']) (by
          by_cases hid : w.id = w'.id
          · exact Or.inr (fun e => he ⟨hid, congrArg Prod.fst e⟩)
          · refine Or.inl (fun e => hid ?_)
            have := mem_tup_uniq hs.R ht ht' (congrArg Rec.mo e)
            rw [← ho, ← ho', ← hti, ← hti', this])
      unfold Apart
      unfold PageDisj at this
      simp only at this ⊢
      omega

/-- Reading any part of one page of an object that can be read reads whole small pages inside the heap. -/
theorem C70_direct_reads_partial {c : SCfg} (hc : c.Ok) {s : DSt} (h : Direct.Reach c s) (hf : PageFaultFree s)
    {o : Obj} (hu : InUse s o) {off p : Nat} (hp : (off, p) ∈ o.m.dataPages c.pages) {within len : Nat} (h0 : 0 < len)
    (hw : within + len ≤ 2 ^ p) :
    let span := RW.unalignedRange c.pages (off + within) len
    Proper c.heap.pages.spage c.heap.base (c.heap.base + c.heap.heap) span.1 (span.2 - span.1) := by
  have hs := reach_safe hc h hf.1 hf.2.1 hf.2.2
  obtain ⟨lk, ha⟩ := hs.A.alloc
  obtain ⟨mo, mp, st, _, hr, _⟩ := inUse_rec (reach_h h) (reach_k h) hs hu
  have hpp := page_proper (c := c) (ha.pgs (off, p)
      (List.mem_append_left _ (List.mem_flatMap.2 ⟨_, hr, by simp [regs, objPages, hp]⟩)))
  obtain ⟨p1, p2, p3, p4, p5⟩ := hpp
  have := Kv.span_proper p2 p3 p4 p5 (start := within) (len := len) h0 hw (Nat.le_trans (Nat.le_add_right _ _) hw)
  unfold Kv.unalignedSpan at this
  rw [Nat.one_shiftLeft] at this
  exact this

/-- What `write_object` of the direct store hands to the device for a page is a whole number of small pages, at least
one, and no longer than the page. -/
theorem C70_direct_blocks (pages : Pages) (hp : RW.PagesOk pages) (junk : Nat → Byte) (o : RW.Obj) {lay : ObjectLayout}
    (hl : calcObjectLayoutDirect pages o.size = some lay) {offset len : Nat}
    (hw : RW.writeCheck pages o.size offset len = none) :
    ∀ t ∈ RW.writeTargets pages lay o offset, ∃ e, (t.2, e) ∈ RW.objPages pages lay o ∧
      ∀ d : List Byte, d.length = t.1 → 0 < (RW.blockDirect pages junk d).length ∧
        2 ^ pages.spage ∣ (RW.blockDirect pages junk d).length ∧ (RW.blockDirect pages junk d).length ≤ 2 ^ e ∧
        (RW.blockDirect pages junk d).take t.1 = d := by
  unfold calcObjectLayoutDirect at hl
  split at hl
  · obtain ⟨es, hi⟩ := RW.layInfo_of hp hl
    obtain ⟨hfit, _, a, b, hab, _, _, _, hsp⟩ := hi.targets hp offset len hw
    intro t ht
    obtain ⟨e, h1, h2⟩ := RW.fit_mem hfit t ht
    refine ⟨e, by rw [hab]; simp [h1], fun d hd => ?_⟩
    have h3 : pages.spage ≤ e := hsp (t.2, e) h1
    have h4 : 2 ^ pages.spage ≤ 2 ^ e := Nat.pow_le_pow_right (by decide) h3
    have h5 := le_ceilPow2 d.length pages.spage
    have h6 : ceilPow2 d.length pages.spage ≤ 2 ^ e := ceilPow2_le_of_dvd (Nat.pow_dvd_pow 2 h3) (by omega)
    have h7 := Nat.two_pow_pos pages.spage
    have hlen : (RW.blockDirect pages junk d).length = max (2 ^ pages.spage) (ceilPow2 d.length pages.spage) := by
      simp only [RW.blockDirect, List.length_append, List.length_map, List.length_range]
      omega
    rw [hlen]
    refine ⟨by omega, ?_, by omega, ?_⟩
    · rcases Nat.le_total (ceilPow2 d.length pages.spage) (2 ^ pages.spage) with h | h
      · rw [Nat.max_eq_left h]
      · rw [Nat.max_eq_right h]; exact ceilPow2_dvd _ _
    · rw [← hd, RW.blockDirect, List.take_left]
  · cases hl

/-- A case with a data write and a metadata write in flight, on neighbouring pages. -/
theorem C70_direct_case : ∃ s : DSt, Direct.Reach Direct.wcfg s ∧ PageFaultFree s ∧
    s.writers.map (fun w => (w.off, w.data)) = [(1024, [1, 2, 3])] ∧
    ∃ th ∈ s.threads, ∃ o t page, th.pc = .createMeta o t page ∧ t.metaOff = 1216 ∧ page.length = 64 := by
  have h : (wrun (doCreate [1] 3 5 0 ++ [.openHandle 5, .writeStart 0 0 [1, 2, 3], .createData [2] 10 6, .createMeta 0 6])).map
      (fun s => (s.writers.map (fun w => (w.off, w.data)), s.threads.map (fun th =>
        match th.pc with | .createMeta _ t page => (t.metaOff, page.length) | _ => (0, 0)), s.faults)) =
      some ([(1024, [1, 2, 3])], [(1216, 64)], []) := by decide +kernel
  obtain ⟨s, h1, h2⟩ := Option.map_eq_some_iff.1 h
  simp only [Prod.mk.injEq] at h2
  obtain ⟨e1, e2, e3⟩ := h2
  refine ⟨s, wrun_reach h1, by simp [PageFaultFree, e3], e1, ?_⟩
  have : (1216, 64) ∈ [((1216 : Nat), (64 : Nat))] := by simp
  rw [← e2] at this
  obtain ⟨th, hth, he⟩ := List.mem_map.1 this
  refine ⟨th, hth, ?_⟩
  split at he
  · rename_i o t page hpc
    simp only [Prod.mk.injEq] at he
    exact ⟨o, t, page, hpc, he.1, he.2⟩
  · simp at he

/-- A case for the blocks: 100 bytes of data for the tail of an object of 228 bytes, with 64-byte small pages. -/
example : RW.PagesOk ⟨6, 7⟩ ∧ RW.writeCheck ⟨6, 7⟩ 228 128 100 = none ∧
    (calcObjectLayoutDirect ⟨6, 7⟩ 228).map (fun l => RW.writeTargets ⟨6, 7⟩ l ⟨228, fun _ => 1024, fun _ => 2048⟩ 128) =
      some [(100, 2048)] := by
  exact ⟨⟨by decide, by decide, by decide⟩, by decide +kernel, by decide +kernel⟩

end Direct
end Props
end Blobd
