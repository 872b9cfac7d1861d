import Verif.Proofs.DirectStable
import Verif.Proofs.DirectRun
import Verif.Props.ReadWrite
/-!
# C29 page safety, C49 slow reads and C51 write isolation of the direct store

`Reach c s`: `s` occurs in some execution of a partition from a formatted device, with any interleaving of
calls, device writes and background commits and any number of crashes and restarts. The device may change in
any order inside the target of a write in flight, so every reachable state is also a possible crash point.

The positive theorems exclude three events, which the model records in `faults` (`PageFaultFree`): an object
with metadata so large that its page size is recorded wrongly (C30), a restart that found two committed
objects with one key, and a `write_object` call dropped during its device write. The violation theorems show
that the last two do break the claims.
-/
set_option autoImplicit false
namespace Blobd
namespace Props
open Direct

/-- a tuple that is in the index in memory, in a bundle page being written, or on the device -/
def Referenced (s : DSt) (t : Tuple) : Prop :=
  (∃ b, t ∈ s.ts.bundles b) ∨ (∃ w ∈ s.ts.inflight, t ∈ w.2) ∨ ∃ b, t ∈ s.ts.disk b

theorem refd_rec {c : SCfg} {s : DSt} (h : SafeInv c s) {t : Tuple} (ht : Referenced s t) :
    ∃ m st, st ≠ .fresh ∧ s.names t.id = some (t.metaOff, m) ∧ ⟨t.metaOff, t.metaPow2, m, st⟩ ∈ s.recs := by
  have key : ∀ b dy, TupOk s.names s.recs b dy t → ∃ m st, st ≠ .fresh ∧ s.names t.id = some (t.metaOff, m) ∧
      ⟨t.metaOff, t.metaPow2, m, st⟩ ∈ s.recs := by
    rintro b dy ⟨m, h1, h2 | ⟨_, h2⟩⟩
    · exact ⟨m, _, by simp, h1, h2⟩
    · exact ⟨m, _, by simp, h1, h2⟩
  rcases ht with ⟨b, ht⟩ | ⟨w, hw, ht⟩ | ⟨b, ht⟩
  · exact key _ _ ((h.R.mem b).tup t ht)
  · exact key _ _ ((h.R.fly w hw).tup t ht)
  · exact key _ _ ((h.R.disk b).tup t ht)

/-- The metadata page of every object that is in the index (in memory, being written, or on the device) holds
the metadata the object was created with. -/
theorem C29_metadata_intact_partial {c : SCfg} (hc : c.Ok) {s : DSt} (h : Reach c s) (hf : PageFaultFree s)
    {t : Tuple} (ht : Referenced s t) :
    ∃ m, s.names t.id = some (t.metaOff, m) ∧ Meta.dec (s.dev.read t.metaOff (2 ^ t.metaPow2)) = some m := by
  have hs := reach_safe hc h hf.1 hf.2.1 hf.2.2
  obtain ⟨m, st, h1, h2, h3⟩ := refd_rec hs ht
  exact ⟨m, h2, hs.V.dev _ h3 h1⟩

/-- No two objects in the index share a page, and no object uses a page twice: two objects have different
metadata pages unless they are the same object (possibly under the id it had before its commit), and then all
their pages are disjoint. -/
theorem C29_no_shared_page_partial {c : SCfg} (hc : c.Ok) {s : DSt} (h : Reach c s) (hf : PageFaultFree s)
    {t t' : Tuple} (ht : Referenced s t) (ht' : Referenced s t') {m m' : Meta}
    (hm : Meta.dec (s.dev.read t.metaOff (2 ^ t.metaPow2)) = some m)
    (hm' : Meta.dec (s.dev.read t'.metaOff (2 ^ t'.metaPow2)) = some m') :
    (objPages c t.metaOff t.metaPow2 m).Pairwise Spec.PageDisj ∧
    (t.metaOff = t'.metaOff → t.metaPow2 = t'.metaPow2 ∧ m = m') ∧
    (t.metaOff ≠ t'.metaOff → ∀ p ∈ objPages c t.metaOff t.metaPow2 m, ∀ p' ∈ objPages c t'.metaOff t'.metaPow2 m',
      Spec.PageDisj p p') := by
  have hs := reach_safe hc h hf.1 hf.2.1 hf.2.2
  obtain ⟨n, st, h1, h2, h3⟩ := refd_rec hs ht
  obtain ⟨n', st', h1', h2', h3'⟩ := refd_rec hs ht'
  have e := hs.V.dev _ h3 h1
  have e' := hs.V.dev _ h3' h1'
  simp only at e e'
  rw [hm] at e; rw [hm'] at e'
  cases e; cases e'
  refine ⟨(List.pairwise_flatMap.1 hs.A.disj).1 _ h3, ?_, ?_⟩
  · intro he
    have := rec_uniq hs.R.nd h3 h3' he
    simp only [Rec.mk.injEq] at this
    exact ⟨this.2.1, this.2.2.1⟩
  · intro hne p hp p' hp'
    exact hs.A.recs_disj h3 h3' hp hp' (Or.inl (fun e => hne (by simp only [Rec.mk.injEq] at e; exact e.1)))

/-- A page is free only when no tuple refers to it any more: whatever the allocator hands out next is disjoint
from every page of every object in the index, including objects whose removal is not on the device yet. -/
theorem C29_not_free_partial {c : SCfg} (hc : c.Ok) {s : DSt} (h : Reach c s) (hf : PageFaultFree s)
    {t : Tuple} (ht : Referenced s t) {m : Meta} (hm : Meta.dec (s.dev.read t.metaOff (2 ^ t.metaPow2)) = some m)
    {size off : Nat} {a' : Buddy} (hsz : size ≤ 2 ^ c.pages.lpage) (ha : s.alloc.allocate size = (.ok off, a'))
    {p : Nat × Nat} (hp : p ∈ objPages c t.metaOff t.metaPow2 m) :
    Spec.PageDisj (off, Buddy.requestPow2 c.pages size) p := by
  have hs := reach_safe hc h hf.1 hf.2.1 hf.2.2
  obtain ⟨n, st, h1, h2, h3⟩ := refd_rec hs ht
  have e := hs.V.dev _ h3 h1
  simp only at e
  rw [hm] at e
  cases e
  obtain ⟨lk, hi⟩ := hs.A.alloc
  rcases hi.alloc size (request_le hc.sl hsz) with ⟨k, b1, e1, _, hi1, _⟩ | ⟨b1, e1, _⟩
  · rw [ha] at e1
    simp only [Prod.mk.injEq, Outcome.ok.injEq] at e1
    obtain ⟨rfl, rfl⟩ := e1
    exact (List.pairwise_cons.1 hi1.disj).1 p (List.mem_append_left _ (List.mem_flatMap.2 ⟨_, h3, hp⟩))
  · rw [ha] at e1; simp at e1

theorem reach_new {c : SCfg} {s : DSt} (h : Reach c s) :
    ∃ a0, Buddy.new c.heap.pageNumBits c.heap.base c.heap.heap c.heap.pages c.heap.dir = some a0 := by
  induction h with
  | fresh h =>
    unfold fresh at h
    split at h
    · simp at h
    · rename_i a0 h0; exact ⟨a0, h0⟩
  | step _ _ ih => exact ih
  | restart _ _ _ _ ih => exact ih

/-- After a crash at any point the store starts, in whatever order it happens to read the tuples. -/
theorem C29_restart_succeeds_partial {c : SCfg} (hc : c.Ok) {s : DSt} (h : Reach c s) (hf : PageFaultFree s)
    (order : List Tuple) (hp : order.Perm (diskTuples c.n s.ts)) : ∃ s', load c s order = some s' := by
  have hs := reach_safe hc h hf.1 hf.2.1 hf.2.2
  obtain ⟨a0, h0⟩ := reach_new h
  obtain ⟨l, marked, h1, _⟩ := load_ok (reach_t h).1 hs hp h0
  unfold load
  rw [h0]
  simp only [h1]
  rw [if_pos (disk_newOk (reach_t h).1 hs)]
  exact ⟨_, rfl⟩

/-- A run that meets the hypotheses: two objects, one replaced by another and reaped, then a crash and a
restart; two objects remain. -/
example : ∃ s, Reach wcfg s ∧ wcfg.Ok ∧ PageFaultFree s ∧
    (diskTuples wcfg.n s.ts).map (fun t => (t.id, t.metaOff)) = [(9, 1088), (6, 1216)] ∧
    s.acks.map (·.resp) = [.created 5, .committed (some 9), .created 6] := by
  have h : (wrun (doCreate [1] 3 5 0 ++ doCommit 5 9 0 ++ doCreate [2] 10 6 0)).map (fun s =>
      ((diskTuples wcfg.n s.ts).map (fun t => (t.id, t.metaOff)), s.acks.map (·.resp), s.faults)) =
    some ([(9, 1088), (6, 1216)], [.created 5, .committed (some 9), .created 6], []) := by decide +kernel
  obtain ⟨s, h1, h2⟩ := Option.map_eq_some_iff.1 h
  simp only [Prod.mk.injEq] at h2
  exact ⟨s, wrun_reach h1, wcfg_ok, by simp [PageFaultFree, h2.2.2], h2.1, h2.2.1⟩

/-- The code breaks C29: a crash between the commit of an object and the deletion of the one it replaced leaves
both on the device. The next start may keep the newer one without marking the pages of the older one as used,
although its tuple stays. A new object then gets those pages: two objects in the index share all their pages,
and a start that reads the tuples in the order in which they are on the device panics. No call overlapped with another one. -/
theorem C29_violated_by_replaced_object : ∃ s : DSt, Reach wcfg s ∧ wcfg.Ok ∧ s.faults = [.duplicateKey] ∧
    (∃ t ∈ diskTuples wcfg.n s.ts, ∃ t' ∈ diskTuples wcfg.n s.ts, t.id ≠ t'.id ∧ t.metaOff = t'.metaOff) ∧
    s.acks.map (·.resp) = [.created 30] ∧
    load wcfg s (diskTuples wcfg.n s.ts) = none := by
  have h : (wrun (doCreate [1] 10 5 0 ++ doCommit 5 9 0 ++ doCreate [1] 11 6 0 ++ [.commitClaim 6 false, .commitSeal 0,
      .commitPublish 0 12, .commitUpdate 0, .snapshot, .page 0, .signal, .restart true] ++ doCreate [2] 10 30 0)).map (fun s =>
      (s.faults, (diskTuples wcfg.n s.ts).map (fun t => (t.id, t.metaOff)), s.acks.map (·.resp),
        match Buddy.new wcfg.heap.pageNumBits wcfg.heap.base wcfg.heap.heap wcfg.heap.pages wcfg.heap.dir with
        | none => true
        | some a0 => (loadAll wcfg s.dev ⟨a0, fun _ => none, fun _ => none, false⟩ (diskTuples wcfg.n s.ts)).isNone)) =
    some ([.duplicateKey], [(9, 1088), (12, 1216), (30, 1088)], [.created 30], true) := by decide +kernel
  obtain ⟨s, h1, h2⟩ := Option.map_eq_some_iff.1 h
  simp only [Prod.mk.injEq] at h2
  obtain ⟨e1, e2, e3, e4⟩ := h2
  refine ⟨s, wrun_reach h1, wcfg_ok, e1, ?_, e3, ?_⟩
  · have m1 : (9, 1088) ∈ (diskTuples wcfg.n s.ts).map (fun t => (t.id, t.metaOff)) := by rw [e2]; simp
    have m2 : (30, 1088) ∈ (diskTuples wcfg.n s.ts).map (fun t => (t.id, t.metaOff)) := by rw [e2]; simp
    obtain ⟨t, ht, h3⟩ := List.mem_map.1 m1
    obtain ⟨t', ht', h3'⟩ := List.mem_map.1 m2
    simp only [Prod.mk.injEq] at h3 h3'
    exact ⟨t, ht, t', ht', by rw [h3.1, h3'.1]; decide, by rw [h3.2, h3'.2]⟩
  · unfold load
    split
    · rfl
    · rename_i a0 h0
      rw [h0] at e4
      simp only [Option.isNone_iff_eq_none] at e4
      simp only [e4]

/-- The code breaks C29 in another way: a `write_object` call is dropped (its client went away) while its
device write runs; the object is committed and deleted, its page becomes the metadata page of a new object,
which is committed and acknowledged; then the old write completes and destroys that metadata. After a crash no
start ever succeeds again. -/
theorem C29_violated_by_dropped_write : ∃ s : DSt, Reach wcfg s ∧ wcfg.Ok ∧ s.faults = [.writeCancelled] ∧
    s.acks.map (·.resp) = [.created 5, .committed (some 9), .deleted, .created 6, .committed (some 12)] ∧
    (∃ t ∈ diskTuples wcfg.n s.ts, t.id = 12 ∧ Meta.dec (s.dev.read t.metaOff (2 ^ t.metaPow2)) = none) ∧
    ∀ order, order.Perm (diskTuples wcfg.n s.ts) → load wcfg s order = none := by
  have h : (wrun (doCreate [1] 3 5 0 ++ [.openHandle 5, .writeStart 0 0 [1, 2, 3], .writeCancel 0] ++ doCommit 5 9 0 ++
      doDelete [1] 0 ++ doCreate [2] 0 6 0 ++ doCommit 6 12 0 ++ [.orphanDone 0])).map (fun s =>
      (s.faults, (diskTuples wcfg.n s.ts).map (fun t => (t.id, Meta.dec (s.dev.read t.metaOff (2 ^ t.metaPow2)))),
        s.acks.map (·.resp))) =
    some ([.writeCancelled], [(12, none)], [.created 5, .committed (some 9), .deleted, .created 6, .committed (some 12)]) := by
    decide +kernel
  obtain ⟨s, h1, h2⟩ := Option.map_eq_some_iff.1 h
  simp only [Prod.mk.injEq] at h2
  obtain ⟨e1, e2, e3⟩ := h2
  have hd : ∃ t, diskTuples wcfg.n s.ts = [t] ∧ t.id = 12 ∧ Meta.dec (s.dev.read t.metaOff (2 ^ t.metaPow2)) = none := by
    generalize diskTuples wcfg.n s.ts = l at e2
    cases l with
    | nil => simp at e2
    | cons t l =>
      simp only [List.map_cons, List.cons.injEq, Prod.mk.injEq, List.map_eq_nil_iff] at e2
      exact ⟨t, by rw [e2.2], e2.1⟩
  obtain ⟨t, hd, e4, e5⟩ := hd
  refine ⟨s, wrun_reach h1, wcfg_ok, e1, e3, ⟨t, by rw [hd]; simp, e4, e5⟩, ?_⟩
  intro order hp
  rw [hd, List.perm_singleton] at hp
  subst hp
  unfold load
  split
  · rfl
  · simp [loadAll, loadOne, e5]

/-! ## C51 -/

/-- A step changes a byte of an object that is not committed yet only if a write to that very object is running
there. -/
theorem C51_incomplete_isolated_partial {c : SCfg} (hc : c.Ok) {s s' : DSt} (h : Reach c s) (hs : Step c s s') (hf : PageFaultFree s')
    {id : Nat} {o : Obj} (ho : s.incomplete id = some o) {off p x : Nat} (hp : (off, p) ∈ o.m.dataPages c.pages)
    (h1 : off ≤ x) (h2 : x < off + 2 ^ p) (hx : s'.dev x ≠ s.dev x) :
    ∃ w ∈ s.writers, w.id = id ∧ w.off ≤ x ∧ x < w.off + w.data.length := by
  have hS := reach_safe hc h (fun h => hf.1 (faults_step hs _ h)) (fun h => hf.2.1 (faults_step hs _ h))
    (fun h => hf.2.2 (faults_step hs _ h))
  have hK := reach_k h
  have hid := (reach_id h).incKey id o ho
  obtain ⟨b, t, ht, hti, _, hr⟩ := held_tup hK hS.R (hS.N.inc id o ho) (Or.inl (by rw [hid, ho]; simp))
  have hpg : (off, p) ∈ regs c ⟨t.metaOff, t.metaPow2, o.m, .live b⟩ := by simp [regs, objPages, hp]
  rcases target_cases hK hS (step_target hs hx) with ⟨mo', mp', m', hr', g1, g2⟩ | ⟨b', t', ht', m', p', off', _, _, hr', _, hp', g1, g2, w, hw, hwi, g3⟩
  · have := hS.A.recs_disj hr hr' hpg (a' := (mo', mp')) (by simp [regs, objPages]) (Or.inl (fun e => by simp at e))
    unfold Spec.PageDisj at this
    simp only at this
    omega
  · by_cases he : t.metaOff = t'.metaOff
    · have := mem_tup_uniq hS.R ht ht' he
      subst this
      exact ⟨w, hw, by rw [hwi, hti, hid], g3⟩
    · have := hS.A.recs_disj hr hr' hpg (a' := (off', p')) (by simp [regs, objPages, hp'])
        (Or.inl (fun e => he (by simp only [Rec.mk.injEq] at e; exact e.1)))
      unfold Spec.PageDisj at this
      simp only at this
      omega

/-- No step changes a byte of an object that is visible, or that a call not answered yet is deleting. -/
theorem C51_visible_unchanged_partial {c : SCfg} (hc : c.Ok) {s s' : DSt} (h : Reach c s) (hs : Step c s s') (hf : PageFaultFree s')
    {o : Obj} (ho : InUse s o) {off p x : Nat} (hp : (off, p) ∈ o.m.dataPages c.pages) (h1 : off ≤ x) (h2 : x < off + 2 ^ p) :
    s'.dev x = s.dev x :=
  inUse_stable (reach_h h) (reach_k h) (reach_safe hc h (fun h => hf.1 (faults_step hs _ h)) (fun h => hf.2.1 (faults_step hs _ h))
    (fun h => hf.2.2 (faults_step hs _ h))) ho hs hp h1 h2

/-- Hypotheses met: an object is being deleted (it is no longer visible) while a write to another one runs. -/
example : ∃ (s s' : DSt) (o : Obj), Reach wcfg s ∧ Step wcfg s s' ∧ PageFaultFree s' ∧ InUse s o ∧ s.committed [1] = none ∧
    o.m.dataPages wcfg.pages = [(1024, 6)] ∧ s'.dev.read 1152 3 = [7, 8, 9] ∧ s.dev.read 1152 3 = [0, 0, 0] ∧
    s.incomplete 6 ≠ none := by
  have h : (wrun (doCreate [1] 3 5 0 ++ doCommit 5 9 0 ++ doCreate [2] 10 6 0 ++
      [.openHandle 6, .writeStart 0 0 [7, 8, 9], .delete [1] none])).map (fun s =>
      decide (s.faults = []) && (decide (s.threads = [⟨3, 4, .reap ⟨9, ⟨3, 7, [1], [], [1024]⟩⟩ .deleted⟩]) &&
        (decide (s.writers.map (fun w => (w.id, w.off, w.data)) = [(6, 1152, [7, 8, 9])]) && (decide (s.committed [1] = none) &&
        (decide (s.dev.read 1152 3 = [0, 0, 0]) && (decide ((Mem.write s.dev 1152 [7, 8, 9]).read 1152 3 = [7, 8, 9]) &&
        (s.incomplete 6).isSome)))))) = some true := by
    decide +kernel
  obtain ⟨s, h1, h2⟩ := Option.map_eq_some_iff.1 h
  simp only [Bool.and_eq_true, decide_eq_true_eq] at h2
  obtain ⟨e1, e2, e3, e4, e5, e6, e7⟩ := h2
  obtain ⟨w, hw, w1, w2, w3⟩ : ∃ w, s.writers = [] ++ w :: [] ∧ w.id = 6 ∧ w.off = 1152 ∧ w.data = [7, 8, 9] := by
    generalize s.writers = l at e3
    cases l with
    | nil => simp at e3
    | cons w l =>
      simp only [List.map_cons, List.cons.injEq, Prod.mk.injEq, List.map_eq_nil_iff] at e3
      exact ⟨w, by rw [e3.2]; rfl, e3.1⟩
  refine ⟨s, _, ⟨9, ⟨3, 7, [1], [], [1024]⟩⟩, wrun_reach h1, .writeDone hw, by simp [PageFaultFree, e1], Or.inr ⟨_, by rw [e2]; exact List.mem_cons_self, by simp [PC.victims]⟩,
    e4, by decide +kernel, by simp only [w2, w3]; exact e6, e5, by intro hc; rw [hc] at e7; simp at e7⟩

/-- A restart changes no byte of the heap. -/
theorem C51_restart_unchanged {c : SCfg} {s s' : DSt} {order : List Tuple} (hl : load c s order = some s') : s'.dev = s.dev := by
  obtain ⟨a0, l, _, _, _, rfl⟩ := load_some hl
  rfl

/-! ## C49 -/

theorem trace_reach {c : SCfg} {tr : Nat → DSt} {n : Nat} (ht : Trace c tr n) (h0 : Reach c (tr 0)) : ∀ {i}, i ≤ n → Reach c (tr i) := by
  intro i
  induction i with
  | zero => intro _; exact h0
  | succ i ih => intro hi; exact (ih (by omega)).step (ht i (by omega))

theorem trace_faults {c : SCfg} {tr : Nat → DSt} {n : Nat} (ht : Trace c tr n) {i j : Nat} (hij : i ≤ j) (hj : j ≤ n)
    (hf : PageFaultFree (tr j)) : PageFaultFree (tr i) := by
  induction j with
  | zero => rw [Nat.le_zero.1 hij]; exact hf
  | succ j ih =>
    rcases Nat.lt_or_ge i (j + 1) with h | h
    · refine ih (by omega) (by omega) ?_
      have hs := ht j (by omega)
      exact ⟨fun h => hf.1 (faults_step hs _ h), fun h => hf.2.1 (faults_step hs _ h), fun h => hf.2.2 (faults_step hs _ h)⟩
    · rw [show i = j + 1 by omega]; exact hf

/-- bytes of an object that stays in use from `a` to `b` -/
theorem trace_stable {c : SCfg} (hc : c.Ok) {tr : Nat → DSt} {n : Nat} (ht : Trace c tr n) (h0 : Reach c (tr 0))
    (hf : PageFaultFree (tr n)) {o : Obj} {a b : Nat} (hab : a ≤ b) (hb : b ≤ n) (hu : ∀ i, a ≤ i → i < b → InUse (tr i) o)
    {off p x : Nat} (hp : (off, p) ∈ o.m.dataPages c.pages) (h1 : off ≤ x) (h2 : x < off + 2 ^ p) : (tr b).dev x = (tr a).dev x := by
  induction b with
  | zero => rw [Nat.le_zero.1 hab]
  | succ b ih =>
    rcases Nat.lt_or_ge a (b + 1) with h | h
    · rw [← ih (by omega) (by omega) (fun i h3 h4 => hu i h3 (by omega))]
      exact C51_visible_unchanged_partial hc (trace_reach ht h0 (by omega)) (ht b (by omega))
        (trace_faults ht (by omega : b + 1 ≤ n) (Nat.le_refl _) hf) (hu b (by omega) (by omega)) hp h1 h2
    · rw [show a = b + 1 by omega]

theorem read_getElem (dev : Mem) (a n : Nat) : dev.read a n = (List.range n).map (fun i => dev (a + i)) := by
  rfl

theorem allBytes_congr {dev dev' : Mem} {pl : List (Nat × Nat)} (h : ∀ p ∈ pl, ∀ x, p.1 ≤ x → x < p.1 + 2 ^ p.2 → dev x = dev' x) :
    RW.allBytes dev pl = RW.allBytes dev' pl := by
  induction pl with
  | nil => rfl
  | cons p pl ih =>
    simp only [RW.allBytes, List.flatMap_cons] at ih ⊢
    rw [ih (fun q hq => h q (by simp [hq]))]
    congr 1
    exact Mem.read_congr (fun x h1 h2 => h p (by simp) x h1 h2)

/-- A read that finds `o` and then fetches its bytes one by one, byte `x` of the device at time `clock x` between
`a` and `b`, yields exactly the requested range of the contents `o` had when it was found, as long as `o` stays
visible or the call deleting or replacing it is not answered before the read ends. -/
theorem C49_direct_undisturbed_partial {c : SCfg} (hc : c.Ok) {tr : Nat → DSt} {n : Nat} (ht : Trace c tr n) (h0 : Reach c (tr 0))
    (hf : PageFaultFree (tr n)) {o : Obj} {lay : ObjectLayout} {a b : Nat} (hab : a < b) (hb : b ≤ n)
    (hu : ∀ i, a ≤ i → i < b → InUse (tr i) o) (clock : Nat → Nat) (hcl : ∀ x, a ≤ clock x ∧ clock x ≤ b)
    (hlay : calcObjectLayoutDirect c.pages o.m.size = some lay) (bufSize start stop : Nat) (hbuf : 0 < bufSize)
    (h1 : start ≤ stop) (h2 : stop ≤ o.m.size) (fuel : Nat) (hfuel : stop - start < fuel) :
    ∃ chunks, RW.opReadDirect c.pages o.m.rw (fun x => (tr (clock x)).dev x) bufSize start (some stop) fuel = .ret (.ok chunks) ∧
      chunks.flatten = ((RW.contents c.pages lay (tr a).dev o.m.rw).drop start).take (stop - start) := by
  have hra := trace_reach ht h0 (i := a) (by omega)
  have hS := reach_safe hc hra (trace_faults ht (by omega : a ≤ n) (Nat.le_refl _) hf).1
    (trace_faults ht (by omega : a ≤ n) (Nat.le_refl _) hf).2.1 (trace_faults ht (by omega : a ≤ n) (Nat.le_refl _) hf).2.2
  have hsh : o.m.Shape c := by
    have hn : NamedO (tr a).names o := by
      rcases hu a (Nat.le_refl _) hab with hk | ⟨th, hth, hv⟩
      · exact hS.N.com _ _ hk
      · refine hS.N.thr th hth o ?_
        generalize th.pc = pc at hv
        cases pc with
        | reap o' why => cases why <;> simp_all [PC.victims, PC.objs]
        | reapTuple o' t tk why => cases why <;> simp_all [PC.victims, PC.objs]
        | _ => simp_all [PC.victims, PC.objs]
    obtain ⟨mo, hn⟩ := hn
    exact (reach_sh hra).nm _ _ _ hn
  obtain ⟨chunks, e1, e2, _⟩ := C18_direct_read_exact c.pages ⟨hc.sl, hc.l32, hc.l24⟩ o.m.rw (fun x => (tr (clock x)).dev x) lay
    hlay bufSize start stop hbuf (some stop) rfl h1 h2 fuel hfuel
  refine ⟨chunks, e1, ?_⟩
  rw [e2]
  congr 2
  simp only [RW.contents]
  congr 1
  refine allBytes_congr ?_
  rw [rw_pages hlay hsh]
  intro p hp x g1 g2
  obtain ⟨g3, g4⟩ := hcl x
  exact trace_stable hc ht h0 hf g3 (by omega) (fun i h3 h4 => hu i h3 (by omega)) hp g1 g2

/-- The code breaks C49: nothing tells a reader that the object it found was deleted (deleting does not change
the object's state, which is all the reader checks). Key 1 holds the bytes 1, 2, 3 and a reader has found the
object; the object is deleted, its page is given to an object with key 2 and the bytes 7, 8, 9; the reader then
fetches 7, 8, 9. -/
theorem C49_direct_violated : ∃ (s1 s2 : DSt) (o : Obj) (cmds : List Cmd), Reach wcfg s1 ∧ wcfg.Ok ∧
    run wcfg s1 cmds = some s2 ∧ s2.faults = [] ∧ s1.committed [1] = some o ∧
    RW.opReadDirect wcfg.pages o.m.rw s1.dev 4096 0 none 100 = .ret (.ok [[1, 2, 3]]) ∧
    RW.opReadDirect wcfg.pages o.m.rw s2.dev 4096 0 none 100 = .ret (.ok [[7, 8, 9]]) ∧
    s2.acks.map (·.resp) = [.created 5, .committed (some 9), .deleted, .created 6, .committed (some 12)] := by
  have h : (wrun (doCreate [1] 3 5 0 ++ [.openHandle 5, .writeStart 0 0 [1, 2, 3], .writeDone 0] ++ doCommit 5 9 0)).bind (fun s1 =>
      (run wcfg s1 (doDelete [1] 0 ++ doCreate [2] 3 6 0 ++ [.openHandle 6, .writeStart 0 0 [7, 8, 9], .writeDone 0] ++ doCommit 6 12 0)).bind
        (fun s2 => (s1.committed [1]).map (fun o => (s2.faults, s2.acks.map (·.resp),
          decide (RW.opReadDirect wcfg.pages o.m.rw s1.dev 4096 0 none 100 = .ret (.ok [[1, 2, 3]])),
          decide (RW.opReadDirect wcfg.pages o.m.rw s2.dev 4096 0 none 100 = .ret (.ok [[7, 8, 9]])))))) =
      some ([], [.created 5, .committed (some 9), .deleted, .created 6, .committed (some 12)], true, true) := by decide +kernel
  obtain ⟨s1, h1, h⟩ := Option.bind_eq_some_iff.1 h
  obtain ⟨s2, h2, h⟩ := Option.bind_eq_some_iff.1 h
  obtain ⟨o, ho, h⟩ := Option.map_eq_some_iff.1 h
  simp only [Prod.mk.injEq, decide_eq_true_eq] at h
  exact ⟨s1, s2, o, _, wrun_reach h1, wcfg_ok, h2, h.1, ho, h.2.2.1, h.2.2.2, h.2.1⟩

end Props
end Blobd
