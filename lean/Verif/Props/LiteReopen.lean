import Verif.Proofs.LiteReopen
import Verif.Proofs.LiteLeave
import Verif.Proofs.LiteQuiet
import Verif.Proofs.LiteCommits
set_option autoImplicit false
/-!
# C64 reopening a lite store, C65 crashes of a lite store

`Opens c m a`: opening a device with contents `m` succeeds and ends with the page allocator `a`. `reopened c s a`: the store
after the process that was in state `s` ended, and the device was opened with that result. `Later c s s'`: an execution
from `s` to `s'` that creates nothing and releases no pages (lookups, reads, writes, commits), with any interleaving.
-/
namespace Blobd
namespace Props
open Lite

/-! ## C64 -/

/-- When no call is running, everything the calls changed is on the device. -/
theorem C64_idle_is_durable {c : LCfg} (hc : c.Ok) {s : LSt} (hr : Reach c s) (hf : s.faults = []) (hi : Idle s) : Drained s :=
  drained_of_idle hc hr hf (fun i t ht => by rw [hi i t ht]; rfl)

/-- … and the lists on the device are those of the store: key by key, the versions that result from what happened. After
the device was opened again, lookups, reads, writes and commits are answered as if there had been no restart. -/
theorem C64_reopened_partial {c : LCfg} (hc : c.Ok) {s : LSt} (hr : Reach c s) (hf : s.faults = []) (hd : Drained s) (a : Buddy) :
    (∃ x, absRun c.versioning (s.lin.map (·.2)) = some x ∧ DeviceShows c (reopened c s a).j.dev x) ∧
    ∀ s', Later c (reopened c s a) s' → s'.faults = [] →
      s.lin <+: s'.lin ∧ s.acks <+: s'.acks ∧ (∃ x, absRun c.versioning (s'.lin.map (·.2)) = some x) ∧
      (∀ k ∈ s'.acks, k.start.at_ ≤ k.stop ∧ k.stop ≤ s'.lin.length ∧ Explained s'.lin k) := by
  obtain ⟨base, v, leak, hi⟩ := reach_inv hc hr hf
  obtain ⟨v', leak', hi', _⟩ := reopen_inv hc hi (drained_unacked hd) (m := s.j.dev) (fun _ _ => rfl)
  have hsh := shows_of hc hi' rfl
  refine ⟨⟨_, hi'.abs, hsh⟩, ?_⟩
  intro s' hl hf'
  obtain ⟨b2, v2, l2, h2⟩ := later_inv hc hl (b := s.alloc) hi' hf'
  have hg := later_grows hl
  exact ⟨hg.1, hg.2, ⟨_, h2.abs⟩, (later_ai hl (reopened_ai (reach_ai hr) a)).acks⟩

/-- A store that holds no object can be opened again, exactly if it could be opened when it was new, and with the same
result. -/
theorem C64_empty_reopens {c : LCfg} (hc : c.Ok) {s : LSt} (hr : Reach c s) (hf : s.faults = []) (hd : Drained s) (he : Lite.Empty c s) (a : Buddy) :
    Opens c s.j.dev a ↔ ∃ s0, fresh c s.j.dev = some s0 ∧ a = s0.alloc := by
  obtain ⟨base, v, leak, hi⟩ := reach_inv hc hr hf
  have hh : loadHeads c s.j.dev = [] := by
    unfold loadHeads
    rw [List.filter_eq_nil_iff]
    intro x hx
    obtain ⟨b, hb, rfl⟩ := List.mem_map.1 hx
    have hb := List.mem_range.1 hb
    rw [startup_head, ← drained_head hc hi (drained_unacked hd) hb, chain_zero (he b hb)]
    simp
  constructor
  · rintro ⟨a0, cs, h1, h2, h3⟩
    rw [hh] at h2
    cases load_none h2 rfl
    exact ⟨_, by unfold fresh; rw [h1], rfl⟩
  · rintro ⟨s0, h1, rfl⟩
    unfold fresh at h1
    split at h1
    · rename_i a0 h0
      cases h1
      exact ⟨a0, [], h0, by rw [hh]; exact .refl, by simp⟩
    · cases h1

/-- The code breaks C64: startup reads the bucket heads with the wrong shift (`>> 8` for `<< 8`), so that it takes
`off / 65536` for the place of a bucket's first object at `off`. That place lies in the table of bucket heads (at device
offset 0, as in the real layout) unless the device is huge; if the head stored there is that of an empty bucket, the byte
that startup takes for the object's state is 0, and it panics. A store that stopped cleanly can then never be opened
again. -/
theorem C64_violated_never_opens {c : LCfg} (hc : c.Ok) (h0 : c.bkDev = 0) {s : LSt} (hr : Reach c s) (hf : s.faults = []) (hd : Drained s)
    {b off : Nat} (hb : b < 2 ^ c.bits) {l : List Nat} (hch : Chain s (getHead c s b) (off :: l)) (hlo : 65536 ≤ off)
    (hin : off / 65536 / 5 < 2 ^ c.bits) (hemp : Chain s (getHead c s (off / 65536 / 5)) []) (a : Buddy) : ¬ Opens c s.j.dev a := by
  obtain ⟨base, v, leak, hi⟩ := reach_inv hc hr hf
  rintro ⟨a0, cs, h1, h2, h3⟩
  have hz := chain_zero hemp
  rw [drained_head hc hi (drained_unacked hd) hin] at hz
  have hbyte : s.j.dev (off / 65536) = 0 := by
    refine head_zero_bytes hz ?_ ?_ <;> rw [h0] <;> unfold bucketOff <;> omega
  have hst : rdState s.j.dev (off / 65536) = 0 := by
    simp [rdState, Mem.read, ObjectOffsets.state, List.range_succ, hbyte, leVal]
  have hbad : ∀ a, loadInode c s.j.dev (off / 65536) a = none :=
    loadInode_bad (by rw [hst]; decide) (by rw [hst]; decide)
  have hmem : off / 65536 ∈ loadHeads c s.j.dev := by
    refine List.mem_filter.2 ⟨List.mem_map.2 ⟨b, List.mem_range.2 hb, ?_⟩, by simp; omega⟩
    rw [startup_head, ← drained_head hc hi (drained_unacked hd) hb, chain_cons_head hch]
  have := h3 _ (load_stuck hbad h2 hmem)
  omega

/-- Hypotheses met: one committed object, in bucket 0, in a store with the layout the code gives the smallest number of
buckets. -/
example : ∃ s l, SeqReach (rcfg 0) s ∧ (rcfg 0).Ok ∧ (rcfg 0).bkDev = 0 ∧ Idle s ∧ s.faults = [] ∧ Drained s ∧
    (s.lin.map (·.2) = [.created [1] 5 3, .opened [1] 5 3, .committed [1] 5]) ∧
    Chain s (getHead (rcfg 0) s 0) (33620224 :: l) ∧ 33620224 / 65536 / 5 < 2 ^ (rcfg 0).bits ∧ Chain s (getHead (rcfg 0) s (33620224 / 65536 / 5)) [] := by
  have h : (rseq 0 (doCreate 0 [1] 3 5 ++ doWrite 1 [1] 5 1 [9, 9, 9] ++ doCommit 2 [1] 5 1)).map (fun s =>
      idleB s && (decide (s.lin.map (·.2) = [.created [1] 5 3, .opened [1] 5 3, .committed [1] 5]) &&
        (decide (listOf s 3 (getHead (rcfg 0) s 0) = [33620224]) && decide (getHead (rcfg 0) s 102 = 0)))) = some true := by decide +kernel
  obtain ⟨s, h1, h2⟩ := Option.map_eq_some_iff.1 h
  simp only [Bool.and_eq_true, decide_eq_true_eq] at h2
  obtain ⟨e1, e2, e3, e4⟩ := h2
  have hr := rseq_reach (by decide) h1
  have hok := rcfg_ok 0 (by decide)
  have hf := (seq_faults hok hr).2
  obtain ⟨_, _, _, hi⟩ := reach_inv hok hr.reach hf
  have hidle := idleB_ok e1 (fun i t ht => (hi.thr i t ht).1)
  have hch : Chain s (getHead (rcfg 0) s 0) (listOf s 3 (getHead (rcfg 0) s 0)) := listOf_chain (by rw [e3]; decide)
  rw [e3] at hch
  refine ⟨s, [], hr, hok, rfl, hidle, hf, C64_idle_is_durable hok hr.reach hf hidle, e2, hch, by decide, ?_⟩
  rw [show 33620224 / 65536 / 5 = 102 from rfl, e4]
  exact .nil

/-- The code breaks C64 even if startup succeeds, which it can by accident (here the byte it takes for the state of an
object is 1): the pages of the objects are not marked as used. An object was created, written and committed, the process
ended and the device was opened again; a lookup finds the object; another object is created and written, in the same
pages; a lookup of the first object reports that there is none. Nothing was ever deleted. -/
theorem C64_violated_pages_reused : ∃ s a s', SeqReach (rcfg 102) s ∧ (rcfg 102).Ok ∧ Idle s ∧ Opens (rcfg 102) s.j.dev a ∧
    Execs (rcfg 102) (reopened (rcfg 102) s a) s' ∧
    s'.acks.map (fun a => (a.start.call, a.resp)) =
      [(.create [1] 3, .created 5), (.lookup (.write 5 0 3) [1], .written (.ok ())), (.lookup (.commit 5) [1], .committed),
       (.lookup (.look none) [1], .found 5 3 33620224), (.create [2] 300, .created 6), (.lookup (.write 6 0 300) [2], .written (.ok ())),
       (.lookup (.look none) [1], .notFound)] := by
  have h : (rcrash 102 (doCreate 0 [1] 3 5 ++ doWrite 1 [1] 5 1 [9, 9, 9] ++ doCommit 2 [1] 5 1) 513
      (doLook 3 [1] 1 ++ doCreate 4 [2] 300 6 ++ doWrite 5 [2] 6 1 (List.replicate 300 0) ++ doLook 6 [1] 2 ++ [.a (.atEnd 6 false)])).map (fun x =>
      idleB x.1 && decide (x.2.acks.map (fun a => (a.start.call, a.resp)) =
      [(.create [1] 3, .created 5), (.lookup (.write 5 0 3) [1], .written (.ok ())), (.lookup (.commit 5) [1], .committed),
       (.lookup (.look none) [1], .found 5 3 33620224), (.create [2] 300, .created 6), (.lookup (.write 6 0 300) [2], .written (.ok ())),
       (.lookup (.look none) [1], .notFound)])) = some true := by decide +kernel
  obtain ⟨⟨s, s'⟩, h1, h2⟩ := Option.map_eq_some_iff.1 h
  simp only [Bool.and_eq_true, decide_eq_true_eq] at h2
  obtain ⟨e1, e2⟩ := h2
  obtain ⟨hr, a, ho, he⟩ := rcrash_ok (by decide) h1
  have hok := rcfg_ok 102 (by decide)
  obtain ⟨_, _, _, hi⟩ := reach_inv hok hr.reach (seq_faults hok hr).2
  exact ⟨s, a, s', hr, hok, idleB_ok e1 (fun i t ht => (hi.thr i t ht).1), ho, he, e2⟩

/-! ## C65 -/

/-- Calls one at a time, and a crash at any moment outside the two windows of `Exposed`: what is on the device are the
versions that result from all events, or from all but the last, whose call was not answered. Every answer given before
the crash is explained by the events that count, and lookups, reads, writes and commits after the restart go on from
them. -/
theorem C65_crash_partial {c : LCfg} (hc : c.Ok) {s : LSt} (h : SeqReach c s) (hx : ¬ Exposed c s) :
    ∃ pre, (pre = s.lin ∨ ∃ p, s.lin = pre ++ [p]) ∧
      (∃ x, absRun c.versioning (pre.map (·.2)) = some x ∧ DeviceShows c (Journal.recover c.jc s.j.dev) x) ∧
      (∀ k ∈ s.acks, k.start.at_ ≤ k.stop ∧ k.stop ≤ pre.length ∧ Explained pre k) ∧
      ∀ a s', Later c (restarted c s a pre) s' → s'.faults = [] →
        pre <+: s'.lin ∧ s.acks <+: s'.acks ∧ (∃ x, absRun c.versioning (s'.lin.map (·.2)) = some x) ∧
        (∀ k ∈ s'.acks, k.start.at_ ≤ k.stop ∧ k.stop ≤ s'.lin.length ∧ Explained s'.lin k) := by
  obtain ⟨pre, base, v, leak, b, h1, h2, h3⟩ := seq_crash hc h hx
  have hsh := shows_of hc h3 rfl
  refine ⟨pre, h1, ⟨_, h3.abs, hsh⟩, h2.acks, ?_⟩
  intro a s' hl hf
  obtain ⟨b2, v2, l2, h4⟩ := later_inv hc hl (b := b) h3 hf
  have hg := later_grows hl
  exact ⟨hg.1, hg.2, ⟨_, h4.abs⟩, (later_ai hl ⟨h2.ids, (fun i t ht => by cases ht), h2.acks⟩).acks⟩

/-- In particular a commit that replaces nothing, or any commit with versioning, is atomic: at every moment of it, whatever
part of the journal's writes has reached the device. -/
theorem C65_commit_atomic {c : LCfg} (hc : c.Ok) {s : LSt} (h : SeqReach c s) {pre0 : List (Nat × Ev)} {i id : Nat} {k : List Byte}
    (hl : s.lin = pre0 ++ [(i, .committed k id)])
    (hn : c.versioning = true ∨ ∀ x, absRun c.versioning (pre0.map (·.2)) = some x → x.find k none = none) :
    ∃ pre, (pre = s.lin ∨ pre = pre0) ∧ ∃ x, absRun c.versioning (pre.map (·.2)) = some x ∧ DeviceShows c (Journal.recover c.jc s.j.dev) x := by
  have hx : ¬ Exposed c s := by
    rintro ⟨_, ⟨hv, pre, i', k', id', x, e1, e2, e3⟩ | ⟨_, e⟩⟩
    · rcases hn with hn | hn
      · rw [hn] at hv; cases hv
      · rw [hl] at e1
        obtain ⟨q1, q2⟩ := List.append_inj' e1 rfl
        simp only [List.cons.injEq, Prod.mk.injEq, Ev.committed.injEq, and_true] at q2
        obtain ⟨_, rfl, _⟩ := q2
        subst q1
        rw [hn x e2] at e3
        cases e3
    · exact e _ _ _ _ hl
  obtain ⟨pre, h1, h2, _⟩ := C65_crash_partial hc h hx
  refine ⟨pre, h1.imp_right ?_, h2⟩
  rintro ⟨p, e⟩
  rw [hl] at e
  exact ((List.append_inj' e rfl).1).symm

/-- Hypotheses met: a crash while the journal writes a commit to its place. -/
example : ∃ s, SeqReach (rcfg 102) s ∧ (rcfg 102).Ok ∧ Applying s ∧ ¬ Drained s ∧ s.lin = [(0, .created [1] 5 3)] ++ [(1, .committed [1] 5)] ∧
    ∀ x, absRun (rcfg 102).versioning ([(0, Ev.created [1] 5 3)].map (·.2)) = some x → x.find [1] none = none := by
  have h : (rseq 102 (doCreate 0 [1] 3 5 ++ commitTo 1 [1] 5 1 ++ [.timer, .recv, .journalDone])).map (fun s =>
      (match s.j.phase with | .entries _ (_ :: _) => true | _ => false) && (decide (s.lin = [(0, .created [1] 5 3), (1, .committed [1] 5)]) &&
        decide (s.j.acked.length ≠ s.j.hist.length))) = some true := by decide +kernel
  obtain ⟨s, h1, h2⟩ := Option.map_eq_some_iff.1 h
  simp only [Bool.and_eq_true, decide_eq_true_eq] at h2
  obtain ⟨e1, e2, e3⟩ := h2
  refine ⟨s, rseq_reach (by decide) h1, rcfg_ok 102 (by decide), ?_, e3, e2, ?_⟩
  · split at e1
    · rename_i hp; exact ⟨_, _, hp, by simp⟩
    · cases e1
  · intro x hx
    cases hx
    rfl

/-- Any number of overlapping calls, and a crash at any moment: a bucket of which every change has been answered is on the
device as the answers say, whatever goes on in the other buckets, and however far the journal is. -/
theorem C65_quiet_bucket_partial {c : LCfg} (hc : c.Ok) {s : LSt} (hr : Reach c s) (hf : s.faults = []) {b : Nat} (hb : b < 2 ^ c.bits)
    (hq : Answered c s b) :
    ∃ x, absRun c.versioning (s.lin.map (·.2)) = some x ∧ BucketShows c (Journal.recover c.jc s.j.dev) x b :=
  quiet_bucket hc hr hf hb hq

/-- … and after the restart an inspect of any key of that bucket finds what the answers say: it is answered after a bounded
number of steps of its own, and whatever it is answered is what the history of the crashed process says. Nothing that a
call acknowledged is lost, and nothing that was deleted comes back. -/
theorem C65_quiet_lookup_partial {c : LCfg} (hc : c.Ok) {s : LSt} (hr : Reach c s) (hf : s.faults = []) {b : Nat} (hb : b < 2 ^ c.bits)
    (hq : Answered c s b) (a : Buddy) {key : List Byte} (hk : c.bkt key = b) (want : Option Nat) :
    ∃ x s1, absRun c.versioning (s.lin.map (·.2)) = some x ∧ act c (reopened c s a) (.lookup (.look want) key) = some s1 ∧
      (∃ N, ∀ n s2, Looking c s.nextCall n s1 s2 → n ≤ N) ∧
      ∀ n s2, Looking c s.nextCall n s1 s2 →
        (∀ r ∈ s2.acks, r ∈ s.acks ∨ (r.id = s.nextCall ∧ AnswersAs x key want r.resp)) ∧
        ∃ n' s3 r, Looking c s.nextCall n' s2 s3 ∧ s3.acks = s.acks ++ [r] ∧ r.id = s.nextCall ∧ AnswersAs x key want r.resp := by
  obtain ⟨x, h1, h2⟩ := quiet_bucket hc hr hf hb hq
  obtain ⟨s1, h3, h4, h5⟩ := look_answers h2 (s := reopened c s a) rfl rfl rfl hk want
  exact ⟨x, s1, h1, h3, h4, h5⟩

/-- Hypotheses met: bucket 102 holds a committed object; in bucket 0 a create is half written to its place, a commit of
another object waits for the journal and a third object is being created, all at once. -/
example : ∃ s, Reach qcfg s ∧ qcfg.Ok ∧ s.faults = [] ∧ Answered qcfg s 102 ∧ qcfg.bkt [1] = 102 ∧ ¬ Drained s ∧ Applying s ∧
    (∃ i j, i ≠ j ∧ (s.thr i).isSome ∧ (s.thr j).isSome) ∧ ¬ Answered qcfg s 0 ∧
    s.lin.map (·.2) = [.created [1] 5 3, .opened [1] 5 3, .committed [1] 5, .created [2] 6 3, .created [3] 7 3, .committed [2] 6] := by
  have h : (qrun (doCreate 0 [1] 3 5 ++ doWrite 1 [1] 5 1 [9, 9, 9] ++ doCommit 2 [1] 5 1 ++ doCreate 3 [2] 3 6 ++
      createTo 4 [3] 3 7 ++ [.timer, .recv, .journalDone, .entryDone] ++ commitTo 5 [2] 6 2)).map (fun s =>
      (match s.j.phase with | .entries _ (_ :: _) => true | _ => false) && (decide (s.lin.map (·.2) = [.created [1] 5 3, .opened [1] 5 3, .committed [1] 5, .created [2] 6 3, .created [3] 7 3, .committed [2] 6]) &&
        (decide (s.lin.map (·.1) = [0, 1, 2, 3, 4, 5]) && (decide (s.acks.map (·.id) = [0, 1, 2, 3]) &&
        (decide (s.j.acked.length ≠ s.j.hist.length) && (decide (s.faults = []) && ((s.thr 4).isSome && (s.thr 5).isSome))))))) = some true := by
    decide +kernel
  obtain ⟨s, h1, h2⟩ := Option.map_eq_some_iff.1 h
  simp only [Bool.and_eq_true, decide_eq_true_eq] at h2
  obtain ⟨e1, e2, e3, e4, e5, e6, e7, e8⟩ := h2
  have hlin : s.lin = [(0, .created [1] 5 3), (1, .opened [1] 5 3), (2, .committed [1] 5), (3, .created [2] 6 3), (4, .created [3] 7 3), (5, .committed [2] 6)] := by
    have : s.lin = (s.lin.map (·.1)).zip (s.lin.map (·.2)) := by rw [List.zip_map']; simp
    rw [this, e2, e3]
    rfl
  have hack : ∀ n, (∃ a ∈ s.acks, a.id = n) ↔ n ∈ [0, 1, 2, 3] := by intro n; rw [← e4, List.mem_map]
  refine ⟨s, qrun_reach h1, qcfg_ok, e6, ?_, by decide +kernel, e5, ?_, ⟨4, 5, by decide, e7, e8⟩, ?_, e2⟩
  · intro i e he hb _
    rw [hack]
    rw [hlin] at he
    simp only [List.mem_cons, Prod.mk.injEq, List.not_mem_nil, or_false] at he
    rcases he with ⟨rfl, rfl⟩ | ⟨rfl, rfl⟩ | ⟨rfl, rfl⟩ | ⟨rfl, rfl⟩ | ⟨rfl, rfl⟩ | ⟨rfl, rfl⟩ <;> first | decide | (exfalso; revert hb; decide +kernel)
  · split at e1
    · rename_i hp; exact ⟨_, _, hp, by simp⟩
    · cases e1
  · intro hq
    have := (hack 5).1 (hq 5 (.committed [2] 6) (by rw [hlin]; simp) (by decide +kernel) (.inr (.inl ⟨_, _, rfl⟩)))
    revert this; decide

/-- Any number of overlapping calls, and a crash at any moment: when the only unanswered changes of a bucket are commits that replaced
nothing, the device shows the bucket as the history says, but for some (any subset) of these commits: each of them has either happened
entirely or not at all. -/
theorem C65_pending_commits_partial {c : LCfg} (hc : c.Ok) {s : LSt} (hr : Reach c s) (hf : s.faults = []) {b : Nat} (hb : b < 2 ^ c.bits)
    (hq : OnlyCommits c s b) :
    ∃ x D, absRun c.versioning (s.lin.map (·.2)) = some x ∧
      (∀ id ∈ D, ∃ i key, (i, .committed key id) ∈ s.lin ∧ c.bkt key = b ∧ ∀ a ∈ s.acks, a.id ≠ i) ∧
      BucketShows c (Journal.recover c.jc s.j.dev) (x.without D) b := by
  obtain ⟨x, D, h1, h2, h3⟩ := commits_bucket hc hr hf hb hq
  refine ⟨x, D, h1, ?_, h3⟩
  intro id hid
  obtain ⟨i, key, g1, g2, g3, _⟩ := h2 id hid
  exact ⟨i, key, g1, g2, g3⟩

/-- … and that is what an inspect finds after the restart. -/
theorem C65_pending_commits_lookup_partial {c : LCfg} (hc : c.Ok) {s : LSt} (hr : Reach c s) (hf : s.faults = []) {b : Nat} (hb : b < 2 ^ c.bits)
    (hq : OnlyCommits c s b) (a : Buddy) :
    ∃ x D, absRun c.versioning (s.lin.map (·.2)) = some x ∧
      (∀ id ∈ D, ∃ i key, (i, .committed key id) ∈ s.lin ∧ c.bkt key = b ∧ ∀ a ∈ s.acks, a.id ≠ i) ∧
      ∀ key want, c.bkt key = b → ∃ s1, act c (reopened c s a) (.lookup (.look want) key) = some s1 ∧
        (∃ N, ∀ n s2, Looking c s.nextCall n s1 s2 → n ≤ N) ∧
        ∀ n s2, Looking c s.nextCall n s1 s2 →
          (∀ r ∈ s2.acks, r ∈ s.acks ∨ (r.id = s.nextCall ∧ AnswersAs (x.without D) key want r.resp)) ∧
          ∃ n' s3 r, Looking c s.nextCall n' s2 s3 ∧ s3.acks = s.acks ++ [r] ∧ r.id = s.nextCall ∧ AnswersAs (x.without D) key want r.resp := by
  obtain ⟨x, D, h1, h2, h3⟩ := commits_bucket hc hr hf hb hq
  refine ⟨x, D, h1, fun id hid => ?_, ?_⟩
  · obtain ⟨i, key, g1, g2, g3, _⟩ := h2 id hid
    exact ⟨i, key, g1, g2, g3⟩
  intro key want hk
  obtain ⟨s1, h4, h5, h6⟩ := look_answers h3 (s := reopened c s a) rfl rfl rfl hk want
  exact ⟨s1, h4, h5, h6⟩

/-- Hypotheses met: two objects of bucket 0 are being committed at once; the journal has written one of the two commits to its place
and not yet the other, so that the device shows one object committed and the other not. -/
example : ∃ s, Reach qcfg s ∧ qcfg.Ok ∧ s.faults = [] ∧ OnlyCommits qcfg s 0 ∧ ¬ Answered qcfg s 0 ∧ Applying s ∧
    s.lin.map (·.2) = [.created [2] 6 3, .created [3] 7 3, .committed [2] 6, .committed [3] 7] ∧
    ∃ o o', Listed qcfg s o ∧ Listed qcfg s o' ∧ rdState s.j.dev o = stCommitted ∧ rdState s.j.dev o' = stIncomplete ∧ stateOf s o' = stCommitted := by
  have h : (qrun (doCreate 0 [2] 3 6 ++ doCreate 1 [3] 3 7 ++ commitTo 2 [2] 6 2 ++ commitTo 3 [3] 7 2 ++
      [.timer, .recv, .journalDone, .entryDone])).map (fun s =>
      (match s.j.phase with | .entries _ (_ :: _) => true | _ => false) && (decide (s.lin.map (·.2) = [.created [2] 6 3, .created [3] 7 3, .committed [2] 6, .committed [3] 7]) &&
        (decide (s.lin.map (·.1) = [0, 1, 2, 3]) && (decide (s.acks.map (·.id) = [0, 1]) && (decide (s.faults = []) &&
        (decide ((listOf s 5 (getHead qcfg s 0)).map (fun o => (rdState s.j.dev o, stateOf s o)) = [(stIncomplete, stCommitted), (stCommitted, stCommitted)])))))))
      = some true := by
    decide +kernel
  obtain ⟨s, h1, h2⟩ := Option.map_eq_some_iff.1 h
  simp only [Bool.and_eq_true, decide_eq_true_eq] at h2
  obtain ⟨e1, e2, e3, e4, e5, e6⟩ := h2
  have hlin : s.lin = [(0, .created [2] 6 3), (1, .created [3] 7 3), (2, .committed [2] 6), (3, .committed [3] 7)] := by
    have : s.lin = (s.lin.map (·.1)).zip (s.lin.map (·.2)) := by rw [List.zip_map']; simp
    rw [this, e2, e3]
    rfl
  have hack : ∀ n, (∃ a ∈ s.acks, a.id = n) ↔ n ∈ [0, 1] := by intro n; rw [← e4, List.mem_map]
  refine ⟨s, qrun_reach h1, qcfg_ok, e5, ?_, ?_, ?_, e2, ?_⟩
  · intro i e he hb hcase
    rw [hack]
    have norep : ∀ i e, 2 ≤ i → ¬ ReplacedIn qcfg s.lin i e := by
      rintro i e hi ⟨_, pre, post, k, id, x, q1, q2, q3, q4⟩
      rw [hlin] at q1
      match pre, q1, q3 with
      | [], q1, _ => simp at q1; omega
      | [p], q1, _ => simp at q1; omega
      | [p, p'], q1, q3 =>
        simp only [List.cons_append, List.nil_append, List.cons.injEq, Prod.mk.injEq] at q1
        obtain ⟨rfl, rfl, ⟨_, rfl⟩, _⟩ := q1
        cases q2
        cases q3
        revert q4; decide
      | [p, p', p2], q1, q3 =>
        simp only [List.cons_append, List.nil_append, List.cons.injEq, Prod.mk.injEq] at q1
        obtain ⟨rfl, rfl, rfl, ⟨_, rfl⟩, _⟩ := q1
        cases q2
        cases q3
        revert q4; decide
      | p :: p' :: p2 :: p3 :: l, q1, _ => simp at q1
    have h23 : i = 0 ∨ i = 1 ∨ ((i = 2 ∨ i = 3) ∧ ∃ k id, e = .committed k id) := by
      rw [hlin] at he
      simp only [List.mem_cons, Prod.mk.injEq, List.not_mem_nil, or_false] at he
      rcases he with ⟨rfl, rfl⟩ | ⟨rfl, rfl⟩ | ⟨rfl, rfl⟩ | ⟨rfl, rfl⟩ <;> simp
    rcases h23 with rfl | rfl | ⟨hi, k, id, rfl⟩
    · simp
    · simp
    · exfalso
      rcases hcase with ⟨_, _, _, h⟩ | h | ⟨_, _, _, h⟩
      · cases h
      · exact norep _ _ (by omega) h
      · cases h
  · intro hq
    have := (hack 2).1 (hq 2 (.committed [2] 6) (by rw [hlin]; simp) (by decide +kernel) (.inr (.inl ⟨_, _, rfl⟩)))
    revert this; decide
  · split at e1
    · rename_i hp; exact ⟨_, _, hp, by simp⟩
    · cases e1
  · have hl := listOf_chain (s := s) (n := 5) (off := getHead qcfg s 0) (by
      have := congrArg List.length e6
      simp only [List.length_map] at this
      rw [this]; decide)
    generalize listOf s 5 (getHead qcfg s 0) = l at e6 hl
    rcases l with _ | ⟨o', _ | ⟨o, _ | ⟨o2, l⟩⟩⟩
    · simp at e6
    · simp at e6
    · simp only [List.map_cons, List.map_nil, List.cons.injEq, Prod.mk.injEq, and_true] at e6
      exact ⟨o, o', ⟨0, by decide, _, hl, by simp⟩, ⟨0, by decide, _, hl, by simp⟩, e6.2.1, e6.1.1, e6.1.2⟩
    · simp at e6

/-- The code breaks C65: a crash while the journal writes the two changes of a create to their places. An object was
created, written and committed; another one of the same bucket is being created, the head of the bucket's list points to
it already, but it does not yet point on to the first object. After the restart (which does not apply what the journal
recorded) a lookup of the first object reports that there is none. -/
theorem C65_violated_create_half_applied : ∃ s a s', SeqReach (rcfg 102) s ∧ (rcfg 102).Ok ∧ Opens (rcfg 102) s.j.dev a ∧
    Execs (rcfg 102) (reopened (rcfg 102) s a) s' ∧ s.lin.map (·.2) = [.created [1] 5 3, .opened [1] 5 3, .committed [1] 5, .created [2] 6 3] ∧
    s'.acks.map (fun a => (a.start.call, a.resp)) =
      [(.create [1] 3, .created 5), (.lookup (.write 5 0 3) [1], .written (.ok ())), (.lookup (.commit 5) [1], .committed),
       (.lookup (.look none) [1], .notFound)] := by
  have h : (rcrash 102 (doCreate 0 [1] 3 5 ++ doWrite 1 [1] 5 1 [9, 9, 9] ++ doCommit 2 [1] 5 1 ++ createTo 3 [2] 3 6 ++
      [.timer, .recv, .journalDone, .entryDone]) 513 (doLook 4 [1] 1 ++ [.a (.atEnd 4 false)])).map (fun x =>
      decide (x.1.lin.map (·.2) = [.created [1] 5 3, .opened [1] 5 3, .committed [1] 5, .created [2] 6 3]) &&
      decide (x.2.acks.map (fun a => (a.start.call, a.resp)) =
      [(.create [1] 3, .created 5), (.lookup (.write 5 0 3) [1], .written (.ok ())), (.lookup (.commit 5) [1], .committed),
       (.lookup (.look none) [1], .notFound)])) = some true := by decide +kernel
  obtain ⟨⟨s, s'⟩, h1, h2⟩ := Option.map_eq_some_iff.1 h
  simp only [Bool.and_eq_true, decide_eq_true_eq] at h2
  obtain ⟨hr, a, ho, he⟩ := rcrash_ok (by decide) h1
  exact ⟨s, a, s', hr, rcfg_ok 102 (by decide), ho, he, h2.1, h2.2⟩

/-- The code breaks C65 in another way: a crash during a commit that replaces an object. The pointer to the replaced object
is overwritten on the device at once, before the journal has the change of the new object's state: after the restart
there is neither the old nor the new version. -/
theorem C65_violated_replacing_commit : ∃ s a s', SeqReach (rcfg 102) s ∧ (rcfg 102).Ok ∧ Opens (rcfg 102) s.j.dev a ∧
    Execs (rcfg 102) (reopened (rcfg 102) s a) s' ∧
    s.lin.map (·.2) = [.created [1] 5 3, .opened [1] 5 3, .committed [1] 5, .created [1] 6 3, .committed [1] 6] ∧
    s'.acks.map (fun a => (a.start.call, a.resp)) =
      [(.create [1] 3, .created 5), (.lookup (.write 5 0 3) [1], .written (.ok ())), (.lookup (.commit 5) [1], .committed),
       (.create [1] 3, .created 6), (.lookup (.look none) [1], .notFound)] := by
  have h : (rcrash 102 (doCreate 0 [1] 3 5 ++ doWrite 1 [1] 5 1 [9, 9, 9] ++ doCommit 2 [1] 5 1 ++ doCreate 3 [1] 3 6 ++ commitTo 4 [1] 6 2) 513
      (doLook 5 [1] 1 ++ [.a (.atEnd 5 false)])).map (fun x =>
      decide (x.1.lin.map (·.2) = [.created [1] 5 3, .opened [1] 5 3, .committed [1] 5, .created [1] 6 3, .committed [1] 6]) &&
      decide (x.2.acks.map (fun a => (a.start.call, a.resp)) =
      [(.create [1] 3, .created 5), (.lookup (.write 5 0 3) [1], .written (.ok ())), (.lookup (.commit 5) [1], .committed),
       (.create [1] 3, .created 6), (.lookup (.look none) [1], .notFound)])) = some true := by decide +kernel
  obtain ⟨⟨s, s'⟩, h1, h2⟩ := Option.map_eq_some_iff.1 h
  simp only [Bool.and_eq_true, decide_eq_true_eq] at h2
  obtain ⟨hr, a, ho, he⟩ := rcrash_ok (by decide) h1
  exact ⟨s, a, s', hr, rcfg_ok 102 (by decide), ho, he, h2.1, h2.2⟩

end Props
end Blobd
