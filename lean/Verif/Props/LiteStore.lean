import Verif.Proofs.LiteLeave
import Verif.Proofs.LiteRun
import Verif.Props.ReadWrite
set_option autoImplicit false
/-!
# C15 lite store as a map, C16 bucket lists, C49 slow reads and C52 write isolation of the lite store

`Reach c s`: `s` occurs in some execution from a formatted device, with any interleaving of calls, device writes and the
journal. `SeqReach c s`: the same with calls one at a time (the journal still runs in the background).

The model records in `faults` four events (Model/LiteStore `Fault`) that the code does not prevent when calls overlap;
with calls one at a time none happens. The positive theorems about overlapping calls assume that none of them has
happened, the violation theorems show that they break the claims.
-/
namespace Blobd
namespace Props
open Lite

/-! ## C15 -/

/-- Every execution with calls one at a time: what happened is a run of the abstract store, and the answer to each call
is the meaning of its one event, which happened during the call. -/
theorem C15_sequential {c : LCfg} (hc : c.Ok) {s : LSt} (h : SeqReach c s) :
    (∃ a, absRun c.versioning (s.lin.map (·.2)) = some a) ∧
    ∀ k ∈ s.acks, k.start.at_ ≤ k.stop ∧ k.stop ≤ s.lin.length ∧ Explained s.lin k := by
  obtain ⟨_, _, _, hi⟩ := reach_inv hc h.reach (seq_faults hc h).2
  exact ⟨⟨_, hi.abs⟩, fun k hk => (reach_ai h.reach).acks k hk⟩

/-- … without versioning, a lookup of a key finds exactly the object committed last under that key, unless it was deleted
since, and reports that there is none exactly when nothing was committed or it was deleted. -/
theorem C15_sequential_visible {c : LCfg} (hc : c.Ok) (hv : c.versioning = false) {s : LSt} (h : SeqReach c s) {pre post : List Ev} {k : List Byte} :
    (∀ id size, s.lin.map (·.2) = pre ++ .found k none id size :: post → visMap pre k = some id) ∧
    (s.lin.map (·.2) = pre ++ .missing k none :: post → visMap pre k = none) := by
  obtain ⟨⟨a, ha⟩, _⟩ := C15_sequential hc h
  rw [hv] at ha
  exact ⟨fun id size e => found_visible (e ▸ ha), fun e => missing_visible (e ▸ ha)⟩

/-- … and what happened under one key is explained by the calls for that key alone, whatever bucket they hash to. -/
theorem C15_sequential_keys_independent {c : LCfg} (hc : c.Ok) {s : LSt} (h : SeqReach c s) (k : List Byte) :
    ∃ a, absRun c.versioning ((s.lin.map (·.2)).filter (fun e => e.key = k)) = some a := by
  obtain ⟨⟨a, ha⟩, _⟩ := C15_sequential hc h
  obtain ⟨b, hb, _⟩ := absRun_key ha k
  exact ⟨b, hb⟩

/-- Overlapping calls, if no excluded event happened. -/
theorem C15_concurrent_partial {c : LCfg} (hc : c.Ok) {s : LSt} (h : Reach c s) (hf : s.faults = []) :
    (∃ a, absRun c.versioning (s.lin.map (·.2)) = some a) ∧
    (∀ k ∈ s.acks, k.start.at_ ≤ k.stop ∧ k.stop ≤ s.lin.length ∧ Explained s.lin k) ∧
    (∀ k, ∃ a, absRun c.versioning ((s.lin.map (·.2)).filter (fun e => e.key = k)) = some a) ∧
    (c.versioning = false → ∀ pre post k,
      (∀ id size, s.lin.map (·.2) = pre ++ .found k none id size :: post → visMap pre k = some id) ∧
      (s.lin.map (·.2) = pre ++ .missing k none :: post → visMap pre k = none)) := by
  obtain ⟨_, _, _, hi⟩ := reach_inv hc h hf
  have ha := hi.abs
  refine ⟨⟨_, ha⟩, fun k hk => (reach_ai h).acks k hk, fun k => ?_, fun hv pre post k => ?_⟩
  · obtain ⟨b, hb, _⟩ := absRun_key ha k
    exact ⟨b, hb⟩
  · rw [hv] at ha
    exact ⟨fun id size e => found_visible (e ▸ ha), fun e => missing_visible (e ▸ ha)⟩

/-- Hypotheses met: two keys in one bucket, one object replaced by another and deleted. -/
example : ∃ s, SeqReach wcfg s ∧ wcfg.Ok ∧ s.lin.map (·.2) = [.created [1] 5 3, .created [2] 6 3, .committed [1] 5, .created [1] 7 4,
      .committed [1] 7, .found [1] none 7 4, .missing [2] none, .removed [1] none 7] ∧
    s.acks.map (·.resp) = [.created 5, .created 6, .committed, .created 7, .committed, .found 7 4 34048, .notFound, .deleted] := by
  have h : (wseq (doCreate 0 [1] 3 5 ++ doCreate 1 [2] 3 6 ++ doCommit 2 [1] 5 2 ++ doCreate 3 [1] 4 7 ++
      (commitTo 4 [1] 7 3 ++ flush 1 ++ finish 4 2) ++ doLook 5 [1] 1 ++ doLook 6 [2] 2 ++ [.a (.atEnd 6 false)] ++ doDeleteHead 7 [1])).map
      (fun s => (s.lin.map (·.2), s.acks.map (·.resp))) = some ([.created [1] 5 3, .created [2] 6 3, .committed [1] 5, .created [1] 7 4,
      .committed [1] 7, .found [1] none 7 4, .missing [2] none, .removed [1] none 7],
      [.created 5, .created 6, .committed, .created 7, .committed, .found 7 4 34048, .notFound, .deleted]) := by decide +kernel
  obtain ⟨s, h1, h2⟩ := Option.map_eq_some_iff.1 h
  simp only [Prod.mk.injEq] at h2
  exact ⟨s, wseq_reach h1, wcfg_ok, h2.1, h2.2⟩

/-- The code breaks C15 when calls overlap. An object is being committed; a lookup finds it; a second lookup starts,
copies the object's inode from the device and then looks at the overlay; in between the journal writes the commit to the
device and the overlay entry goes away. The second lookup reports that there is no such object, although a lookup that
ended before it started found it and nothing was ever deleted. -/
theorem C15_violated_by_stale_copy : ∃ s, Reach wcfg s ∧ wcfg.Ok ∧ s.faults = [.staleCopy] ∧
    (∀ e ∈ s.lin, ∀ k w id, e.2 ≠ .removed k w id) ∧
    ∃ a ∈ s.acks, ∃ b ∈ s.acks, a.start.call = .lookup (.look none) [1] ∧ a.resp = .found 5 3 33024 ∧ a.stop ≤ b.start.at_ ∧
      b.start.call = .lookup (.look none) [1] ∧ b.resp = .notFound := by
  have h : (wrun (doCreate 0 [1] 3 5 ++ commitTo 1 [1] 5 1 ++ doLook 2 [1] 1 ++ [.a (.lookup (.look none) [1]), .a (.read 3)] ++ flush 1 ++
      finish 1 1 ++ [.a (.inode 3 false), .a (.atEnd 3 false)])).map (fun s =>
        decide (s.faults = [.staleCopy]) && (decide (s.lin = [(0, .created [1] 5 3), (1, .committed [1] 5), (2, .found [1] none 5 3), (3, .missing [1] none)]) &&
        decide (s.acks.map (fun a => (a.start.call, a.start.at_, a.stop, a.resp)) =
        [(.create [1] 3, 0, 1, .created 5), (.lookup (.look none) [1], 2, 3, .found 5 3 33024), (.lookup (.commit 5) [1], 1, 3, .committed),
         (.lookup (.look none) [1], 3, 4, .notFound)]))) = some true := by decide +kernel
  obtain ⟨s, h1, h2⟩ := Option.map_eq_some_iff.1 h
  simp only [Bool.and_eq_true, decide_eq_true_eq] at h2
  obtain ⟨e1, e2, e3⟩ := h2
  have m1 : (Call.lookup (.look none) [1], 2, 3, Resp.found 5 3 33024) ∈ s.acks.map (fun a => (a.start.call, a.start.at_, a.stop, a.resp)) := by
    rw [e3]; simp
  have m2 : (Call.lookup (.look none) [1], 3, 4, Resp.notFound) ∈ s.acks.map (fun a => (a.start.call, a.start.at_, a.stop, a.resp)) := by
    rw [e3]; simp
  obtain ⟨a, a1, a2⟩ := List.mem_map.1 m1
  obtain ⟨b, b1, b2⟩ := List.mem_map.1 m2
  simp only [Prod.mk.injEq] at a2 b2
  refine ⟨s, wrun_reach h1, wcfg_ok, e1, ?_, a, a1, b, b1, a2.1, a2.2.2.2, by rw [a2.2.2.1, b2.2.1], b2.1, b2.2.2.2⟩
  intro e he k w id
  rw [e2] at he
  simp only [List.mem_cons, List.not_mem_nil, or_false] at he
  rcases he with rfl | rfl | rfl | rfl <;> simp

/-- The code breaks C15 in another way. An object of key 2 is being created in front of the object of key 1; the latter is
deleted, which writes the new pointer to the device directly; then the journal overwrites it with the old pointer. The
deletion was answered, and a lookup that starts afterwards finds the deleted object, whose pages have been released. -/
theorem C15_violated_by_pending_pointer : ∃ s, Reach wcfg s ∧ wcfg.Ok ∧ s.faults = [.pendingPrev] ∧
    s.acks.map (fun a => (a.start.call, a.start.at_, a.stop, a.resp)) =
      [(.create [1] 3, 0, 1, .created 5), (.lookup (.commit 5) [1], 1, 2, .committed), (.lookup (.delete none) [1], 3, 4, .deleted),
       (.create [2] 3, 2, 4, .created 6), (.lookup (.look none) [1], 4, 5, .found 5 3 33024)] := by
  have h : (wrun (doCreate 0 [1] 3 5 ++ doCommit 1 [1] 5 1 ++ createTo 2 [2] 3 6 ++ doDeleteMid 3 [1] 2 ++ flush 2 ++ finish 2 2 ++
      doLook 4 [1] 2)).map (fun s => (s.faults, s.acks.map (fun a => (a.start.call, a.start.at_, a.stop, a.resp)))) =
      some ([.pendingPrev], [(.create [1] 3, 0, 1, .created 5), (.lookup (.commit 5) [1], 1, 2, .committed), (.lookup (.delete none) [1], 3, 4, .deleted),
       (.create [2] 3, 2, 4, .created 6), (.lookup (.look none) [1], 4, 5, .found 5 3 33024)]) := by decide +kernel
  obtain ⟨s, h1, h2⟩ := Option.map_eq_some_iff.1 h
  simp only [Prod.mk.injEq] at h2
  exact ⟨s, wrun_reach h1, wcfg_ok, h2.1, h2.2⟩

/-- The code breaks C15 in a third way. An object that is not the first of its bucket is deleted while its commit is in the
journal: its pages are released at once, although the journal will still write to them. A new object of key 3 gets the
page; the journal's write makes it a committed one: it is found, although no commit of it was ever called. -/
theorem C15_violated_by_pending_commit : ∃ s, Reach wcfg s ∧ wcfg.Ok ∧ s.faults = [.pendingInode] ∧
    s.acks.map (fun a => (a.start.call, a.start.at_, a.stop, a.resp)) =
      [(.create [1] 3, 0, 1, .created 5), (.create [2] 3, 1, 2, .created 6), (.lookup (.delete none) [1], 3, 4, .deleted),
       (.lookup (.commit 5) [1], 2, 5, .committed), (.create [3] 3, 4, 5, .created 7), (.lookup (.look none) [3], 5, 6, .found 7 3 33024)] ∧
    (∀ e ∈ s.lin, ∀ k, e.2 ≠ .committed k 7) := by
  have h : (wrun (doCreate 0 [1] 3 5 ++ doCreate 1 [2] 3 6 ++ commitTo 2 [1] 5 2 ++ doDeleteMid 3 [1] 2 ++ createTo 4 [3] 3 7 ++ flush 3 ++
      finish 2 1 ++ finish 4 2 ++ doLook 5 [3] 1)).map (fun s => decide (s.faults = [.pendingInode]) &&
      (decide (s.acks.map (fun a => (a.start.call, a.start.at_, a.stop, a.resp)) = [(.create [1] 3, 0, 1, .created 5), (.create [2] 3, 1, 2, .created 6), (.lookup (.delete none) [1], 3, 4, .deleted),
       (.lookup (.commit 5) [1], 2, 5, .committed), (.create [3] 3, 4, 5, .created 7), (.lookup (.look none) [3], 5, 6, .found 7 3 33024)]) &&
       decide (s.lin = [(0, .created [1] 5 3), (1, .created [2] 6 3), (2, .committed [1] 5), (3, .removed [1] none 5), (4, .created [3] 7 3), (5, .found [3] none 7 3)]))) =
       some true := by
    decide +kernel
  obtain ⟨s, h1, h2⟩ := Option.map_eq_some_iff.1 h
  simp only [Bool.and_eq_true, decide_eq_true_eq] at h2
  obtain ⟨e1, e2, e3⟩ := h2
  refine ⟨s, wrun_reach h1, wcfg_ok, e1, e2, ?_⟩
  intro e he k
  rw [e3] at he
  simp only [List.mem_cons, List.not_mem_nil, or_false] at he
  rcases he with rfl | rfl | rfl | rfl | rfl | rfl <;> simp

/-! ## C16 -/

/-- Calls one at a time: following the pointers of any bucket ends; the inodes visited are different, belong to that
bucket, and are, key by key, exactly the versions of the abstract store, newest first. -/
theorem C16_lists_sequential {c : LCfg} (hc : c.Ok) {s : LSt} (h : SeqReach c s) {b : Nat} (hb : b < 2 ^ c.bits) :
    ∃ l, Chain s (getHead c s b) l ∧ l.Nodup ∧ (∀ off ∈ l, c.bkt (rdKey s.j.dev off) = b) ∧
      ∀ a, absRun c.versioning (s.lin.map (·.2)) = some a → ∀ k, c.bkt k = b →
        (l.filter (fun off => rdKey s.j.dev off = k)).map (verAt s) = a k :=
  lists_abs hc h.reach (seq_faults hc h).2 hb

/-- Calls one at a time: a step changes bucket lists only by its event. A deletion takes exactly the deleted object out of
its bucket's list, a commit at most the replaced one, a creation puts the new one in front; every other inode stays where
it is, and is the same object in the same state (except the one being committed). -/
theorem C16_unlink_sequential {c : LCfg} (hc : c.Ok) {s s' : LSt} (h : SeqReach c s) (hs : Step c s s') (h' : SeqReach c s') :
    ∃ (i : Nat) (e : Option Ev), s'.lin = s.lin ++ (e.map (fun e => (i, e))).toList ∧ ∀ b, b < 2 ^ c.bits → ∃ l l', Chain s (getHead c s b) l ∧
      Chain s' (getHead c s' b) l' ∧ ListEff c s s' b l l' e ∧ ∀ off ∈ l, off ∈ l' → InodeSame s s' off e :=
  step_lists hc h.reach hs (seq_faults hc h').2

/-- Overlapping calls, if no excluded event happened. -/
theorem C16_lists_partial {c : LCfg} (hc : c.Ok) {s : LSt} (h : Reach c s) (hf : s.faults = []) {b : Nat} (hb : b < 2 ^ c.bits) :
    ∃ l, Chain s (getHead c s b) l ∧ l.Nodup ∧ (∀ off ∈ l, c.bkt (rdKey s.j.dev off) = b) ∧
      ∀ a, absRun c.versioning (s.lin.map (·.2)) = some a → ∀ k, c.bkt k = b →
        (l.filter (fun off => rdKey s.j.dev off = k)).map (verAt s) = a k :=
  lists_abs hc h hf hb

/-- Overlapping calls, if no excluded event happened. -/
theorem C16_unlink_partial {c : LCfg} (hc : c.Ok) {s s' : LSt} (h : Reach c s) (hs : Step c s s') (hf : s'.faults = []) :
    ∃ (i : Nat) (e : Option Ev), s'.lin = s.lin ++ (e.map (fun e => (i, e))).toList ∧ ∀ b, b < 2 ^ c.bits → ∃ l l', Chain s (getHead c s b) l ∧
      Chain s' (getHead c s' b) l' ∧ ListEff c s s' b l l' e ∧ ∀ off ∈ l, off ∈ l' → InodeSame s s' off e :=
  step_lists hc h hs hf

/-- Hypotheses met: three objects in one bucket, the step deletes the one in the middle. -/
example : ∃ s s', SeqReach wcfg s ∧ SeqReach wcfg s' ∧ Step wcfg s s' ∧ s'.lin = s.lin ++ [(5, .removed [2] none 6)] ∧
    listOf s 9 (getHead wcfg s 0) = [34048, 33536, 33024] ∧ listOf s' 9 (getHead wcfg s' 0) = [34048, 33024] := by
  have h : (wseq (doCreate 0 [1] 3 5 ++ doCreate 1 [2] 3 6 ++ doCreate 2 [3] 3 7 ++ doCommit 3 [2] 6 3 ++ doLook 4 [2] 2 ++
      [.a (.lookup (.delete none) [2])] ++ visit 5 1 ++ [.a (.read 5)])).bind (fun s => (act wcfg s (.inode 5 false)).map (fun s' =>
      decide (s'.lin.drop s.lin.length = [(5, .removed [2] none 6)]) && (decide (s'.lin.take s.lin.length = s.lin) &&
      (decide (listOf s 9 (getHead wcfg s 0) = [34048, 33536, 33024]) && decide (listOf s' 9 (getHead wcfg s' 0) = [34048, 33024]))))) =
      some true := by decide +kernel
  obtain ⟨s0, g1, g2⟩ := Option.bind_eq_some_iff.1 h
  obtain ⟨s1, g3, h2⟩ := Option.map_eq_some_iff.1 g2
  simp only [Bool.and_eq_true, decide_eq_true_eq] at h2
  obtain ⟨e2, e3, e4, e5⟩ := h2
  have hs := wseq_reach g1
  refine ⟨s0, s1, hs, .act _ hs g3 (fun h => by cases h) (fun _ _ _ h => by cases h), .act _ g3, ?_, e4, e5⟩
  conv => lhs; rw [← List.take_append_drop s0.lin.length s1.lin]
  rw [e3, e2]

/-- The code breaks C16 when calls overlap: an object of key 2 is being created in front of the object of key 1; the step
that deletes the latter leaves it in the list. -/
theorem C16_violated_by_pending_pointer : ∃ s s', Reach wcfg s ∧ wcfg.Ok ∧ Step wcfg s s' ∧ s'.faults = [.pendingPrev] ∧
    s'.lin = s.lin ++ [(3, .removed [1] none 5)] ∧ Chain s (getHead wcfg s 0) [33536, 33024] ∧ rdId s.j.dev 33024 = 5 ∧
    Chain s' (getHead wcfg s' 0) [33536, 33024] := by
  have h : (wrun (doCreate 0 [1] 3 5 ++ doCommit 1 [1] 5 1 ++ createTo 2 [2] 3 6 ++
      [.a (.lookup (.delete none) [1])] ++ visit 3 1 ++ [.a (.read 3)])).bind (fun s => (act wcfg s (.inode 3 false)).map (fun s' =>
      decide (s'.faults = [.pendingPrev]) && (decide (s'.lin.drop s.lin.length = [(3, .removed [1] none 5)]) &&
      (decide (s'.lin.take s.lin.length = s.lin) && (decide (listOf s 9 (getHead wcfg s 0) = [33536, 33024]) &&
      (decide (listOf s' 9 (getHead wcfg s' 0) = [33536, 33024]) && decide (rdId s.j.dev 33024 = 5))))))) = some true := by decide +kernel
  obtain ⟨s0, g1, g2⟩ := Option.bind_eq_some_iff.1 h
  obtain ⟨s1, g3, h2⟩ := Option.map_eq_some_iff.1 g2
  simp only [Bool.and_eq_true, decide_eq_true_eq] at h2
  obtain ⟨e1, e2, e3, e4, e5, e6⟩ := h2
  refine ⟨s0, s1, wrun_reach g1, wcfg_ok, .act _ g3, e1, ?_, ?_, e6, ?_⟩
  · conv => lhs; rw [← List.take_append_drop s0.lin.length s1.lin]
    rw [e3, e2]
  · rw [← e4]; exact listOf_chain (by rw [e4]; decide)
  · rw [← e5]; exact listOf_chain (by rw [e5]; decide)

/-! ## C52 -/

theorem lite_faults {c : LCfg} {s s' : LSt} (hs : Step c s s') (hf : s'.faults = []) : s.faults = [] := by
  cases hs with
  | act a ha => exact act_faults ha hf
  | journal => exact hf

/-- No step changes a byte of the contents of a committed object that is listed, or of one whose deletion or replacement
has not released its pages yet. -/
theorem C52_visible_unchanged_partial {c : LCfg} (hc : c.Ok) {s s' : LSt} (h : Reach c s) (hs : Step c s s') (hf : s'.faults = [])
    {off : Nat} (hu : InUse c s off) {y : Nat} (hy : InPages (dataAt c s.j.dev off) y) : s'.j.dev y = s.j.dev y := by
  obtain ⟨r, r1, r2, r3, r4⟩ := use_step hc h hs hf hu
  subst r1
  rw [dataAt_eq hc r3 r2] at hy
  exact r4 y (.inr hy)

/-- A step changes a byte of the contents of an incomplete object only if a write to that very object is running there. -/
theorem C52_incomplete_isolated_partial {c : LCfg} (hc : c.Ok) {s s' : LSt} (h : Reach c s) (hs : Step c s s') (hf : s'.faults = [])
    {off : Nat} (hl : Listed c s off) {y : Nat} (hy : InPages (dataAt c s.j.dev off) y) (hne : s'.j.dev y ≠ s.j.dev y) :
    stateOf s off = stIncomplete ∧ ∃ i st key targets, s.thr i = some ⟨st, .writing key (rdId s.j.dev off) targets⟩ ∧
      ∃ t ∈ targets, t.2 ≤ y ∧ y < t.2 + t.1 := by
  obtain ⟨base, v, leak, hi⟩ := reach_inv hc h (lite_faults hs hf)
  obtain ⟨r, r1, r2⟩ := (rec_of hc hi).1 hl
  subst r1
  have hat := dev_at hc hi.good (hi.geo hc) hi.jinv hi.L hi.U r2
  have hfit := (hi.good.fit _ r2).1
  rw [dataAt_eq hc hat hfit] at hy
  rcases step_bytes hc hi hs r2 (by simp) (.inr hy) with e | ⟨_, e1, _, e2⟩
  · exact absurd e hne
  · rw [stateOf_eq hc hi r2, (inode_fields hc hi r2).1]
    exact ⟨e1, e2⟩

/-- Objects in the lists do not share pages. -/
theorem C52_no_shared_page_partial {c : LCfg} (hc : c.Ok) {s : LSt} (h : Reach c s) (hf : s.faults = [])
    {off off' : Nat} (hl : Listed c s off) (hl' : Listed c s off') (hne : off ≠ off') :
    ∀ p ∈ dataAt c s.j.dev off ++ [(off, rdMetaPow2 s.j.dev off)], ∀ p' ∈ dataAt c s.j.dev off' ++ [(off', rdMetaPow2 s.j.dev off')],
      Spec.PageDisj p p' := by
  obtain ⟨base, v, leak, hi⟩ := reach_inv hc h hf
  have key : ∀ off, Listed c s off → ∃ r : Rec, r.off = off ∧ (Own.linked, r) ∈ v.recs ∧
      dataAt c s.j.dev off ++ [(off, rdMetaPow2 s.j.dev off)] = regs c.pages r := by
    intro off hl
    obtain ⟨r, r1, r2⟩ := (rec_of hc hi).1 hl
    subst r1
    have hat := dev_at hc hi.good (hi.geo hc) hi.jinv hi.L hi.U r2
    have hfit := (hi.good.fit _ r2).1
    refine ⟨r, rfl, r2, ?_⟩
    rw [dataAt_eq hc hat hfit, (hat.fields hfit).1]
    rfl
  obtain ⟨r, r1, r2, r3⟩ := key off hl
  obtain ⟨r', q1, q2, q3⟩ := key off' hl'
  have hap := (hi.geo hc).apart (Own.linked, r) r2 (Own.linked, r') q2 (by subst r1; subst q1; exact hne)
  intro p hp p' hp'
  exact hap p (r3 ▸ hp) p' (q3 ▸ hp')

/-- No object uses a page twice, and its contents do not lie on its own record; all its pages are inside the heap. -/
theorem C52_no_page_twice_partial {c : LCfg} (hc : c.Ok) {s : LSt} (h : Reach c s) (hf : s.faults = []) {off : Nat} (hl : Listed c s off) :
    (dataAt c s.j.dev off ++ [(off, rdMetaPow2 s.j.dev off)]).Pairwise Spec.PageDisj ∧
      ∀ p ∈ dataAt c s.j.dev off ++ [(off, rdMetaPow2 s.j.dev off)], c.heap.base ≤ p.1 ∧ p.1 + 2 ^ p.2 ≤ c.heap.base + c.heap.heap := by
  obtain ⟨base, v, leak, hi⟩ := reach_inv hc h hf
  obtain ⟨r, r1, r2⟩ := (rec_of hc hi).1 hl
  subst r1
  have hat := dev_at hc hi.good (hi.geo hc) hi.jinv hi.L hi.U r2
  have hfit := (hi.good.fit _ r2).1
  have e : dataAt c s.j.dev r.off ++ [(r.off, rdMetaPow2 s.j.dev r.off)] = regs c.pages r := by
    rw [dataAt_eq hc hat hfit, (hat.fields hfit).1]
    rfl
  have h1 := (List.pairwise_flatMap.1 (List.pairwise_append.1 hi.heap.disj).1).1 _ r2
  have h2 := (hi.geo hc).pg _ r2
  refine ⟨?_, fun p hp => ?_⟩
  · rw [e]; exact h1
  · rw [e] at hp
    exact ⟨(h2 p hp).1, (h2 p hp).2.1⟩

theorem dropped_write_run : (wrun (doCreate 0 [1] 3 5 ++ [.a (.lookup (.write 5 0 3) [1])] ++ visit 1 1 ++ [.a (.cancel 1 0 [1, 2, 3])] ++ doCommit 2 [1] 5 1 ++
      doDeleteHead 3 [1] ++ doCreate 4 [2] 3 6 ++ doWrite 5 [2] 6 1 [7, 8, 9] ++ doCommit 6 [2] 6 1)).bind
      (fun s => (act wcfg s (.orphan 0)).map (fun s' =>
        decide (s'.faults = [.writeCancelled]) && (decide (s'.lin = s.lin) && (decide (visMap (s.lin.map (·.2)) [2] = some 6) &&
        (decide (listOf s 9 (getHead wcfg s 0) = [33024]) && (decide (verAt s 33024 = ⟨6, 3, true⟩) &&
        (decide (RW.opReadLite wcfg.pages (rwObj wcfg.pages s.j.dev 33024) s.j.dev 0 none 100 = .ret (.ok [[7, 8, 9]])) &&
        decide (RW.opReadLite wcfg.pages (rwObj wcfg.pages s'.j.dev 33024) s'.j.dev 0 none 100 = .ret (.ok [[1, 2, 3]]))))))))) =
      some true := by decide +kernel

/-- The code breaks C52: a `write_object` call is dropped during its device write; the object is committed and deleted and
its page given to an object of key 2 with the bytes 7, 8, 9, which is committed and answered; then the old write
completes: the visible object holds 1, 2, 3. -/
theorem C52_violated_by_dropped_write : ∃ s s', Reach wcfg s ∧ wcfg.Ok ∧ Step wcfg s s' ∧ s'.faults = [.writeCancelled] ∧
    s'.lin = s.lin ∧ visMap (s.lin.map (·.2)) [2] = some 6 ∧ Chain s (getHead wcfg s 0) [33024] ∧ verAt s 33024 = ⟨6, 3, true⟩ ∧
    RW.opReadLite wcfg.pages (rwObj wcfg.pages s.j.dev 33024) s.j.dev 0 none 100 = .ret (.ok [[7, 8, 9]]) ∧
    RW.opReadLite wcfg.pages (rwObj wcfg.pages s'.j.dev 33024) s'.j.dev 0 none 100 = .ret (.ok [[1, 2, 3]]) := by
  have h := dropped_write_run
  obtain ⟨s0, g1, g2⟩ := Option.bind_eq_some_iff.1 h
  obtain ⟨s1, g3, h2⟩ := Option.map_eq_some_iff.1 g2
  simp only [Bool.and_eq_true, decide_eq_true_eq] at h2
  obtain ⟨e1, e2, e3, e4, e5, e6, e7⟩ := h2
  refine ⟨s0, s1, wrun_reach g1, wcfg_ok, .act _ g3, e1, e2, e3, ?_, e5, e6, e7⟩
  rw [← e4]; exact listOf_chain (by rw [e4]; decide)

/-! ## C49 -/

theorem lite_trace_reach {c : LCfg} {tr : Nat → LSt} {n : Nat} (ht : Lite.Trace c tr n) (h0 : Reach c (tr 0)) : ∀ {i}, i ≤ n → Reach c (tr i) := by
  intro i
  induction i with
  | zero => intro _; exact h0
  | succ i ih => intro hi; exact (ih (by omega)).step (ht i (by omega))

theorem lite_trace_faults {c : LCfg} {tr : Nat → LSt} {n : Nat} (ht : Lite.Trace c tr n) {i : Nat} (hi : i ≤ n) (hf : (tr n).faults = []) :
    (tr i).faults = [] := by
  induction n with
  | zero => rw [Nat.le_zero.1 hi]; exact hf
  | succ n ih =>
    rcases Nat.lt_or_ge i (n + 1) with h | h
    · exact ih (fun j hj => ht j (by omega)) (by omega) (lite_faults (ht n (by omega)) hf)
    · rw [show i = n + 1 by omega]; exact hf

/-- An object in use from `a` to `b` keeps its record's fixed part and its contents. -/
theorem lite_trace_stable {c : LCfg} (hc : c.Ok) {tr : Nat → LSt} {n : Nat} (ht : Lite.Trace c tr n) (h0 : Reach c (tr 0))
    (hf : (tr n).faults = []) {off a b : Nat} (hab : a < b) (hb : b ≤ n) (hu : ∀ i, a ≤ i → i < b → InUse c (tr i) off) :
    ∃ r : Rec, r.off = off ∧ RecFits c.pages r.o ∧ At r.o (tr a).j.dev r.off ∧
      ∀ i, a ≤ i → i ≤ b → ∀ y, y = r.off + 1 ∨ r.off + 8 ≤ y ∧ y < r.off + r.o.off.totalSize ∨ DataByte c r y → (tr i).j.dev y = (tr a).j.dev y := by
  have hfi : ∀ i, i ≤ n → (tr i).faults = [] := fun i hi => lite_trace_faults ht hi hf
  obtain ⟨r, r1, r2, r3, _⟩ := use_step hc (lite_trace_reach ht h0 (by omega)) (ht a (by omega)) (hfi _ (by omega)) (hu a (Nat.le_refl _) hab)
  refine ⟨r, r1, r2, r3, ?_⟩
  intro i
  induction i with
  | zero => intro h1 _ y _; rw [Nat.le_zero.1 h1]
  | succ i ih =>
    intro h1 h2
    rcases Nat.lt_or_ge a (i + 1) with h | h
    · have ih := ih (by omega) (by omega)
      obtain ⟨q, q1, q2, q3, q4⟩ := use_step hc (lite_trace_reach ht h0 (i := i) (by omega)) (ht i (by omega)) (hfi _ (by omega)) (hu i (by omega) (by omega))
      have hat : At r.o (tr i).j.dev r.off := r3.congr (fun y y1 y2 => ih y (by omega))
      have ho : q.off = r.off := by rw [q1, r1]
      have hd : dataPgs c.pages q.o = dataPgs c.pages r.o := by
        rw [← dataAt_eq hc q3 q2, ← dataAt_eq hc hat r2, ho]
      have hp : q.o.metaSizePow2 = r.o.metaSizePow2 := by
        rw [← (q3.fields q2).1, ← (hat.fields r2).1, ho]
      intro y hy
      rw [← ih y hy]
      refine q4 y ?_
      have hroom := r2.room
      have := totalSize_ge r.o
      rcases hy with hy | hy | ⟨p, hy⟩
      · left; rw [FixedByte, ho, hp]; omega
      · left; rw [FixedByte, ho, hp]; omega
      · right; exact ⟨p, by rw [hd]; exact hy.1, hy.2⟩
    · intro y _
      rw [show a = i + 1 by omega]

/-- A read that found the object at `off` and then fetches its record and bytes one by one, byte `x` of the device at time
`clock x` between `a` and `b`, yields exactly the requested range of the contents the object had when it was found, as
long as the object stays committed and listed, or the call deleting or replacing it has not released its pages, until the
read ends. -/
theorem C49_lite_undisturbed_partial {c : LCfg} (hc : c.Ok) {tr : Nat → LSt} {n : Nat} (ht : Lite.Trace c tr n) (h0 : Reach c (tr 0))
    (hf : (tr n).faults = []) {off a b : Nat} (hab : a < b) (hb : b ≤ n) (hu : ∀ i, a ≤ i → i < b → InUse c (tr i) off)
    (clock : Nat → Nat) (hcl : ∀ x, a ≤ clock x ∧ clock x ≤ b) {lay : ObjectLayout}
    (hlay : calcObjectLayout c.pages (rdSize (tr a).j.dev off) = some lay) (start stop : Nat) (h1 : start < stop)
    (h2 : stop ≤ rdSize (tr a).j.dev off) (fuel : Nat) (hfuel : stop - start < fuel) :
    ∃ chunks, RW.opReadLite c.pages (rwObj c.pages (fun x => (tr (clock x)).j.dev x) off) (fun x => (tr (clock x)).j.dev x)
        start (some stop) fuel = .ret (.ok chunks) ∧
      chunks.flatten = ((RW.contents c.pages lay (tr a).j.dev (rwObj c.pages (tr a).j.dev off)).drop start).take (stop - start) := by
  obtain ⟨r, r1, r2, r3, r4⟩ := lite_trace_stable hc ht h0 hf hab hb hu
  subst r1
  generalize hD : (fun x => (tr (clock x)).j.dev x) = D
  have hDy : ∀ y, y = r.off + 1 ∨ r.off + 8 ≤ y ∧ y < r.off + r.o.off.totalSize ∨ DataByte c r y → D y = (tr a).j.dev y := by
    intro y hy
    rw [← hD]
    exact r4 _ (hcl y).1 (hcl y).2 y hy
  have hat : At r.o D r.off := r3.congr (fun y y1 y2 => hDy y (by omega))
  have e1 := (r3.fields r2).2.1
  rw [e1] at hlay h2
  obtain ⟨p1, p2⟩ := hat.rwPages hc.rw r2 hlay
  obtain ⟨q1, q2⟩ := r3.rwPages hc.rw r2 hlay
  obtain ⟨chunks, g1, g2, _⟩ := C18_lite_read_exact c.pages hc.rw (rwObj c.pages D r.off) D lay (by rw [p2]; exact hlay) start stop (some stop) rfl h1
    (by rw [p2]; exact h2) fuel hfuel
  refine ⟨chunks, g1, ?_⟩
  rw [g2]
  congr 2
  simp only [RW.contents, p1, p2, q1, q2]
  congr 1
  refine RW.allBytes_congr ?_
  intro p hp x hx
  exact hDy x (.inr (.inr ⟨p, hp, hx⟩))

/-- The code breaks C49: a reader has found the object of key 1 with the bytes 1, 2, 3 (its lock is released before the
stream is consumed); the object is deleted, its pages are given to an object of key 2 with the bytes 7, 8, 9; the reader
then fetches 7, 8, 9. No calls overlapped, except the read. -/
theorem C49_lite_violated : ∃ (s1 s2 : LSt) (cmds : List Cmd), SeqReach wcfg s1 ∧ wcfg.Ok ∧ runSeq wcfg s1 cmds = some s2 ∧ SeqReach wcfg s2 ∧
    s1.acks.map (·.resp) = [.created 5, .written (.ok ()), .committed, .found 5 3 33024] ∧
    s2.acks.map (·.resp) = [.created 5, .written (.ok ()), .committed, .found 5 3 33024, .deleted, .created 6, .written (.ok ()), .committed] ∧
    RW.opReadLite wcfg.pages (rwObj wcfg.pages s1.j.dev 33024) s1.j.dev 0 none 100 = .ret (.ok [[1, 2, 3]]) ∧
    RW.opReadLite wcfg.pages (rwObj wcfg.pages s2.j.dev 33024) s2.j.dev 0 none 100 = .ret (.ok [[7, 8, 9]]) := by
  have h : (wseq (doCreate 0 [1] 3 5 ++ doWrite 1 [1] 5 1 [1, 2, 3] ++ doCommit 2 [1] 5 1 ++ doLook 3 [1] 1)).bind (fun s1 =>
      (runSeq wcfg s1 (doDeleteHead 4 [1] ++ doCreate 5 [2] 3 6 ++ doWrite 6 [2] 6 1 [7, 8, 9] ++ doCommit 7 [2] 6 1)).map (fun s2 =>
        decide (s1.acks.map (·.resp) = [.created 5, .written (.ok ()), .committed, .found 5 3 33024]) &&
        (decide (s2.acks.map (·.resp) = [.created 5, .written (.ok ()), .committed, .found 5 3 33024, .deleted, .created 6, .written (.ok ()), .committed]) &&
        (decide (RW.opReadLite wcfg.pages (rwObj wcfg.pages s1.j.dev 33024) s1.j.dev 0 none 100 = .ret (.ok [[1, 2, 3]])) &&
        decide (RW.opReadLite wcfg.pages (rwObj wcfg.pages s2.j.dev 33024) s2.j.dev 0 none 100 = .ret (.ok [[7, 8, 9]])))))) = some true := by
    decide +kernel
  obtain ⟨s1, h1, h⟩ := Option.bind_eq_some_iff.1 h
  obtain ⟨s2, h2, h⟩ := Option.map_eq_some_iff.1 h
  simp only [Bool.and_eq_true, decide_eq_true_eq] at h
  exact ⟨s1, s2, _, wseq_reach h1, wcfg_ok, h2, runSeq_reach wcfg_ok (wseq_reach h1) h2, h.1, h.2.1, h.2.2.1, h.2.2.2⟩

end Props
end Blobd
