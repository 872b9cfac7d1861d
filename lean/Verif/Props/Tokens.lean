import Verif.Proofs.LiteTokens
import Verif.Proofs.DirectClaims
import Verif.Props.LiteStore
import Verif.Props.DirectDurable
set_option autoImplicit false
/-!
# C81: an upload's token stays valid until it is committed, and it is committed at most once

Specification: Spec/LiteStore, Spec/DirectStore (what events mean, what explains an answer).
-/
namespace Blobd
namespace Props

section lite
open Lite

/-- the event that explains an answer: where it is in the history -/
theorem lite_split {lin : List (Nat × Ev)} {n m i : Nat} {ev : Ev}
    (h : (((lin.take m).drop n).filter (fun e => e.1 = i)).map (·.2) = [ev]) :
    ∃ pre post, lin = pre ++ (i, ev) :: post ∧ n ≤ pre.length ∧ pre.length < m := by
  have h1 : ev ∈ (((lin.take m).drop n).filter (fun e => e.1 = i)).map (·.2) := by rw [h]; simp
  obtain ⟨⟨j, e⟩, he, rfl⟩ := List.mem_map.1 h1
  obtain ⟨h2, h3⟩ := List.mem_filter.1 he
  simp only [decide_eq_true_eq] at h3
  subst h3
  obtain ⟨k, hk⟩ := List.mem_iff_getElem?.1 h2
  rw [List.getElem?_drop, List.getElem?_take] at hk
  split at hk
  · rename_i hlt
    obtain ⟨hk1, hk2⟩ := List.getElem?_eq_some_iff.1 hk
    refine ⟨lin.take (n + k), lin.drop (n + k + 1), ?_, ?_, ?_⟩
    · conv => lhs; rw [← List.take_append_drop (n + k) lin, List.drop_eq_getElem_cons hk1, hk2]
    · rw [List.length_take]; omega
    · rw [List.length_take]; omega
  · cases hk

/-- **C81 (lite), valid until committed.** Calls overlapping in any way, without the faults of C15: if a write or a commit of an upload,
called after the upload's creation was answered, is told that there is no such upload, the upload was committed before this answer. -/
theorem C81_lite_valid_partial {c : LCfg} (hc : c.Ok) {s : LSt} (h : Reach c s) (hf : s.faults = []) {a b : Ack} (ha : a ∈ s.acks) (hb : b ∈ s.acks)
    {key : List Byte} {size id : Nat} {req : Req} (ha1 : a.start.call = .create key size) (ha2 : a.resp = .created id)
    (hb1 : b.start.call = .lookup req key) (hreq : req = .commit id ∨ ∃ off len, req = .write id off len) (hb2 : b.resp = .notFound)
    (hlate : a.stop ≤ b.start.at_) : ∃ i, (i, Ev.committed key id) ∈ s.lin.take b.stop := by
  obtain ⟨base, v, leak, hi⟩ := reach_inv hc h hf
  obtain ⟨_, hal, hae⟩ := (reach_ai h).acks a ha
  obtain ⟨_, hbl, hbe⟩ := (reach_ai h).acks b hb
  have ea : (((s.lin.take a.stop).drop a.start.at_).filter (fun e => e.1 = a.id)).map (·.2) = [.created key id size] := by
    unfold Explained at hae
    rw [ha1, ha2] at hae
    exact hae
  have eb : (((s.lin.take b.stop).drop b.start.at_).filter (fun e => e.1 = b.id)).map (·.2) = [.refused key id] := by
    unfold Explained at hbe
    rw [hb1, hb2] at hbe
    rcases hreq with rfl | ⟨off, len, rfl⟩ <;> exact hbe
  obtain ⟨pa, qa, la, _, la2⟩ := lite_split ea
  obtain ⟨pb, qb, lb, lb1, lb2⟩ := lite_split eb
  have hm : (a.id, Ev.created key id size) ∈ pb := by
    have g : s.lin[pa.length]? = some (a.id, .created key id size) := by rw [la]; simp
    rw [lb, List.getElem?_append_left (by omega)] at g
    exact List.mem_of_getElem? g
  have habs := hi.abs
  have hn := (reach_news hc h hf).1
  rw [lb, List.map_append, List.map_cons] at habs hn
  have := refused_after habs hn (List.mem_map.2 ⟨_, hm, rfl⟩)
  obtain ⟨⟨i, e⟩, g1, g2⟩ := List.mem_map.1 this
  simp only at g2
  subst g2
  refine ⟨i, ?_⟩
  rw [lb, List.take_append]
  exact List.mem_append_left _ (by rwa [List.take_of_length_le (by omega)])

/-- **C81 (lite), committed once.** Of all the commits of an upload, whoever called them and however they overlap, at most one is answered
with success; and it takes effect once. -/
theorem C81_lite_once_partial {c : LCfg} (hc : c.Ok) {s : LSt} (h : Reach c s) (hf : s.faults = []) {id : Nat} :
    (∀ a ∈ s.acks, ∀ b ∈ s.acks, ∀ k k', a.start.call = .lookup (.commit id) k → a.resp = .committed → b.start.call = .lookup (.commit id) k' →
      b.resp = .committed → a.id = b.id) ∧
    ∀ pre i k post, s.lin = pre ++ (i, .committed k id) :: post → ∀ j k', (j, Ev.committed k' id) ∉ pre ∧ (j, Ev.committed k' id) ∉ post := by
  obtain ⟨base, v, leak, hi⟩ := reach_inv hc h hf
  have once : ∀ pre i k post, s.lin = pre ++ (i, .committed k id) :: post → ∀ j k', (j, Ev.committed k' id) ∉ pre := by
    intro pre i k post hl j k' hm
    have habs := hi.abs
    have hn := (reach_news hc h hf).1
    rw [hl, List.map_append, List.map_cons] at habs hn
    exact commit_once habs hn k' (List.mem_map.2 ⟨_, hm, rfl⟩)
  refine ⟨?_, ?_⟩
  · intro a ha b hb k k' ha1 ha2 hb1 hb2
    obtain ⟨_, _, hae⟩ := (reach_ai h).acks a ha
    obtain ⟨_, _, hbe⟩ := (reach_ai h).acks b hb
    unfold Explained at hae hbe
    rw [ha1, ha2] at hae
    rw [hb1, hb2] at hbe
    obtain ⟨pa, qa, la, _, _⟩ := lite_split hae
    obtain ⟨pb, qb, lb, _, _⟩ := lite_split hbe
    have ga : s.lin[pa.length]? = some (a.id, .committed k id) := by rw [la]; simp
    have gb : s.lin[pb.length]? = some (b.id, .committed k' id) := by rw [lb]; simp
    rcases Nat.lt_trichotomy pa.length pb.length with hlt | heq | hlt
    · rw [lb, List.getElem?_append_left hlt] at ga
      exact absurd (List.mem_of_getElem? ga) (once _ _ _ _ lb _ _)
    · rw [heq, gb] at ga
      simp only [Option.some.injEq, Prod.mk.injEq] at ga
      exact ga.1.symm
    · rw [la, List.getElem?_append_left hlt] at gb
      exact absurd (List.mem_of_getElem? gb) (once _ _ _ _ la _ _)
  · intro pre i k post hl j k'
    refine ⟨once _ _ _ _ hl j k', fun hm => ?_⟩
    obtain ⟨p, q, hp⟩ := List.append_of_mem hm
    have hl' : s.lin = (pre ++ (i, .committed k id) :: p) ++ (j, .committed k' id) :: q := by rw [hl, hp]; simp
    exact once _ _ _ _ hl' i k (by simp)

/-- … and calls one at a time, nothing excluded. -/
theorem C81_lite_sequential {c : LCfg} (hc : c.Ok) {s : LSt} (h : SeqReach c s) :
    (∀ a ∈ s.acks, ∀ b ∈ s.acks, ∀ key size id req, a.start.call = .create key size → a.resp = .created id → b.start.call = .lookup req key →
      (req = .commit id ∨ ∃ off len, req = .write id off len) → b.resp = .notFound → a.stop ≤ b.start.at_ →
        ∃ i, (i, Ev.committed key id) ∈ s.lin.take b.stop) ∧
    ∀ a ∈ s.acks, ∀ b ∈ s.acks, ∀ id k k', a.start.call = .lookup (.commit id) k → a.resp = .committed → b.start.call = .lookup (.commit id) k' →
      b.resp = .committed → a.id = b.id :=
  ⟨fun _ ha _ hb _ _ _ _ h1 h2 h3 h4 h5 h6 => C81_lite_valid_partial hc h.reach (seq_faults hc h).2 ha hb h1 h2 h3 h4 h5 h6,
   fun a ha b hb _ k k' => (C81_lite_once_partial hc h.reach (seq_faults hc h).2).1 a ha b hb k k'⟩

/-- Hypotheses met: an upload is written, committed, committed again, written again. -/
example : ∃ s, SeqReach wcfg s ∧ wcfg.Ok ∧ s.acks.map (fun a => (a.start.call, a.start.at_, a.stop, a.resp)) =
      [(.create [1] 3, 0, 1, .created 5), (.lookup (.commit 5) [1], 1, 2, .committed), (.lookup (.commit 5) [1], 2, 3, .notFound),
       (.lookup (.write 5 0 3) [1], 3, 4, .notFound)] := by
  have h : (wseq (doCreate 0 [1] 3 5 ++ doCommit 1 [1] 5 1 ++ commitTo 2 [1] 5 1 ++ [.a (.lookup (.write 5 0 3) [1])] ++ visit 3 1 ++
      [.a (.atEnd 3 false)])).map (fun s =>
      s.acks.map (fun a => (a.start.call, a.start.at_, a.stop, a.resp))) = some
      [(.create [1] 3, 0, 1, .created 5), (.lookup (.commit 5) [1], 1, 2, .committed), (.lookup (.commit 5) [1], 2, 3, .notFound),
       (.lookup (.write 5 0 3) [1], 3, 4, .notFound)] := by decide +kernel
  obtain ⟨s, h1, h2⟩ := Option.map_eq_some_iff.1 h
  exact ⟨s, wseq_reach h1, wcfg_ok, h2⟩

/-- The code breaks C81 when calls overlap: an upload is created and answered; while an object of another key is put in front of it, its
commit is told that there is no such upload. Nothing was ever committed. -/
theorem C81_violated_by_stale_copy : ∃ s, Reach wcfg s ∧ wcfg.Ok ∧ s.faults = [.staleCopy] ∧
    (∀ e ∈ s.lin, ∀ k id, e.2 ≠ .committed k id) ∧
    ∃ a ∈ s.acks, ∃ b ∈ s.acks, a.start.call = .create [1] 3 ∧ a.resp = .created 5 ∧ a.stop ≤ b.start.at_ ∧
      b.start.call = .lookup (.commit 5) [1] ∧ b.resp = .notFound := by
  have h : (wrun (doCreate 0 [1] 3 5 ++ createTo 1 [2] 3 6 ++ [.a (.lookup (.commit 5) [1]), .a (.read 2)] ++ flush 2 ++
      finish 1 2 ++ [.a (.inode 2 false), .a (.atEnd 2 false)])).map (fun s =>
        decide (s.faults = [.staleCopy]) && (decide (s.lin = [(0, .created [1] 5 3), (1, .created [2] 6 3), (2, .refused [1] 5)]) &&
        decide (s.acks.map (fun a => (a.start.call, a.start.at_, a.stop, a.resp)) =
        [(.create [1] 3, 0, 1, .created 5), (.create [2] 3, 1, 2, .created 6), (.lookup (.commit 5) [1], 2, 3, .notFound)]))) = some true := by decide +kernel
  obtain ⟨s, h1, h2⟩ := Option.map_eq_some_iff.1 h
  simp only [Bool.and_eq_true, decide_eq_true_eq] at h2
  obtain ⟨e1, e2, e3⟩ := h2
  have m1 : (Call.create [1] 3, 0, 1, Resp.created 5) ∈ s.acks.map (fun a => (a.start.call, a.start.at_, a.stop, a.resp)) := by rw [e3]; simp
  have m2 : (Call.lookup (.commit 5) [1], 2, 3, Resp.notFound) ∈ s.acks.map (fun a => (a.start.call, a.start.at_, a.stop, a.resp)) := by rw [e3]; simp
  obtain ⟨a, ha, ea⟩ := List.mem_map.1 m1
  obtain ⟨b, hb, eb⟩ := List.mem_map.1 m2
  simp only [Prod.mk.injEq] at ea eb
  refine ⟨s, wrun_reach h1, wcfg_ok, e1, ?_, a, ha, b, hb, ea.1, ea.2.2.2, by omega, eb.1, eb.2.2.2⟩
  intro e he
  rw [e2] at he
  simp only [List.mem_cons, List.not_mem_nil, or_false] at he
  rcases he with rfl | rfl | rfl <;> simp

end lite

section direct
open Direct

/-- **C81 (direct), valid until committed.** Any schedule, any number of crashes: if a commit of an upload is told that there is no such
upload, and the commit was called after the upload's creation was answered, or the upload was there when the store was opened last, then
a commit took the upload before this answer. -/
theorem C81_direct_valid {c : SCfg} {s : DSt} (h : Reach c s) {b : Ack} {id : Nat}
    (hb : (b.call, Ev.refused id) ∈ (s.lin.take b.stop).drop b.start)
    (hmade : (∃ a ∈ s.acks, a.resp = .created id ∧ a.stop ≤ b.start) ∨ s.base.2 id ≠ none) :
    ∃ i m, (i, Ev.claimed id m) ∈ s.lin.take b.stop := by
  obtain ⟨pb, qb, lb, lb1, lb2⟩ := ack_split (lin := s.lin) (a := b) (ev := .refused id)
    (List.mem_map.2 ⟨_, List.mem_filter.2 ⟨hb, by simp⟩, rfl⟩)
  obtain ⟨x, y, h1, ht⟩ := toks_at h lb
  have hx : x.tokens id = none := by
    simp only [absStep] at h1
    split at h1
    · assumption
    · cases h1
  by_contra hno
  refine ht.all id ?_ ?_ hx
  · rcases hmade with ⟨a, ha, ha1, hlate⟩ | hbase
    · right
      have hex := ((reach_lin h).acks a ha).2
      unfold Explained at hex
      rw [ha1] at hex
      obtain ⟨m, hex⟩ := hex
      obtain ⟨pa, qa, la, _, la2⟩ := ack_split (ev := .created id m) (by rw [hex]; simp)
      refine ⟨m, List.mem_map.2 ⟨(a.call, .created id m), ?_, rfl⟩⟩
      have g : s.lin[pa.length]? = some (a.call, .created id m) := by rw [la]; simp
      rw [lb, List.getElem?_append_left (by omega)] at g
      exact List.mem_of_getElem? g
    · exact .inl hbase
  · intro m hm
    obtain ⟨⟨i, e⟩, g1, g2⟩ := List.mem_map.1 hm
    simp only at g2
    subst g2
    apply hno
    refine ⟨i, m, ?_⟩
    rw [lb, List.take_append]
    exact List.mem_append_left _ (by rwa [List.take_of_length_le (by omega)])

/-- **C81 (direct), committed once.** Any schedule: of all the commits of an upload since the store was opened, at most one takes it; so at most one
is answered with success. -/
theorem C81_direct_once {c : SCfg} {s : DSt} (h : Reach c s) {id : Nat} :
    (∀ i j m m', (i, Ev.claimed id m) ∈ s.lin → (j, Ev.claimed id m') ∈ s.lin → i = j) ∧
    (∀ pre i m post, s.lin = pre ++ (i, .claimed id m) :: post → ∀ j m', (j, Ev.claimed id m') ∉ pre) ∧
    ∀ a ∈ s.acks, ∀ v, a.resp = .committed v → ∃ id m, (a.call, Ev.claimed id m) ∈ s.lin := by
  refine ⟨fun i j m m' => claim_uniq h, fun pre i m post hl => claim_once h hl, ?_⟩
  intro a ha v hv
  have hex := ((reach_lin h).acks a ha).2
  unfold Explained at hex
  rw [hv] at hex
  cases v with
  | none =>
    obtain ⟨old, m, hex⟩ := hex
    obtain ⟨pa, qa, la, _⟩ := ack_split (lin := s.lin) (a := a) (ev := .claimed old m) (by rw [hex]; simp)
    exact ⟨old, m, by rw [la]; simp⟩
  | some v =>
    obtain ⟨old, m, ifne, hex⟩ := hex
    obtain ⟨pa, qa, la, _⟩ := ack_split (lin := s.lin) (a := a) (ev := .claimed old m) (by rw [hex]; simp)
    exact ⟨old, m, by rw [la]; simp⟩

/-- **C81 (direct), committed once, across crashes.** After a crash, an upload one of whose commits was answered with success is not there
again, so every later commit of it is refused. -/
theorem C81_direct_restart_partial {c : SCfg} (hc : c.Ok) {s s' : DSt} (h : Reach c s) (hf : PageFaultFree s)
    (ho : Fault.overlap ∉ s.faults) {order : List Tuple} (hp : order.Perm (diskTuples c.n s.ts)) (hl : load c s order = some s')
    {a : Ack} (ha : a ∈ s.acks) {v : Option Nat} (_hr : a.resp = .committed v) {id : Nat} {m : Meta} (hcl : (a.call, Ev.claimed id m) ∈ s.lin) :
    s'.incomplete id = none := by
  by_contra hne
  obtain ⟨o, ho'⟩ := Option.ne_none_iff_exists'.1 hne
  obtain ⟨s1, hl1, _, _, h3⟩ := C28_restart_partial hc h hf ho order hp
  rw [hl] at hl1
  cases hl1
  have ht := toks_now h
  rcases h3 id o ho' with h4 | ⟨th, hth, ⟨o', tk, hpc, hid⟩ | ⟨m', hm'⟩⟩
  · exact (ht.made id (by show s.incomplete id ≠ none; rw [h4]; simp)).2 m (List.mem_map.2 ⟨_, hcl, rfl⟩)
  · have hfr := reach_fresh h
    have hmem : id ∈ s.threads.flatMap (fun th => th.pc.cid) := List.mem_flatMap.2 ⟨th, hth, by rw [hpc, ← hid]; simp [PC.cid]⟩
    rcases ht.cl id m (List.mem_map.2 ⟨_, hcl, rfl⟩) with h5 | ⟨m', h5⟩
    · obtain ⟨o2, h6⟩ := Option.ne_none_iff_exists'.1 h5
      exact (hfr.btok id o2 h6).2 (List.mem_append_right _ hmem)
    · obtain ⟨e, he, hee⟩ := List.mem_map.1 h5
      refine (List.nodup_append.1 hfr.nodup).2.2 id (List.mem_flatMap.2 ⟨e, he, ?_⟩) id hmem rfl
      rw [hee]
      simp [Ev.newId]
  · exact (reach_ack h a ha).2 th hth (claim_uniq h hm' hcl)

/-- Hypotheses met: an upload is committed, another commit of it is refused, the store crashes, and a third one is refused. -/
example : ∃ (s s' : DSt) (order : List Tuple), Reach wcfg s ∧ wcfg.Ok ∧ s.faults = [] ∧
    s.acks.map (fun a => (a.call, a.start, a.stop, a.resp)) = [(0, 0, 1, .created 5), (1, 1, 3, .committed (some 9)), (2, 3, 4, .notFound)] ∧
    s.lin.map (fun e => (e.1, e.2.newId)) = [(0, [5]), (1, []), (1, [9]), (2, [])] ∧ (s.lin.map (·.2)).getLast? = some (.refused 5) ∧
    order.Perm (diskTuples wcfg.n s.ts) ∧ load wcfg s order = some s' ∧ s'.incomplete 5 = none := by
  have h : (wrun (doCreate [1] 10 5 0 ++ doCommit 5 9 0 ++ [.commitRefused 5])).map (fun s =>
      (decide (s.faults = []) && (decide (s.acks.map (fun a => (a.call, a.start, a.stop, a.resp)) = [(0, 0, 1, .created 5), (1, 1, 3, .committed (some 9)), (2, 3, 4, .notFound)]) &&
      (decide (s.lin.map (fun e => (e.1, e.2.newId)) = [(0, [5]), (1, []), (1, [9]), (2, [])]) && (decide ((s.lin.map (·.2)).getLast? = some (.refused 5)) &&
       decide ((exec wcfg s (.restart false)).map (fun s' => (s'.incomplete 5)) = some none)))))) = some true := by
    decide +kernel
  obtain ⟨s, h1, h2⟩ := Option.map_eq_some_iff.1 h
  simp only [Bool.and_eq_true, decide_eq_true_eq] at h2
  obtain ⟨e1, e2, e3, e4, e6⟩ := h2
  obtain ⟨s', e7, e8⟩ := Option.map_eq_some_iff.1 e6
  obtain ⟨order, e9, e10⟩ := exec_restart (wrun_reach h1) e7
  exact ⟨s, s', order, wrun_reach h1, wcfg_ok, e1, e2, e3, e4, e9, e10, e8⟩

end direct
end Props
end Blobd
