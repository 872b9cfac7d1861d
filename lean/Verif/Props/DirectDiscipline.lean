import Verif.Proofs.DirectCalm
import Verif.Props.DirectDurable
import Verif.Props.DirectSpace
/-!
# C28, C29, C49, C51, C56 for well-behaved clients

The theorems of these claims exclude events recorded by the model. Here the exclusions are replaced by conditions on the
history (Spec/DirectDiscipline): `Calm c s` says that `s` occurs in an execution in which

* a commit or delete takes effect on a key only after the earlier ones on that key were answered,
* no `write_object` call is dropped during a device write,
* metadata takes at most two small pages, and
* no crash that was followed by a restart hit a commit that was replacing an object.

Everything else is arbitrary: any number of concurrent calls on different keys, concurrent creates, writes and reads on
the same key, calls that fail or are abandoned, and crashes and restarts at any other point. The last crash (the one a
theorem is about) may hit anything.
-/
set_option autoImplicit false
namespace Blobd
namespace Props
open Direct

/-- In such an execution none of the excluded events happens. -/
theorem C29_disciplined_faultless {c : SCfg} (hc : c.Ok) {s : DSt} (h : Calm c s) :
    Reach c s ∧ PageFaultFree s ∧ Fault.overlap ∉ s.faults := by
  obtain ⟨h1, h2, _⟩ := calm_inv hc h
  exact ⟨h1, by simp [PageFaultFree, h2], by simp [h2]⟩

/-- After a crash at any point of such an execution, the next start succeeds; every key shows what was visible at the
crash, unless the last effect on it is one of an unanswered call, then possibly what was visible before that effect; the
tokens that could be committed still can. -/
theorem C28_disciplined_restart_partial {c : SCfg} (hc : c.Ok) {s : DSt} (h : Calm c s) (order : List Tuple)
    (hp : order.Perm (diskTuples c.n s.ts)) :
    ∃ s', load c s order = some s' ∧
      (∀ k, s'.committed k = s.committed k ∨
        ∃ pre call ev post, s.lin = pre ++ (call, ev) :: post ∧ (∀ a ∈ s.acks, a.call ≠ call) ∧ ev.touches k ∧
          (∀ e ∈ post, ¬ e.2.touches k) ∧ s'.committed k = visMap s.base.1 (pre.map (·.2)) k) ∧
      (∀ id o, s.incomplete id = some o → s'.incomplete id = some o) := by
  obtain ⟨h1, h2, h3⟩ := C29_disciplined_faultless hc h
  obtain ⟨s', hl, hv, ht, _⟩ := C28_restart_partial hc h1 h2 h3 order hp
  refine ⟨s', hl, fun k => (hv k).imp_right ?_, ht⟩
  rintro ⟨th, hth, pre, ev, post, e1, e2, e3, e4⟩
  exact ⟨pre, th.call, ev, post, e1, fun a ha he => (reach_ack h1 a ha).2 th hth he.symm, e2, e3, e4⟩

/-- Acknowledged commits survive. -/
theorem C28_disciplined_commit_partial {c : SCfg} (hc : c.Ok) {s s' : DSt} (h : Calm c s) {order : List Tuple}
    (hp : order.Perm (diskTuples c.n s.ts)) (hl : load c s order = some s') {a : Ack} (ha : a ∈ s.acks) {id : Nat}
    (hr : a.resp = .committed (some id)) :
    ∃ pre old m ifne post, s.lin = pre ++ (a.call, .published old id m ifne) :: post ∧
      ((∀ e ∈ post, ¬ e.2.touches m.key) → s'.committed m.key = some ⟨id, m⟩) := by
  obtain ⟨h1, h2, h3⟩ := C29_disciplined_faultless hc h
  obtain ⟨pre, old, m, ifne, post, e1, _, _, e2⟩ := C28_acknowledged_commit_partial hc h1 h2 h3 hp hl ha hr
  exact ⟨pre, old, m, ifne, post, e1, e2⟩

/-- Acknowledged deletes survive. -/
theorem C28_disciplined_delete_partial {c : SCfg} (hc : c.Ok) {s s' : DSt} (h : Calm c s) {order : List Tuple}
    (hp : order.Perm (diskTuples c.n s.ts)) (hl : load c s order = some s') {a : Ack} (ha : a ∈ s.acks)
    (hr : a.resp = .deleted) :
    ∃ pre k want id post, s.lin = pre ++ (a.call, .removed k want id) :: post ∧
      ((∀ e ∈ post, ¬ e.2.touches k) → s'.committed k = none) := by
  obtain ⟨h1, h2, h3⟩ := C29_disciplined_faultless hc h
  obtain ⟨pre, k, want, id, post, e1, _, _, e2⟩ := C28_acknowledged_delete_partial hc h1 h2 h3 hp hl ha hr
  exact ⟨pre, k, want, id, post, e1, e2⟩

/-- Acknowledged creates survive: the token can still be committed. -/
theorem C28_disciplined_create_partial {c : SCfg} (hc : c.Ok) {s s' : DSt} (h : Calm c s) {order : List Tuple}
    (hp : order.Perm (diskTuples c.n s.ts)) (hl : load c s order = some s') {a : Ack} (ha : a ∈ s.acks) {id : Nat}
    (hr : a.resp = .created id) :
    ∃ pre m post, s.lin = pre ++ (a.call, .created id m) :: post ∧
      ((∀ m', ∀ x, (x, Ev.claimed id m') ∉ post) → s'.incomplete id = some ⟨id, m⟩) := by
  obtain ⟨h1, h2, h3⟩ := C29_disciplined_faultless hc h
  obtain ⟨pre, m, post, e1, _, _, e2⟩ := C28_acknowledged_create_partial hc h1 h2 h3 hp hl ha hr
  exact ⟨pre, m, post, e1, e2⟩

/-- If every call was answered when the crash came, nothing changes at all: the same objects are visible and the same
tokens can be committed. -/
theorem C28_disciplined_quiet_restart_partial {c : SCfg} (hc : c.Ok) {s : DSt} (h : Calm c s) (hq : s.threads = [])
    (order : List Tuple) (hp : order.Perm (diskTuples c.n s.ts)) :
    ∃ s', load c s order = some s' ∧ s'.committed = s.committed ∧ s'.incomplete = s.incomplete := by
  obtain ⟨h1, h2, h3⟩ := C29_disciplined_faultless hc h
  obtain ⟨s', hl, hv, ht, ht'⟩ := C28_restart_partial hc h1 h2 h3 order hp
  refine ⟨s', hl, funext fun k => ?_, funext fun id => ?_⟩
  · rcases hv k with e | ⟨th, hth, _⟩
    · exact e
    · rw [hq] at hth; cases hth
  · cases hi : s'.incomplete id with
    | some o =>
      rcases ht' id o hi with e | ⟨th, hth, _⟩
      · exact e.symm
      · rw [hq] at hth; cases hth
    | none =>
      cases hi' : s.incomplete id with
      | none => rfl
      | some o => rw [ht id o hi'] at hi; cases hi

theorem step_lin {c : SCfg} {s s' : DSt} (hs : Step c s s') : (s'.lin = s.lin ∧ s'.committed = s.committed) ∨ ∃ e, s'.lin = s.lin ++ [e] ∧
    ∀ k, ¬ e.2.touches k → s'.committed k = s.committed k := by
  cases hs with
  | created ht hp hf => exact Or.inr ⟨_, rfl, fun _ _ => rfl⟩
  | commitClaim id ifne hi => exact Or.inr ⟨_, rfl, fun _ _ => rfl⟩
  | commitRefused id hi => exact Or.inr ⟨_, rfl, fun _ _ => rfl⟩
  | commitKept ht hp hw hne => exact Or.inr ⟨_, rfl, fun _ _ => rfl⟩
  | missing k want hc => exact Or.inr ⟨_, rfl, fun _ _ => rfl⟩
  | inspect k want hc hw => exact Or.inr ⟨_, rfl, fun _ _ => rfl⟩
  | commitPublish ht hp hw hif hn =>
    refine Or.inr ⟨_, rfl, fun k hk => ?_⟩
    simp only [Ev.touches] at hk
    simp only [updKey]
    rw [if_neg (fun e => hk e.symm)]
  | delete k want hc hw =>
    refine Or.inr ⟨_, rfl, fun k' hk => ?_⟩
    simp only [Ev.touches] at hk
    simp only [updKey]
    rw [if_neg (fun e => hk e.symm)]
  | _ => exact Or.inl ⟨rfl, rfl⟩

theorem step_acks {c : SCfg} {s s' : DSt} (hs : Step c s s') : ∀ a ∈ s.acks, a ∈ s'.acks := by
  intro a ha
  cases hs <;> first | exact ha | exact List.mem_append_left _ ha

/-- Once the calls that changed a key are answered, the key keeps what it shows for good: whatever calls on other keys,
creates, writes and reads happen, whichever of them fail or are interrupted, and however often the store crashes and
restarts, the same object is visible and none of its bytes changes, until a commit or delete of that key takes effect. -/
theorem C28_disciplined_forever_partial {c : SCfg} (hc : c.Ok) {s s' : DSt} (h : Calm c s) {k : List Byte} (ha : Answered s k)
    (hl : Later c k s s') :
    s'.committed k = s.committed k ∧
    ∀ o, s.committed k = some o → ∀ off p, (off, p) ∈ o.m.dataPages c.pages → ∀ x, off ≤ x → x < off + 2 ^ p → s'.dev x = s.dev x := by
  suffices hmain : Calm c s' ∧ Answered s' k ∧ s'.committed k = s.committed k ∧
      ∀ o, s.committed k = some o → ∀ off p, (off, p) ∈ o.m.dataPages c.pages → ∀ x, off ≤ x → x < off + 2 ^ p → s'.dev x = s.dev x from
    hmain.2.2
  induction hl with
  | refl => exact ⟨h, ha, rfl, fun _ _ _ _ _ _ _ _ => rfl⟩
  | @step a b _ hs hp hno ih =>
    obtain ⟨i1, i2, i3, i4⟩ := ih
    refine ⟨i1.step hs hp, ?_, ?_, ?_⟩
    · intro e he ht
      rcases step_lin hs with ⟨e1, _⟩ | ⟨e0, e1, _⟩
      · rw [e1] at he
        obtain ⟨x, hx, hxc⟩ := i2 e he ht
        exact ⟨x, step_acks hs x hx, hxc⟩
      · rw [e1] at he
        rcases List.mem_append.1 he with he | he
        · obtain ⟨x, hx, hxc⟩ := i2 e he ht
          exact ⟨x, step_acks hs x hx, hxc⟩
        · simp only [List.mem_singleton] at he
          subst he
          exact absurd ht (hno _ e1)
    · rw [← i3]
      rcases step_lin hs with ⟨_, e1⟩ | ⟨e0, e1, e2⟩
      · rw [e1]
      · exact e2 k (hno _ e1)
    · intro o ho off p hpg x h1 h2
      rw [← i4 o ho off p hpg x h1 h2]
      obtain ⟨r1, r2, _⟩ := C29_disciplined_faultless hc (i1.step hs hp)
      obtain ⟨r3, _, _⟩ := C29_disciplined_faultless hc i1
      have hk := i3.trans ho
      exact C51_visible_unchanged_partial hc r3 hs r2 (Or.inl (by rw [(reach_id r3).comKey k o hk]; exact hk)) hpg h1 h2
  | @restart a b order _ hn hp hload ih =>
    obtain ⟨i1, i2, i3, i4⟩ := ih
    obtain ⟨s1, e1, e2, _⟩ := C28_disciplined_restart_partial hc i1 order hp
    rw [hload] at e1
    cases e1
    refine ⟨i1.restart order hn hp hload, ?_, ?_, ?_⟩
    · obtain ⟨_, _, _, _, _, rfl⟩ := load_some hload
      intro e he; cases he
    · rw [← i3]
      rcases e2 k with e | ⟨pre, call, ev, post, e3, e4, e5, _⟩
      · exact e
      · obtain ⟨x, hx, hxc⟩ := i2 (call, ev) (by rw [e3]; simp) e5
        exact absurd hxc (e4 x hx)
    · intro o ho off p hpg x h1 h2
      rw [C51_restart_unchanged hload]
      exact i4 o ho off p hpg x h1 h2

/-- a run in which key `k` is left alone -/
def laterRun (c : SCfg) (k : List Byte) (s : DSt) (cmds : List Cmd) : Option DSt :=
  cmds.foldlM (fun s cmd => match cmd with
    | .restart rev => calmExec c s (.restart rev)
    | cmd => (calmExec c s cmd).bind (fun s' =>
      if (s'.lin.drop s.lin.length).all (fun e => decide (e.2.key? ≠ some k)) then some s' else none)) s

theorem laterRun_ok {c : SCfg} (hc : c.Ok) {k : List Byte} {s0 : DSt} {cmds : List Cmd} : ∀ {s s' : DSt}, Calm c s → Later c k s0 s →
    laterRun c k s cmds = some s' → Later c k s0 s' := by
  induction cmds with
  | nil => intro s s' _ h hr; simp only [laterRun, List.foldlM_nil] at hr; cases hr; exact h
  | cons cmd l ih =>
    intro s s' hca h hr
    simp only [laterRun, List.foldlM_cons, Option.bind_eq_bind, Option.bind_eq_some_iff] at hr
    obtain ⟨s1, h1, h2⟩ := hr
    by_cases hrs : ∃ rev, cmd = .restart rev
    · obtain ⟨rev, rfl⟩ := hrs
      simp only at h1
      refine ih (calmExec_ok hc hca h1) ?_ h2
      simp only [calmExec] at h1
      split at h1 <;> [rename_i hn; cases h1]
      obtain ⟨order, hp, hl⟩ := exec_restart (calm_inv hc hca).1 h1
      exact h.restart order (noReplacingB_ok hn) hp hl
    · have h1' : (calmExec c s cmd).bind (fun s' =>
          if (s'.lin.drop s.lin.length).all (fun e => decide (e.2.key? ≠ some k)) then some s' else none) = some s1 := by
        cases cmd <;> first | exact h1 | exact absurd ⟨_, rfl⟩ hrs
      obtain ⟨s2, h3, h4⟩ := Option.bind_eq_some_iff.1 h1'
      split at h4 <;> [rename_i hb; cases h4]
      cases h4
      refine ih (calmExec_ok hc hca h3) ?_ h2
      have he' : (exec c s cmd).bind (fun s' => if politeB c s s' then some s' else none) = some s1 := by
        cases cmd <;> first | exact h3 | exact absurd ⟨_, rfl⟩ hrs
      obtain ⟨s3, h5, h6⟩ := Option.bind_eq_some_iff.1 he'
      split at h6 <;> [rename_i hpb; cases h6]
      cases h6
      refine h.step (exec_step h5 (fun rev e => hrs ⟨rev, e⟩)) (politeB_ok hpb) ?_
      intro e he ht
      simp only [List.all_eq_true, decide_eq_true_eq] at hb
      exact hb e (by rw [he]; simp) (touches_key.1 ht)

/-- Hypotheses met: key 1 was replaced and everything answered; then another object is created, written and half
committed, the store crashes, restarts, and deletes a third one. -/
example : ∃ s s', Calm wcfg s ∧ Answered s [1] ∧ Later wcfg [1] s s' ∧ (s.committed [1]).map (·.id) = some 12 ∧
    s.acks.length = 6 ∧ s'.lin.map (·.2) = [.removed [2] none 13] ∧ s'.incomplete 8 ≠ none := by
  have h : ((wcalm (doCreate [1] 10 5 0 ++ doCommit 5 9 0 ++ doCreate [1] 11 6 0 ++
      [.commitClaim 6 false, .commitSeal 0, .commitPublish 0 12, .commitUpdate 0, .snapshot, .page 0, .signal, .commitFinish 0,
       .reapTuple 0, .snapshot, .page 0, .signal, .reaped 0] ++ doCreate [2] 20 7 0 ++ doCommit 7 13 0)).bind (fun s =>
      (laterRun wcfg [1] s (doCreate [3] 5 8 0 ++ [.openHandle 8, .writeStart 0 0 [7, 8, 9], .commitClaim 8 false, .commitSeal 0, .restart true,
        .delete [2] none])).map (fun s' => (s, s',
      s.lin.all (fun e => decide (e.2.key? ≠ some [1]) || s.acks.any (fun a => decide (a.call = e.1))) &&
      (decide ((s.committed [1]).map (·.id) = some 12) && (decide (s.acks.length = 6) &&
      (decide (s'.lin.map (·.2) = [.removed [2] none 13]) && (s'.incomplete 8).isSome))))))).map (·.2.2) = some true := by
    decide +kernel
  obtain ⟨⟨s, s', x⟩, h1, h2⟩ := Option.map_eq_some_iff.1 h
  obtain ⟨s0, h3, h4⟩ := Option.bind_eq_some_iff.1 h1
  obtain ⟨s1, h5, h6⟩ := Option.map_eq_some_iff.1 h4
  simp only [Prod.mk.injEq] at h6 h2
  obtain ⟨rfl, rfl, rfl⟩ := h6
  simp only [Bool.and_eq_true, decide_eq_true_eq, List.all_eq_true, Bool.or_eq_true, List.any_eq_true] at h2
  obtain ⟨e1, e2, e3, e4, e5⟩ := h2
  have hca := wcalm_ok h3
  refine ⟨s0, s1, hca, ?_, laterRun_ok wcfg_ok hca .refl h5, e2, e3, e4, by intro hc; rw [hc] at e5; simp at e5⟩
  intro e he ht
  rcases e1 e he with h7 | h7
  · exact absurd (touches_key.1 ht) h7
  · exact h7

/-- No step changes a byte of a visible object. -/
theorem C51_disciplined_partial {c : SCfg} (hc : c.Ok) {s s' : DSt} (h : Calm c s) (hs : Step c s s') (hp : Polite c s s')
    {k : List Byte} {o : Obj} (ho : s.committed k = some o) {off p x : Nat} (hpg : (off, p) ∈ o.m.dataPages c.pages)
    (h1 : off ≤ x) (h2 : x < off + 2 ^ p) : s'.dev x = s.dev x := by
  obtain ⟨r1, r2, _⟩ := C29_disciplined_faultless hc (h.step hs hp)
  obtain ⟨r3, _, _⟩ := C29_disciplined_faultless hc h
  exact C51_visible_unchanged_partial hc r3 hs r2 (Or.inl (by rw [(reach_id r3).comKey k o ho]; exact ho)) hpg h1 h2

/-- Whenever every call was answered, exactly the visible objects and open uploads take space. -/
theorem C56_disciplined_partial {c : SCfg} (hc : c.Ok) {s : DSt} (h : Calm c s) (hq : s.threads = []) :
    ∃ l : List (Obj × Nat), (l.map (·.1)).Nodup ∧ (∀ o, o ∈ l.map (·.1) ↔ Alive s o) ∧
      Spec.freeBytes s.alloc + Spec.liveBytes (taken c l) = c.heap.heap := by
  obtain ⟨h1, h2, _⟩ := C29_disciplined_faultless hc h
  exact C56_free_bytes_partial hc h1 h2 hq

/-- Such executions exist, with crashes in the middle: an object is replaced; a crash hits the delete of another key and
the first commit of a third; after the restart the delete has not happened, the object of the commit is an upload again
and is committed. -/
example : ∃ s, Calm wcfg s ∧ s.threads = [] ∧ (s.committed [1]).map (·.id) = some 12 ∧ (s.committed [2]).map (·.id) = some 13 ∧
    (s.committed [3]).map (·.id) = some 15 ∧ s.acks.map (·.resp) = [.committed (some 15)] := by
  have h : (wcalm (doCreate [1] 10 5 0 ++ doCommit 5 9 0 ++ doCreate [1] 11 6 0 ++
      [.commitClaim 6 false, .commitSeal 0, .commitPublish 0 12, .commitUpdate 0, .snapshot, .page 0, .signal, .commitFinish 0,
       .reapTuple 0, .snapshot, .page 0, .signal, .reaped 0] ++ doCreate [2] 20 7 0 ++ doCommit 7 13 0 ++ doCreate [3] 5 8 0 ++
      [.delete [2] none, .reapTuple 0, .commitClaim 8 false, .commitSeal 1, .commitPublish 1 14, .restart false] ++
      doCommit 8 15 0)).map (fun s =>
      decide (s.threads = []) && (decide ((s.committed [1]).map (·.id) = some 12) && (decide ((s.committed [2]).map (·.id) = some 13) &&
      (decide ((s.committed [3]).map (·.id) = some 15) && decide (s.acks.map (·.resp) = [.committed (some 15)]))))) = some true := by
    decide +kernel
  obtain ⟨s, h1, h2⟩ := Option.map_eq_some_iff.1 h
  simp only [Bool.and_eq_true, decide_eq_true_eq] at h2
  obtain ⟨e1, e2, e3, e4, e5⟩ := h2
  exact ⟨s, wcalm_ok h1, e1, e2, e3, e4, e5⟩

end Props
end Blobd
