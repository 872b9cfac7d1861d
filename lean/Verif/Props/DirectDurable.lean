import Verif.Proofs.DirectDur4
import Verif.Proofs.DirectRun
import Verif.Props.DirectCrash
/-!
# C28: acknowledged operations of the direct store survive a crash

`Reach c s`: `s` occurs in some execution from a formatted device, with any interleaving and any number of earlier
crashes and restarts; every such state is a possible crash point. `load c s order = some s'`: the next start, which
reads the tuples in any order `order`, succeeds with state `s'`. `s.lin` are the effects since the last start, in the
order in which they happened (C27), `s.acks` the answers given, `s.threads` the calls not answered.

The positive theorems exclude the events of C29 (`PageFaultFree`; among them: an earlier restart found two committed
objects with one key) and `Fault.overlap`: a commit or delete took effect on a key while an earlier commit or delete
on that key was not answered. The two violation theorems show that the code breaks the claim after either.
-/
set_option autoImplicit false
namespace Blobd
namespace Props
open Direct

/-- After a crash at any point the next start succeeds, and for every key shows what was visible at the crash, unless
the last effect on that key is one of a call that was not answered: then it may also show what was visible just
before that effect. Every token that could be committed at the crash still can, and the only other tokens are those
of unanswered calls: of a create, or taken by a commit. -/
theorem C28_restart_partial {c : SCfg} (hc : c.Ok) {s : DSt} (h : Reach c s) (hf : PageFaultFree s)
    (ho : Fault.overlap ∉ s.faults) (order : List Tuple) (hp : order.Perm (diskTuples c.n s.ts)) :
    ∃ s', load c s order = some s' ∧
      (∀ k, s'.committed k = s.committed k ∨
        ∃ th ∈ s.threads, ∃ pre ev post, s.lin = pre ++ (th.call, ev) :: post ∧ ev.touches k ∧
          (∀ e ∈ post, ¬ e.2.touches k) ∧ s'.committed k = visMap s.base.1 (pre.map (·.2)) k) ∧
      (∀ id o, s.incomplete id = some o → s'.incomplete id = some o) ∧
      (∀ id o, s'.incomplete id = some o → s.incomplete id = some o ∨
        ∃ th ∈ s.threads, (∃ o' tk, th.pc = .createTuple o' tk ∧ o'.id = id) ∨ ∃ m, (th.call, Ev.claimed id m) ∈ s.lin) := by
  have hs := reach_safe hc h hf.1 hf.2.1 hf.2.2
  have hd := reach_dur hc h hf ho
  obtain ⟨s', hl⟩ := C29_restart_succeeds_partial hc h hf order hp
  refine ⟨s', hl, ?_, fun id o hi => load_tok (reach_id h) hs hd hp hl hi, ?_⟩
  · intro k
    refine (load_vis (reach_id h) hs hd hp hl k).imp_right ?_
    rintro ⟨th, hth, pre, ev, post, h1, h2, h3, h4⟩
    exact ⟨th, hth, pre, ev, post, h1, h2, h3, h4.symm⟩
  · intro id o hi
    refine (load_tok' (reach_id h) hs hd hp hl hi).imp_right ?_
    rintro ⟨th, hth, h1 | ⟨_, m, h1⟩⟩
    · exact ⟨th, hth, Or.inl h1⟩
    · refine ⟨th, hth, Or.inr ⟨m, ?_⟩⟩
      obtain ⟨e, he, hm⟩ := List.mem_map.1 h1
      obtain ⟨h2, h3⟩ := List.mem_filter.1 he
      simp only [decide_eq_true_eq] at h3
      obtain ⟨x, y⟩ := e
      simp only at h3 hm
      subst h3; subst hm
      exact List.mem_of_mem_drop h2

/-- the last effect on a key is unique -/
theorem last_uniq {lin pre pre' post post' : List (Nat × Ev)} {x x' : Nat} {ev ev' : Ev} {k : List Byte}
    (h : lin = pre ++ (x, ev) :: post) (h' : lin = pre' ++ (x', ev') :: post') (ht : ev.touches k) (ht' : ev'.touches k)
    (hn : ∀ e ∈ post, ¬ e.2.touches k) (hn' : ∀ e ∈ post', ¬ e.2.touches k) : x = x' := by
  rw [h] at h'
  rcases List.append_eq_append_iff.1 h' with ⟨l, e1, e2⟩ | ⟨l, e1, e2⟩
  · cases l with
    | nil => simp at e2; exact e2.1.1
    | cons a l =>
      simp only [List.cons_append, List.cons.injEq] at e2
      exact absurd ht' (hn (x', ev') (by rw [e2.2]; simp))
  · cases l with
    | nil => simp at e2; exact e2.1.1.symm
    | cons a l =>
      simp only [List.cons_append, List.cons.injEq] at e2
      exact absurd ht (hn' (x, ev) (by rw [e2.2]; simp))

/-- an effect of an answered call, somewhere between its start and its answer -/
theorem ack_split {lin : List (Nat × Ev)} {a : Ack} {ev : Ev}
    (h : ev ∈ (((lin.take a.stop).drop a.start).filter (fun e => e.1 = a.call)).map (·.2)) :
    ∃ pre post, lin = pre ++ (a.call, ev) :: post ∧ a.start ≤ pre.length ∧ pre.length < a.stop := by
  obtain ⟨e, he, rfl⟩ := List.mem_map.1 h
  obtain ⟨h2, h3⟩ := List.mem_filter.1 he
  simp only [decide_eq_true_eq] at h3
  obtain ⟨i, hi⟩ := List.mem_iff_getElem?.1 h2
  rw [List.getElem?_drop, List.getElem?_take] at hi
  split at hi
  · rename_i hlt
    refine ⟨lin.take (a.start + i), lin.drop (a.start + i + 1), ?_, ?_, ?_⟩
    · rw [← h3]; exact split_at hi
    all_goals
      have := (List.getElem?_eq_some_iff.1 hi).1
      rw [List.length_take]; omega
  · simp at hi

/-- an answered call's effect that is the last one on its key survives -/
theorem ack_vis {c : SCfg} (hc : c.Ok) {s s' : DSt} (h : Reach c s) (hf : PageFaultFree s) (ho : Fault.overlap ∉ s.faults)
    {order : List Tuple} (hp : order.Perm (diskTuples c.n s.ts)) (hl : load c s order = some s') {a : Ack} (ha : a ∈ s.acks)
    {pre post : List (Nat × Ev)} {ev : Ev} (hs : s.lin = pre ++ (a.call, ev) :: post) {k : List Byte} (ht : ev.touches k)
    (hn : ∀ e ∈ post, ¬ e.2.touches k) : s'.committed k = visMap (visMap s.base.1 (pre.map (·.2))) [ev] k := by
  obtain ⟨s1, hl1, h1, _⟩ := C28_restart_partial hc h hf ho order hp
  rw [hl] at hl1
  cases hl1
  have hv : s.committed = visMap s.base.1 (s.lin.map (·.2)) := absRun_vis (reach_lin h).abs
  rcases h1 k with h1 | ⟨th, hth, pre', ev', post', e1, e2, e3, _⟩
  · rw [h1, hv, hs]
    rw [List.map_append, List.map_cons, visMap_append, ← List.singleton_append, visMap_append]
    refine visMap_no ?_
    intro e he
    obtain ⟨x, hx, rfl⟩ := List.mem_map.1 he
    exact hn x hx
  · exact absurd (last_uniq e1 hs e2 ht e3 hn) ((reach_ack h a ha).2 th hth)

/-- An acknowledged commit survives: after the crash the key shows the committed version, unless a later effect on the
key replaced or deleted it. -/
theorem C28_acknowledged_commit_partial {c : SCfg} (hc : c.Ok) {s s' : DSt} (h : Reach c s) (hf : PageFaultFree s)
    (ho : Fault.overlap ∉ s.faults) {order : List Tuple} (hp : order.Perm (diskTuples c.n s.ts)) (hl : load c s order = some s')
    {a : Ack} (ha : a ∈ s.acks) {id : Nat} (hr : a.resp = .committed (some id)) :
    ∃ pre old m ifne post, s.lin = pre ++ (a.call, .published old id m ifne) :: post ∧ a.start ≤ pre.length ∧ pre.length < a.stop ∧
      ((∀ e ∈ post, ¬ e.2.touches m.key) → s'.committed m.key = some ⟨id, m⟩) := by
  have hex := ((reach_lin h).acks a ha).2
  unfold Explained at hex
  rw [hr] at hex
  obtain ⟨old, m, ifne, hex⟩ := hex
  obtain ⟨pre, post, h1, h2, h3⟩ := ack_split (ev := .published old id m ifne) (by rw [hex]; simp)
  refine ⟨pre, old, m, ifne, post, h1, h2, h3, fun hn => ?_⟩
  rw [ack_vis hc h hf ho hp hl ha h1 (by simp [Ev.touches]) hn]
  simp [visMap, updKey]

/-- An acknowledged delete survives: after the crash the key shows nothing, unless a later commit made something
visible. -/
theorem C28_acknowledged_delete_partial {c : SCfg} (hc : c.Ok) {s s' : DSt} (h : Reach c s) (hf : PageFaultFree s)
    (ho : Fault.overlap ∉ s.faults) {order : List Tuple} (hp : order.Perm (diskTuples c.n s.ts)) (hl : load c s order = some s')
    {a : Ack} (ha : a ∈ s.acks) (hr : a.resp = .deleted) :
    ∃ pre k want id post, s.lin = pre ++ (a.call, .removed k want id) :: post ∧ a.start ≤ pre.length ∧ pre.length < a.stop ∧
      ((∀ e ∈ post, ¬ e.2.touches k) → s'.committed k = none) := by
  have hex := ((reach_lin h).acks a ha).2
  unfold Explained at hex
  rw [hr] at hex
  obtain ⟨k, want, id, hex⟩ := hex
  obtain ⟨pre, post, h1, h2, h3⟩ := ack_split (ev := .removed k want id) (by rw [hex]; simp)
  refine ⟨pre, k, want, id, post, h1, h2, h3, fun hn => ?_⟩
  rw [ack_vis hc h hf ho hp hl ha h1 (by simp [Ev.touches]) hn]
  simp [visMap, updKey]

theorem absRun_tok {l : List Ev} : ∀ {a b : Abs} {id : Nat} {o : Obj}, absRun a l = some b → a.tokens id = some o →
    (∀ m, .claimed id m ∉ l) → b.tokens id = some o := by
  induction l with
  | nil => intro a b id o h hi _; simp only [absRun, List.foldlM_nil] at h; cases h; exact hi
  | cons e l ih =>
    intro a b id o h hi hn
    simp only [absRun, List.foldlM_cons, Option.bind_eq_bind, Option.bind_eq_some_iff] at h
    obtain ⟨a1, h1, h2⟩ := h
    refine ih (a := a1) h2 ?_ (fun m hm => hn m (by simp [hm]))
    cases e with
    | created id' m =>
      simp only [absStep] at h1
      split at h1
      · rename_i hnone
        cases h1
        simp only [upd]
        rw [if_neg]
        · exact hi
        · rintro rfl; rw [hnone] at hi; cases hi
      · simp at h1
    | claimed id' m =>
      simp only [absStep] at h1
      split at h1
      · cases h1
        simp only [upd]
        rw [if_neg]
        · exact hi
        · rintro rfl; exact hn m (by simp)
      · simp at h1
    | refused id' => simp only [absStep] at h1; split at h1 <;> simp at h1; subst h1; exact hi
    | published old id' m ifne => simp only [absStep] at h1; split at h1 <;> simp at h1; subst h1; exact hi
    | kept id' m => simp only [absStep] at h1; split at h1 <;> simp at h1; subst h1; exact hi
    | removed k want id' =>
      simp only [absStep] at h1
      split at h1
      · split at h1 <;> simp at h1; subst h1; exact hi
      · simp at h1
    | missing k want =>
      simp only [absStep] at h1
      split at h1
      · split at h1 <;> simp at h1; subst h1; exact hi
      · simp at h1; subst h1; exact hi
    | found k want id' m =>
      simp only [absStep] at h1
      split at h1
      · split at h1 <;> simp at h1; subst h1; exact hi
      · simp at h1

/-- An acknowledged create survives: after the crash the token can still be committed, with the same metadata,
unless a commit took it. -/
theorem C28_acknowledged_create_partial {c : SCfg} (hc : c.Ok) {s s' : DSt} (h : Reach c s) (hf : PageFaultFree s)
    (ho : Fault.overlap ∉ s.faults) {order : List Tuple} (hp : order.Perm (diskTuples c.n s.ts)) (hl : load c s order = some s')
    {a : Ack} (ha : a ∈ s.acks) {id : Nat} (hr : a.resp = .created id) :
    ∃ pre m post, s.lin = pre ++ (a.call, .created id m) :: post ∧ a.start ≤ pre.length ∧ pre.length < a.stop ∧
      ((∀ m', ∀ x, (x, Ev.claimed id m') ∉ post) → s'.incomplete id = some ⟨id, m⟩) := by
  have hex := ((reach_lin h).acks a ha).2
  unfold Explained at hex
  rw [hr] at hex
  obtain ⟨m, hex⟩ := hex
  obtain ⟨pre, post, h1, h2, h3⟩ := ack_split (ev := .created id m) (by rw [hex]; simp)
  refine ⟨pre, m, post, h1, h2, h3, fun hn => ?_⟩
  obtain ⟨s1, hl1, _, h4, _⟩ := C28_restart_partial hc h hf ho order hp
  rw [hl] at hl1
  cases hl1
  refine h4 id _ ?_
  have habs := (reach_lin h).abs
  rw [h1] at habs
  simp only [absRun, List.map_append, List.map_cons, List.foldlM_append, List.foldlM_cons, Option.bind_eq_bind, Option.bind_eq_some_iff] at habs
  obtain ⟨b, _, b', hb', hb''⟩ := habs
  refine absRun_tok (a := b') hb'' ?_ ?_
  · simp only [absStep] at hb'
    split at hb'
    · cases hb'; simp [upd]
    · simp at hb'
  · intro m' hm
    obtain ⟨e, he, e2⟩ := List.mem_map.1 hm
    obtain ⟨x, y⟩ := e
    simp only at e2
    subst e2
    exact hn m' x he

/-- A crash in the middle: two objects on different keys, a delete whose tuple removal is not on the device yet and a
commit that is not durable; both calls are unanswered. -/
example : ∃ s, Reach wcfg s ∧ wcfg.Ok ∧ PageFaultFree s ∧ Fault.overlap ∉ s.faults ∧
    s.acks.map (·.resp) = [.created 5, .committed (some 9), .created 6] ∧ s.threads.length = 2 ∧
    (s.committed [1]).map (·.id) = none ∧ (s.committed [2]).map (·.id) = some 12 ∧
    (diskTuples wcfg.n s.ts).map (fun t => (t.id, t.state)) = [(9, .committed), (6, .incomplete)] := by
  have h : (wrun (doCreate [1] 3 5 0 ++ doCommit 5 9 0 ++ doCreate [2] 10 6 0 ++
      [.delete [1] none, .reapTuple 0, .commitClaim 6 false, .commitSeal 1, .commitPublish 1 12])).map (fun s =>
      (decide (s.acks.map (·.resp) = [.created 5, .committed (some 9), .created 6]) && (decide (s.threads.length = 2) &&
       (decide ((s.committed [1]).map (·.id) = none) && (decide ((s.committed [2]).map (·.id) = some 12) &&
       (decide ((diskTuples wcfg.n s.ts).map (fun t => (t.id, t.state)) = [(9, .committed), (6, .incomplete)]) &&
       decide (s.faults = []))))))) = some true := by decide +kernel
  obtain ⟨s, h1, h2⟩ := Option.map_eq_some_iff.1 h
  simp only [Bool.and_eq_true, decide_eq_true_eq] at h2
  obtain ⟨e1, e2, e3, e4, e5, e6⟩ := h2
  exact ⟨s, wrun_reach h1, wcfg_ok, by simp [PageFaultFree, e6], by simp [e6], e1, e2, e3, e4, e5⟩

/-! ## A commit is all or nothing -/

/-- ghost: the version a commit publishes is the object of the token -/
def PubInv (s : DSt) : Prop := ∀ x old id m ifne, (x, Ev.published old id m ifne) ∈ s.lin → s.names old = s.names id ∧ s.names old ≠ none

theorem names_step {c : SCfg} {s s' : DSt} (hs : Step c s s') : ∀ i, s.names i ≠ none → s'.names i = s.names i := by
  cases hs with
  | createMeta junk ht hp hl ha hn hj => exact names_upd hn
  | commitPublish ht hp hw hif hn => exact names_upd hn
  | _ => exact fun _ _ => rfl

theorem pubInv_step {c : SCfg} {s s' : DSt} (hid : IdInv s) (h : PubInv s) (hs : Step c s s') : PubInv s' := by
  have hn := names_step hs
  have old : ∀ x old id m ifne, (x, Ev.published old id m ifne) ∈ s.lin → s'.names old = s'.names id ∧ s'.names old ≠ none := by
    intro x old id m ifne hx
    obtain ⟨h1, h2⟩ := h x old id m ifne hx
    rw [hn old h2, hn id (h1 ▸ h2)]; exact ⟨h1, h2⟩
  have keep : s'.lin = s.lin → PubInv s' := fun e => by rw [PubInv, e]; exact old
  have app : ∀ e : Nat × Ev, (∀ a b m i, e.2 ≠ .published a b m i) → s'.lin = s.lin ++ [e] → PubInv s' := by
    intro e he hl x o id m ifne hx
    rw [hl] at hx
    rcases List.mem_append.1 hx with hx | hx
    · exact old _ _ _ _ _ hx
    · simp only [List.mem_singleton] at hx; subst hx; exact absurd rfl (he _ _ _ _)
  cases hs with
  | @commitPublish pre th post o ifne newId ht hp hw hif hnone =>
    intro x old' id m ifne' hx
    rcases List.mem_append.1 hx with hx | hx
    · exact old _ _ _ _ _ hx
    · simp only [List.mem_singleton, Prod.mk.injEq, Ev.published.injEq] at hx
      obtain ⟨_, rfl, rfl, _, _⟩ := hx
      have hno : s.names o.id ≠ none := hid.nids th (by rw [ht]; simp) o.id (by rw [hp]; simp [PC.nid])
      rw [hn _ hno]
      exact ⟨by simp [upd], hno⟩
  | created ht hp hf => exact app _ (by simp) rfl
  | commitClaim id ifne hi => exact app _ (by simp) rfl
  | commitRefused id hi => exact app _ (by simp) rfl
  | commitKept ht hp hw hne => exact app _ (by simp) rfl
  | delete k want hc hw => exact app _ (by simp) rfl
  | missing k want hc => exact app _ (by simp) rfl
  | inspect k want hc hw => exact app _ (by simp) rfl
  | _ => exact keep rfl

theorem reach_pub {c : SCfg} {s : DSt} (h : Reach c s) : PubInv s := by
  induction h with
  | fresh h =>
    unfold fresh at h
    split at h
    · simp at h
    · cases h; simp [PubInv]
  | step hr hs ih => exact pubInv_step (reach_id hr) ih hs
  | restart order hr hp hl ih =>
    obtain ⟨a0, l, _, h1, hok, rfl⟩ := load_some hl
    simp [PubInv]

/-- After a crash a commit has not half happened: the token it took is not there again while the version it published
is visible. -/
theorem C28_commit_not_both_partial {c : SCfg} (hc : c.Ok) {s s' : DSt} (h : Reach c s) (hf : PageFaultFree s)
    {order : List Tuple} (hp : order.Perm (diskTuples c.n s.ts)) (hl : load c s order = some s')
    {x old id : Nat} {m : Meta} {ifne : Bool} (he : (x, Ev.published old id m ifne) ∈ s.lin)
    (hv : ∃ k o, s'.committed k = some o ∧ o.id = id) : s'.incomplete old = none := by
  have hs := reach_safe hc h hf.1 hf.2.1 hf.2.2
  obtain ⟨h1, h2⟩ := reach_pub h _ _ _ _ _ he
  obtain ⟨k, o, hk, hoi⟩ := hv
  cases hi : s'.incomplete old with
  | none => rfl
  | some o' =>
    exfalso
    obtain ⟨a0, l, _, hl1, hok, rfl⟩ := load_some hl
    obtain ⟨t, ht, hst, hti, _⟩ := (loadFrom_all hl1).inc old o' hi
    obtain ⟨u, hu, hsu, hui, _⟩ := (loadFrom_all hl1).com k o hk
    obtain ⟨b, _, htb⟩ := mem_diskTuples.1 (hp.mem_iff.1 ht)
    obtain ⟨b', _, hub⟩ := mem_diskTuples.1 (hp.mem_iff.1 hu)
    obtain ⟨_, _, n1, _⟩ := disk_rec hs htb
    obtain ⟨_, _, n2, _⟩ := disk_rec hs hub
    rw [hti, h1] at n1
    rw [hui, hoi, n1] at n2
    simp only [Option.some.injEq, Prod.mk.injEq] at n2
    have := (disk_off_inj hs htb hub n2.1).2
    subst this
    rw [hst] at hsu; cases hsu

/-! ## Violations -/

theorem exec_restart {c : SCfg} {s s' : DSt} (hr : Reach c s) {rev : Bool} (h : exec c s (.restart rev) = some s') :
    ∃ order, order.Perm (diskTuples c.n s.ts) ∧ load c s order = some s' := by
  simp only [exec] at h
  split at h <;> [cases h; rename_i a0 ha]
  split at h <;> [cases h; rename_i l hl]
  split at h <;> [rename_i hn; cases h]
  cases h
  have hnew := newOkB_ok hn (fun b hb => ((reach_t hr).1.out b hb).2)
  refine ⟨if rev then (diskTuples c.n s.ts).reverse else diskTuples c.n s.ts, ?_, ?_⟩
  · split
    · exact List.reverse_perm _
    · exact List.Perm.refl _
  · simp only [load, ha, hl, if_pos hnew]

/-- The code breaks C28: a crash in the middle of a commit that replaces an object leaves both versions on the device,
and every start keeps only the one with the larger (random) id, without removing the other one. If the surviving version
is then deleted, the delete is acknowledged and nothing is visible; after another crash the old version is back. No
calls overlapped. -/
theorem C28_violated_by_replaced_object : ∃ (s s' : DSt) (order : List Tuple), Reach wcfg s ∧ wcfg.Ok ∧
    s.faults = [.duplicateKey] ∧ s.threads = [] ∧ s.acks.map (·.resp) = [.deleted] ∧
    s.lin.map (·.2) = [.removed [1] none 12] ∧ s.committed [1] = none ∧
    order.Perm (diskTuples wcfg.n s.ts) ∧ load wcfg s order = some s' ∧ (s'.committed [1]).map (·.id) = some 9 := by
  have h : (wrun (doCreate [1] 10 5 0 ++ doCommit 5 9 0 ++ doCreate [1] 11 6 0 ++ [.commitClaim 6 false, .commitSeal 0,
      .commitPublish 0 12, .commitUpdate 0, .snapshot, .page 0, .signal, .restart false] ++ doDelete [1] 0)).map (fun s =>
      (decide (s.faults = [.duplicateKey]) && (decide (s.threads = []) && (decide (s.acks.map (·.resp) = [.deleted]) &&
       (decide (s.lin.map (·.2) = [.removed [1] none 12]) && (decide (s.committed [1] = none) &&
       decide ((exec wcfg s (.restart false)).map (fun s' => (s'.committed [1]).map (·.id)) = some (some 9)))))))) = some true := by
    decide +kernel
  obtain ⟨s, h1, h2⟩ := Option.map_eq_some_iff.1 h
  simp only [Bool.and_eq_true, decide_eq_true_eq] at h2
  obtain ⟨e1, e2, e3, e4, e5, e6⟩ := h2
  obtain ⟨s', e7, e8⟩ := Option.map_eq_some_iff.1 e6
  obtain ⟨order, e9, e10⟩ := exec_restart (wrun_reach h1) e7
  exact ⟨s, s', order, wrun_reach h1, wcfg_ok, e1, e2, e3, e4, e5, e9, e10, e8⟩

/-- The code breaks C28 also without an earlier crash: two commits to one key overlap. The second one is answered while
the first one's replaced object is still on the device with its tuple; after a crash the start prefers that one, if its
random id is larger: an acknowledged commit is undone. -/
theorem C28_violated_by_overlap : ∃ (s s' : DSt) (order : List Tuple), Reach wcfg s ∧ wcfg.Ok ∧
    s.faults = [.overlap] ∧ s.acks.map (·.resp) = [.created 5, .committed (some 20), .created 6, .created 7, .committed (some 15)] ∧
    (s.lin.map (·.2)).getLast? = some (.published 7 15 ⟨12, 7, [1], (s.committed [1]).elim [] (·.m.lpages), (s.committed [1]).elim [] (·.m.tails)⟩ false) ∧
    (s.committed [1]).map (·.id) = some 15 ∧
    order.Perm (diskTuples wcfg.n s.ts) ∧ load wcfg s order = some s' ∧ (s'.committed [1]).map (·.id) = some 20 := by
  have h : (wrun (doCreate [1] 10 5 0 ++ doCommit 5 20 0 ++ doCreate [1] 11 6 0 ++ doCreate [1] 12 7 0 ++
      [.commitClaim 6 false, .commitSeal 0, .commitPublish 0 10, .commitUpdate 0, .commitClaim 7 false, .commitSeal 1,
       .commitPublish 1 15, .commitUpdate 1, .snapshot, .page 0, .page 0, .signal, .commitFinish 1, .reapTuple 1,
       .snapshot, .page 0, .signal, .reaped 1])).map (fun s =>
      (decide (s.faults = [.overlap]) && (decide (s.acks.map (·.resp) = [.created 5, .committed (some 20), .created 6, .created 7, .committed (some 15)]) &&
       (decide ((s.lin.map (·.2)).getLast? = some (.published 7 15 ⟨12, 7, [1], (s.committed [1]).elim [] (·.m.lpages), (s.committed [1]).elim [] (·.m.tails)⟩ false)) &&
       (decide ((s.committed [1]).map (·.id) = some 15) &&
       decide ((exec wcfg s (.restart false)).map (fun s' => (s'.committed [1]).map (·.id)) = some (some 20))))))) = some true := by
    decide +kernel
  obtain ⟨s, h1, h2⟩ := Option.map_eq_some_iff.1 h
  simp only [Bool.and_eq_true, decide_eq_true_eq] at h2
  obtain ⟨e1, e3, e4, e5, e6⟩ := h2
  obtain ⟨s', e7, e8⟩ := Option.map_eq_some_iff.1 e6
  obtain ⟨order, e9, e10⟩ := exec_restart (wrun_reach h1) e7
  exact ⟨s, s', order, wrun_reach h1, wcfg_ok, e1, e3, e4, e5, e9, e10, e8⟩

end Props
end Blobd
