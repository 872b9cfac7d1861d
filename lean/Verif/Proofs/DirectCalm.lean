import Verif.Proofs.DirectDur4
import Verif.Proofs.DirectRun
import Verif.Props.MetaPage
import Verif.Props.DirectStore
import Verif.Spec.DirectDiscipline
/-! Well-behaved use of the direct store leads to none of the excluded events. -/
set_option autoImplicit false
namespace Blobd
namespace Direct
open List

variable {c : SCfg}

/-- what start-up has seen -/
structure SeenI (dev : Mem) (order : List Tuple) (l : LoadSt) : Prop where
  com : ∀ k o, l.committed k = some o → ∃ t ∈ order, t.state = .committed ∧ t.id = o.id ∧ tmeta dev t = some o.m ∧ o.m.key = k
  dup : l.dup = true → ∃ t ∈ order, ∃ u ∈ order, ∃ m m', t.state = .committed ∧ u.state = .committed ∧ t.id ≠ u.id ∧
    tmeta dev t = some m ∧ tmeta dev u = some m' ∧ m.key = m'.key

theorem seen_one {dev : Mem} {order : List Tuple} {l l' : LoadSt} {t : Tuple} (ht : t ∈ order) (h : SeenI dev order l)
    (hs : loadOne c dev l t = some l') : SeenI dev order l' := by
  obtain ⟨m, hm, _, h'⟩ := loadOne_some hs
  obtain ⟨h1, h2⟩ := h
  have hupd : t.state = .committed → ∀ k o, updKey l.committed m.key (some ⟨t.id, m⟩) k = some o →
      ∃ t ∈ order, t.state = .committed ∧ t.id = o.id ∧ tmeta dev t = some o.m ∧ o.m.key = k := by
    intro hst k o ho
    simp only [updKey] at ho
    split at ho
    · cases ho; rename_i hk; exact ⟨t, ht, hst, rfl, hm, hk.symm⟩
    · exact h1 k o ho
  have hnew : t.state = .committed → ∀ e, l.committed m.key = some e → e.id ≠ t.id → ∃ t ∈ order, ∃ u ∈ order, ∃ m m',
      t.state = .committed ∧ u.state = .committed ∧ t.id ≠ u.id ∧ tmeta dev t = some m ∧ tmeta dev u = some m' ∧ m.key = m'.key := by
    intro hst e he hne
    obtain ⟨u, hu, e1, e2, e3, e4⟩ := h1 _ _ he
    exact ⟨u, hu, t, ht, e.m, m, e1, hst, by rw [e2]; exact hne, e3, hm, e4⟩
  rcases h' with ⟨hst, hnone, e1, e2, e3, _⟩ | ⟨hst, hnone, e1, e2, e3, _⟩ | ⟨hst, e, he, e1, e3, ⟨hlt, e2, _⟩ | ⟨hlt, e2, _⟩⟩
  · exact ⟨by rw [e2]; exact h1, by rw [e3]; exact h2⟩
  · exact ⟨by rw [e2]; exact hupd hst, by rw [e3]; exact h2⟩
  · exact ⟨by rw [e2]; exact h1, fun _ => hnew hst e he (by omega)⟩
  · exact ⟨by rw [e2]; exact hupd hst, fun _ => hnew hst e he (by omega)⟩

theorem settled_not_busy (hc : c.Ok) {s : DSt} (hr : Reach c s) (hf : s.faults = []) {k : List Byte} (h : Answered s k) :
    busy s k = false := by
  by_contra hb
  simp only [Bool.not_eq_false, busy, any_eq_true, decide_eq_true_eq] at hb
  obtain ⟨th, hth, hk⟩ := hb
  have hd := reach_dur hc hr (by simp [PageFaultFree, hf]) (by simp [hf])
  obtain ⟨pre, ev, post, e1, e2, _⟩ := (hd.thr th hth).pri k hk
  obtain ⟨a, ha, hac⟩ := h (th.call, ev) (by rw [e1]; simp) e2
  exact (reach_ack hr a ha).2 th hth hac.symm

theorem calm_no_dup (hc : c.Ok) {s : DSt} (hr : Reach c s) (hf : s.faults = []) (hn : NoReplacing s) {order : List Tuple}
    (hp : order.Perm (diskTuples c.n s.ts)) {a0 : Buddy} {l : LoadSt}
    (hl : loadAll c s.dev ⟨a0, fun _ => none, fun _ => none, false⟩ order = some l) : l.dup = false := by
  by_contra hb
  simp only [Bool.not_eq_false] at hb
  have hseen : SeenI s.dev order l :=
    loadAll_inv (I := SeenI s.dev order) (fun t ht l l' hI hs => seen_one ht hI hs) ⟨by simp, by simp⟩ hl
  obtain ⟨t, ht, u, hu, m, m', hst, hsu, hne, hm, hm', hk⟩ := hseen.dup hb
  have hd := reach_dur hc hr (by simp [PageFaultFree, hf]) (by simp [hf])
  have hs := reach_safe hc hr (by simp [hf]) (by simp [hf]) (by simp [hf])
  obtain ⟨b, _, htb⟩ := mem_diskTuples.1 (hp.mem_iff.1 ht)
  obtain ⟨b', _, hub⟩ := mem_diskTuples.1 (hp.mem_iff.1 hu)
  have h1 := disk_com hs hd htb hst hm
  have h2 := disk_com hs hd hub hsu hm'
  have hv : s.committed = visMap s.base.1 (s.lin.map (·.2)) := Props.absRun_vis (reach_lin hr).abs
  -- a visible object and one a call has to delete
  have mixed : ∀ x y : Obj, x.m.key = y.m.key → s.committed x.m.key = some x → ∀ th ∈ s.threads, y ∈ th.pc.victims → False := by
    intro x y hxy hx th hth hvic
    obtain ⟨e1, e2⟩ := victim_prior (hd.thr th hth) hvic
    obtain ⟨pre, ev, post, e3, e4, e5, e6⟩ := (hd.thr th hth).pri _ e1
    rw [e2] at e6
    have hafter : s.committed y.m.key = visMap (visMap s.base.1 (pre.map (·.2))) [ev] y.m.key := by
      rw [hv, e3, map_append, map_cons, Props.visMap_append, ← singleton_append, Props.visMap_append]
      refine Props.visMap_no ?_
      intro e he
      obtain ⟨z, hz, rfl⟩ := mem_map.1 he
      exact e5 z hz
    cases ev with
    | published old id m'' ifne =>
      obtain ⟨a, ha, hac⟩ := hn pre th.call old id m'' ifne post e3 (by
        have : m''.key = y.m.key := e4
        rw [this, e6]; simp)
      exact (reach_ack hr a ha).2 th hth hac.symm
    | removed k' want id =>
      have : k' = y.m.key := e4
      subst this
      rw [← hxy] at hafter
      rw [hx] at hafter
      simp [visMap, updKey, hxy] at hafter
    | _ => exact e4.elim
  rcases h1 with h1 | ⟨th, hth, hv1⟩ <;> rcases h2 with h2 | ⟨th', hth', hv2⟩
  · simp only at h1 h2
    rw [← hk, h1] at h2
    simp only [Option.some.injEq, Obj.mk.injEq] at h2
    exact hne h2.1
  · exact mixed _ _ hk h1 th' hth' hv2
  · exact mixed _ _ hk.symm h2 th hth hv1
  · obtain ⟨e1, e2⟩ := victim_prior (hd.thr th hth) hv1
    obtain ⟨e1', e2'⟩ := victim_prior (hd.thr th' hth') hv2
    have heq : th = th' := by
      obtain ⟨p1, q1, hsp⟩ := append_of_mem hth
      have hnd := hd.keys
      rw [hsp] at hnd hth'
      simp only [mem_append, mem_cons] at hth'
      simp only [flatMap_append, flatMap_cons] at hnd
      have hin : ∀ l : List Thread, th' ∈ l → m.key ∈ l.flatMap (fun th => th.pc.key.toList) :=
        fun l hl => mem_flatMap.2 ⟨th', hl, by rw [e1']; simp [hk]⟩
      rw [e1] at hnd
      rcases hth' with h3 | h3 | h3
      · have := hin _ h3
        simp only [Option.toList_some, nodup_append] at hnd
        exact absurd rfl (hnd.2.2 _ this m.key (by simp))
      · exact h3.symm
      · have := hin _ h3
        simp only [Option.toList_some, nodup_append] at hnd
        exact absurd rfl (hnd.2.1.2.2 m.key (by simp) _ this)
    subst heq
    rw [e2] at e2'
    simp only [Option.some.injEq, Obj.mk.injEq] at e2'
    exact hne e2'.1

theorem calm_inv (hc : c.Ok) {s : DSt} (h : Calm c s) : Reach c s ∧ s.faults = [] ∧
    ∀ th ∈ s.threads, ∀ m, th.pc = .createData m → m.enc.length ≤ 2 * 2 ^ c.pages.spage := by
  induction h with
  | fresh h =>
    refine ⟨.fresh h, ?_⟩
    unfold fresh at h
    split at h
    · simp at h
    · cases h; simp
  | @step s s' _ hs hp ih =>
    obtain ⟨hr, hf, hsm⟩ := ih
    refine ⟨hr.step hs, ?_, hp.small⟩
    cases hs with
    | @createMeta pre th post m mo a' id junk ht hpc hl ha hn hj =>
      have h1 := hsm th (by rw [ht]; simp) m hpc
      have h2 := (Props.C30_small_metadata_partial c.pages m.enc.length (enc_len m).1 h1).1
      show (if _ then _ else _) ++ s.faults = []
      rw [if_pos h2, hf]; rfl
    | writeCancel hw =>
      have := hp.writes
      simp at this
    | @commitPublish pre th post o ifne newId ht hpc hw hif hn =>
      have := settled_not_busy hc hr hf (hp.turns _ o.m.key rfl rfl)
      simp [this, hf]
    | @delete o k want hk hw =>
      have := settled_not_busy hc hr hf (hp.turns _ k rfl rfl)
      simp [this, hf]
    | _ => exact hf
  | @restart s s' order _ hn hp hl ih =>
    obtain ⟨hr, hf, hsm⟩ := ih
    refine ⟨hr.restart order hp hl, ?_⟩
    obtain ⟨a0, l, _, h1, _, rfl⟩ := load_some hl
    have := calm_no_dup hc hr hf hn hp h1
    simp [this, hf]

/-! ## Checking concrete executions -/

def Ev.key? : Ev → Option (List Byte)
  | .published _ _ m _ => some m.key
  | .removed k _ _ => some k
  | _ => none

theorem touches_key {e : Ev} {k : List Byte} : e.touches k ↔ e.key? = some k := by
  cases e <;> simp [Ev.touches, Ev.key?]

def politeB (c : SCfg) (s s' : DSt) : Bool :=
  (s'.lin.drop s.lin.length).all (fun e => match e.2.key? with
    | none => true
    | some k => s.lin.all (fun e' => decide (e'.2.key? ≠ some k) || s.acks.any (fun a => decide (a.call = e'.1)))) &&
  s'.orphans.isEmpty && s'.threads.all (fun th => match th.pc with
    | .createData m => decide (m.enc.length ≤ 2 * 2 ^ c.pages.spage)
    | _ => true)

theorem politeB_ok {s s' : DSt} (h : politeB c s s' = true) : Polite c s s' := by
  simp only [politeB, Bool.and_eq_true, all_eq_true] at h
  obtain ⟨⟨h1, h2⟩, h3⟩ := h
  refine ⟨?_, by simpa using h2, ?_⟩
  · intro e k he ht e' he' ht'
    have := h1 e (by rw [he]; simp)
    rw [touches_key] at ht ht'
    rw [ht] at this
    simp only [all_eq_true, Bool.or_eq_true, decide_eq_true_eq, any_eq_true] at this
    rcases this e' he' with h4 | h4
    · exact absurd ht' h4
    · exact h4
  · intro th hth m hm
    have := h3 th hth
    rw [hm] at this
    simpa using this

def noReplacingB (s : DSt) : Bool := (range s.lin.length).all (fun i => match s.lin[i]? with
  | some (call, .published _ _ m _) => (visMap s.base.1 ((s.lin.take i).map (·.2)) m.key).isNone || s.acks.any (fun a => decide (a.call = call))
  | _ => true)

theorem noReplacingB_ok {s : DSt} (h : noReplacingB s = true) : NoReplacing s := by
  intro pre call old id m ifne post hl hv
  simp only [noReplacingB, all_eq_true, mem_range] at h
  have := h pre.length (by rw [hl]; simp)
  rw [hl] at this
  simp only [getElem?_append_right (Nat.le_refl _), Nat.sub_self, getElem?_cons_zero, take_left, Bool.or_eq_true,
    any_eq_true, decide_eq_true_eq] at this
  rcases this with h1 | h1
  · simp only [Option.isNone_iff_eq_none] at h1; exact absurd h1 hv
  · exact h1

def calmExec (c : SCfg) (s : DSt) (cmd : Cmd) : Option DSt :=
  match cmd with
  | .restart rev => if noReplacingB s then exec c s (.restart rev) else none
  | cmd => (exec c s cmd).bind (fun s' => if politeB c s s' then some s' else none)

theorem calmExec_ok (hc : c.Ok) {s s' : DSt} (h : Calm c s) {cmd : Cmd} (he : calmExec c s cmd = some s') : Calm c s' := by
  by_cases hrs : ∃ rev, cmd = .restart rev
  · obtain ⟨rev, rfl⟩ := hrs
    simp only [calmExec] at he
    split at he <;> [rename_i hn; cases he]
    simp only [exec] at he
    split at he <;> [cases he; rename_i a0 ha]
    split at he <;> [cases he; rename_i l hl]
    split at he <;> [rename_i hn'; cases he]
    cases he
    have hnew := newOkB_ok hn' (fun b hb => ((reach_t (calm_inv hc h).1).1.out b hb).2)
    refine h.restart (if rev then (diskTuples c.n s.ts).reverse else diskTuples c.n s.ts) (noReplacingB_ok hn) ?_ ?_
    · split
      · exact reverse_perm _
      · exact Perm.refl _
    · simp only [load, ha, hl, if_pos hnew]
  · have he' : (exec c s cmd).bind (fun s' => if politeB c s s' then some s' else none) = some s' := by
      cases cmd <;> first | exact he | exact absurd ⟨_, rfl⟩ hrs
    obtain ⟨s1, h1, h2⟩ := Option.bind_eq_some_iff.1 he'
    split at h2 <;> [rename_i hb; cases h2]
    cases h2
    exact h.step (exec_step h1 (fun rev e => hrs ⟨rev, e⟩)) (politeB_ok hb)

def calmRun (c : SCfg) (s : DSt) (cmds : List Cmd) : Option DSt := cmds.foldlM (calmExec c) s

theorem calmRun_ok (hc : c.Ok) {cmds : List Cmd} : ∀ {s s' : DSt}, Calm c s → calmRun c s cmds = some s' → Calm c s' := by
  induction cmds with
  | nil => intro s s' h hr; simp only [calmRun, foldlM_nil] at hr; cases hr; exact h
  | cons x l ih =>
    intro s s' h hr
    simp only [calmRun, foldlM_cons, Option.bind_eq_bind, Option.bind_eq_some_iff] at hr
    obtain ⟨s1, h1, h2⟩ := hr
    exact ih (calmExec_ok hc h h1) h2

/-- a run of the example partition -/
def wcalm (cmds : List Cmd) : Option DSt := (fresh wcfg (fun _ => 0)).bind (fun s => calmRun wcfg s cmds)

theorem wcalm_ok {cmds : List Cmd} {s : DSt} (h : wcalm cmds = some s) : Calm wcfg s := by
  obtain ⟨s0, h1, h2⟩ := Option.bind_eq_some_iff.1 h
  exact calmRun_ok wcfg_ok (.fresh h1) h2

end Direct
end Blobd
