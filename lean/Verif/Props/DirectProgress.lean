import Verif.Proofs.DirectProgress
import Verif.Proofs.DirectRun
import Verif.Props.DirectDurable
set_option autoImplicit false
/-!
# C69: direct store: every call ends

`FairRun` (Spec/DirectProgress) are the executions in which calls under way, device writes and the background loop of
the tuple index keep acting when they can. `PageFaultFree` excludes the events that break the ownership of pages (C56),
without which a delete may panic when it gives back pages.
-/
namespace Blobd
namespace Props
open Direct

variable {c : SCfg} {σ : Nat → DSt}

/-- In every fair run every call ends: it is answered or it panics. No lock, signal or batch can be waited for
forever, whatever else is going on and however many calls keep arriving. -/
theorem C69_every_call_ends (hc : c.Ok) (h : FairRun c σ) (hf : ∀ m, PageFaultFree (σ m)) {n i : Nat} {pc : PC}
    (hi : at? (σ n) i = some pc) : ∃ m, n ≤ m ∧ (Answers (σ m) i ∨ at? (σ m) i = some .dead) :=
  call_ends hc h hf _ hi rfl

/-- A call under way panics only if a create finds no room, or a delete or replacement hits a version whose own commit
is not answered yet. -/
theorem C69_why_calls_panic (hc : c.Ok) {s s' : DSt} (hr : Reach c s) (hf : PageFaultFree s) (hs : Step c s s') {i : Nat} {pc : PC}
    (hi : at? s i = some pc) (hd : pc ≠ .dead) (hi' : at? s' i = some .dead) : NoRoom c s pc ∨ Races s pc :=
  why_panics hc hr hf hs hi hd hi'

theorem changes_step {s s' : DSt} (hr : Reach c s) (hs : Step c s s') {i : Nat} {pc pc' : PC} (h : at? s i = some pc) (h' : at? s' i = some pc')
    (hc : pc.changes) : pc'.changes ∨ pc' = .dead := by
  rcases step_at hr hs h with e | ⟨q, e, hl⟩ | ⟨e, _⟩
  · rw [h'] at e
    cases e
    exact .inl hc
  · rw [h'] at e
    cases e
    have : pc.rank ≤ 6 := by cases pc <;> simp_all [PC.changes, PC.rank]
    have hl' : pc'.rank < 6 := by omega
    clear hl
    cases pc' <;> first | exact .inr rfl | exact .inl trivial | (simp [PC.rank] at hl')
  · rw [h'] at e; cases e

theorem no_races (hc : c.Ok) {s : DSt} (hr : Reach c s) (hf : PageFaultFree s) (ho : Fault.overlap ∉ s.faults) {i : Nat} {pc : PC}
    (hi : at? s i = some pc) : ¬ Races s pc := by
  rintro ⟨o, why, rfl, hk, j, old, ex, hj⟩
  have hn := (reach_lin hr).calls
  obtain ⟨x, hx, hxi, hxp⟩ := (at_iff hn).1 hi
  obtain ⟨y, hy, hyj, hyp⟩ := (at_iff hn).1 hj
  obtain ⟨pre, post, e⟩ := List.append_of_mem hx
  have hkeys := (reach_dur hc hr hf ho).keys
  rw [e] at hkeys
  have hkx : o.m.key ∈ x.pc.key.toList := by
    rw [hxp]
    cases why <;> first | exact absurd rfl hk | simp [PC.key]
  have := fm_other hkeys hkx
  refine this (List.mem_flatMap.2 ⟨y, ?_, ?_⟩)
  · rw [e] at hy
    rcases List.mem_append.1 hy with hy | hy
    · exact List.mem_append_left _ hy
    · rcases List.mem_cons.1 hy with rfl | hy
      · rw [hxp] at hyp; cases hyp
      · exact List.mem_append_right _ hy
  · rw [hyp]; simp [PC.key]

/-- Commits and deletes are answered if no two commits or deletes of one key overlap. -/
theorem C69_commits_and_deletes_answered_partial (hc : c.Ok) (h : FairRun c σ) (hf : ∀ m, PageFaultFree (σ m))
    (ho : ∀ m, Fault.overlap ∉ (σ m).faults) {n i : Nat} {pc : PC} (hi : at? (σ n) i = some pc) (hp : pc.changes) :
    ∃ m, n ≤ m ∧ Answers (σ m) i := by
  have hend : ∃ m, n ≤ m ∧ ¬ ∃ q, at? (σ m) i = some q ∧ q.changes := by
    obtain ⟨m, hm, h1⟩ := C69_every_call_ends hc h hf hi
    refine ⟨m, hm, ?_⟩
    rintro ⟨q, h2, h3⟩
    rcases h1 with ⟨a, h1, h4⟩ | h1
    · have := (reach_over (h.toRun.reach m)).no a h1
      rw [h4, h2] at this
      cases this
    · rw [h1] at h2
      cases h2
      exact h3
  obtain ⟨m, hm, h1, h2, h3⟩ := h.toRun.first (P := fun s => ∃ q, at? s i = some q ∧ q.changes) ⟨pc, hi, hp⟩ hend
  obtain ⟨q, hq, hch⟩ := h1 m hm (Nat.le_refl _)
  have hr := h.toRun.reach m
  rcases step_at hr h3 hq with e | ⟨q', e, _⟩ | ⟨_, e, _⟩
  · exact absurd ⟨q, e, hch⟩ h2
  · rcases changes_step hr h3 hq e hch with h4 | rfl
    · exact absurd ⟨q', e, h4⟩ h2
    · exfalso
      rcases C69_why_calls_panic hc hr (hf m) h3 hq (by rintro rfl; exact hch) e with h4 | h4
      · cases q <;> first | exact hch | exact h4
      · exact no_races hc hr (hf m) (ho m) hq h4
  · exact ⟨m + 1, by omega, e⟩

/-- Fairness asks nothing impossible: a call can proceed unless it waits for the background loop or for data writes to
the object it commits, and these can always proceed. -/
theorem C69_never_blocked (hc : c.Ok) {s : DSt} (hr : Reach c s) (hf : PageFaultFree s) :
    (∀ i pc, at? s i = some pc → pc ≠ .dead → (∀ o t, pc = .createTuple o t → t ∈ s.ts.fired) →
      (∀ o ex t, pc = .commitTuple o ex t → t ∈ s.ts.fired) → (∀ o u t why, pc = .reapTuple o u t why → t ∈ s.ts.fired) →
      (∀ o ifne, pc = .commitSealed o ifne → ∀ w ∈ s.writers, w.id ≠ o.id) → ∃ s', Step c s s' ∧ at? s' i ≠ at? s i) ∧
    ((s.ts.batch ≠ none ∨ ∃ b, b < c.n ∧ s.ts.dirty b = true) → ∃ s', Step c s s' ∧ s'.ts.batch ≠ s.ts.batch) ∧
    (∀ w ∈ s.writers, ∃ s', Step c s s' ∧
      (s'.writers.filter (fun x => x.id = w.id)).length < (s.writers.filter (fun x => x.id = w.id)).length) := by
  refine ⟨?_, ?_, ?_⟩
  · intro i pc hi hd h1 h2 h3 h4
    obtain ⟨th, hth, rfl, rfl⟩ := (at_iff (reach_lin hr).calls).1 hi
    refine can_go hc hr hf hth hd ?_ ?_
    · intro t ht
      generalize th.pc = q at *
      cases q with
      | createTuple o u => simp only [PC.ticket, List.mem_singleton] at ht; subst ht; exact h1 _ _ rfl
      | commitTuple o ex u => simp only [PC.ticket, List.mem_singleton] at ht; subst ht; exact h2 _ _ _ rfl
      | reapTuple o u v why => simp only [PC.ticket, List.mem_singleton] at ht; subst ht; exact h3 _ _ _ _ rfl
      | _ => cases ht
    · intro id hid
      generalize th.pc = q at *
      cases q with
      | commitSealed o ifne => simp only [PC.closing, List.mem_singleton] at hid; subst hid; exact h4 _ _ rfl
      | _ => cases hid
  · intro h
    cases hb : s.ts.batch with
    | none =>
      rcases h with h | ⟨b, h1, h2⟩
      · exact absurd hb h
      · refine ⟨_, .bg (.snapshot hb), ?_⟩
        simp only [TS.snapshot]
        rw [if_neg]
        · simp
        · rw [List.isEmpty_iff, List.map_eq_nil_iff, List.filter_eq_nil_iff]
          intro hx
          exact hx b (List.mem_range.2 h1) h2
    | some x =>
      obtain ⟨ws, sig⟩ := x
      cases ws with
      | nil =>
        refine ⟨_, .bg (.signal (s' := { s.ts with batch := none, fired := s.ts.fired ++ sig }) ?_), by simp⟩
        simp [TS.signal, hb]
      | cons w ws =>
        refine ⟨_, .bg (.write (s' := { s.ts with batch := some (ws, sig), disk := upd s.ts.disk w.1 w.2 }) 0 ?_), ?_⟩
        · simp [TS.writePage, hb]
        · intro e
          simp only [Option.some.injEq, Prod.mk.injEq, and_true] at e
          exact absurd (congrArg List.length e) (by simp)
  · intro w hw
    obtain ⟨pre, post, e⟩ := List.append_of_mem hw
    refine ⟨_, .writeDone e, ?_⟩
    simp only [e, List.filter_append, List.length_append, List.filter_cons]
    simp

/-! ## A fair run -/

def isRestart : Cmd → Bool
  | .restart _ => true
  | _ => false

/-- the run that performs `cmds` and then rests -/
theorem run_of_cmds {cmds : List Cmd} : ∀ {s s' : DSt}, Reach c s → cmds.all (fun x => !isRestart x) = true → Direct.run c s cmds = some s' →
    ∃ σ, Run c σ ∧ ∀ m, Direct.run c s (cmds.take m) = some (σ m) := by
  induction cmds with
  | nil =>
    intro s s' hr _ h
    cases h
    exact ⟨fun _ => s, ⟨hr, fun _ => .inl rfl⟩, fun _ => by simp [Direct.run]⟩
  | cons x xs ih =>
    intro s s' hr ha h
    simp only [Direct.run, List.foldlM_cons, Option.bind_eq_bind, Option.bind_eq_some_iff] at h
    obtain ⟨s1, h1, h2⟩ := h
    simp only [List.all_cons, Bool.and_eq_true] at ha
    have hst : Step c s s1 := exec_step h1 (by rintro rev rfl; simp [isRestart] at ha)
    obtain ⟨σ, r1, r2⟩ := ih (hr.step hst) ha.2 h2
    refine ⟨fun n => match n with | 0 => s | n + 1 => σ n, ⟨hr, ?_⟩, ?_⟩
    · intro n
      cases n with
      | zero =>
        right
        have := r2 0
        simp only [Direct.run, List.take_zero, List.foldlM_nil] at this
        cases this
        exact hst
      | succ n => exact r1.next n
    · intro m
      cases m with
      | zero => rfl
      | succ m =>
        simp only [Direct.run, List.take_succ_cons, List.foldlM_cons, h1, Option.bind_eq_bind, Option.bind_some]
        exact r2 m

theorem faults_run (h : Run c σ) {n m : Nat} (hnm : n ≤ m) {f : Fault} (hf : f ∈ (σ n).faults) : f ∈ (σ m).faults :=
  h.keep (P := fun s => f ∈ s.faults) (fun _ _ _ hp hs => faults_step hs _ hp) hf m hnm

theorem fair_at_end (h : Run c σ) {s : DSt} {N : Nat} (hN : ∀ m, N ≤ m → σ m = s) (h1 : ∀ i, at? s i = none ∨ at? s i = some .dead) (h2 : s.writers = [])
    (h3 : s.ts.batch = none) (h4 : ∀ b, b < c.n → s.ts.dirty b = false) : FairRun c σ := by
  have hr : Reach c s := by rw [← hN N (Nat.le_refl _)]; exact h.reach N
  have key : ∀ {can act}, ¬ can s → Fair σ can act := by
    intro can act hcan n hall
    have := hall (max n N) (by omega)
    rw [hN _ (by omega)] at this
    exact absurd this hcan
  refine { toRun := h, calls := ?_, device := ?_, loop := ?_ }
  · intro i
    refine key ?_
    rintro ⟨hn, s', hs, hx⟩
    rcases h1 i with e | e
    · exact hn e
    · exact hx (by rw [e]; exact dead_step hr hs e)
  · intro id
    exact key (by rintro ⟨w, hw, _⟩; rw [h2] at hw; cases hw)
  · refine key ?_
    rintro (e | ⟨b, hb, e⟩)
    · exact e h3
    · rw [h4 b hb] at e; cases e

def mixed : List Cmd :=
  doCreate [1] 10 5 0 ++ [.openHandle 5, .commitClaim 5 false, .writeStart 0 0 [1, 2, 3], .createData [2] 20 7, .commitSeal 0, .createMeta 1 6, .metaWritten 1,
    .createInsert 1, .writeDone 0, .commitPublish 0 30, .snapshot, .commitUpdate 0, .page 0, .signal, .created 1, .snapshot, .page 0, .signal, .commitFinish 0] ++
  doDelete [1] 0

/-- A fair run in which creates, a write, a commit and a delete interleave: the commit (call 1) waits for the write, then
for the background loop, and is answered; so are all others. -/
theorem C69_case : ∃ σ, FairRun wcfg σ ∧ wcfg.Ok ∧ (∀ m, PageFaultFree (σ m)) ∧ (∀ m, Fault.overlap ∉ (σ m).faults) ∧
    at? (σ 14) 1 = some (.commitSealed ⟨5, ⟨10, 7, [1], [], [1024]⟩⟩ false) ∧ ((σ 14).writers.map (·.id)) = [5] ∧ at? (σ 14) 2 ≠ none ∧
    (σ 40).acks.map (·.call) = [0, 2, 1, 3] := by
  obtain ⟨s0, h0⟩ : ∃ s0, fresh wcfg (fun _ => 0) = some s0 := Option.isSome_iff_exists.1 (by decide +kernel)
  have hall : (wrun mixed).map (fun s => decide (s.faults = [] ∧ s.threads = [] ∧ s.ts.batch = none ∧ s.writers.length = 0 ∧ s.ts.dirty 0 = false ∧ s.ts.dirty 1 = false ∧
      s.acks.map (·.call) = [0, 2, 1, 3])) = some true := by decide +kernel
  have hmid : (wrun (mixed.take 14)).map (fun s => decide (at? s 1 = some (.commitSealed ⟨5, ⟨10, 7, [1], [], [1024]⟩⟩ false) ∧ (s.writers.map (·.id)) = [5] ∧
      at? s 2 ≠ none)) = some true := by decide +kernel
  have e : ∀ l, wrun l = Direct.run wcfg s0 l := fun l => by simp [wrun, h0]
  rw [e] at hall hmid
  obtain ⟨s1, h1, hend⟩ := Option.map_eq_some_iff.1 hall
  obtain ⟨s2, h2, hm⟩ := Option.map_eq_some_iff.1 hmid
  simp only [decide_eq_true_eq] at hend hm
  obtain ⟨σ, r1, r2⟩ := run_of_cmds (.fresh h0) (by decide) h1
  have hN : ∀ m, 40 ≤ m → σ m = s1 := by
    intro m hm
    have := r2 m
    rw [List.take_of_length_le (by have : mixed.length ≤ 40 := by decide
                                   omega), h1] at this
    exact (Option.some.inj this).symm
  have e2 : σ 14 = s2 := by
    have := r2 14
    rw [h2] at this
    exact (Option.some.inj this).symm
  obtain ⟨g1, g2, g3, g4, g5, g6, g7⟩ := hend
  have hfl : ∀ m f, f ∉ (σ m).faults := by
    intro m f hf
    have := faults_run r1 (n := m) (m := max m 40) (by omega) hf
    rw [hN _ (by omega), g1] at this
    cases this
  refine ⟨σ, fair_at_end r1 hN ?_ (List.eq_nil_of_length_eq_zero g4) g3 ?_, wcfg_ok, fun m => ⟨hfl m _, hfl m _, hfl m _⟩, fun m => hfl m _, ?_⟩
  · intro i; left; rw [at_none, g2]; simp
  · intro b hb
    have : b = 0 ∨ b = 1 := by have : wcfg.n = 2 := rfl
                               omega
    rcases this with rfl | rfl <;> assumption
  · rw [e2, hN 40 (Nat.le_refl _)]
    exact ⟨hm.1, hm.2.1, hm.2.2, g7⟩

/-! ## Where the code falls short -/

inductive Onward (c : SCfg) : DSt → DSt → Prop
  | refl (s : DSt) : Onward c s s
  | step {s s1 s2 : DSt} : Onward c s s1 → Step c s1 s2 → Onward c s s2

/-- The code breaks C69: an object is being committed; it is visible, but its tuple has not been changed yet. A delete of
its key panics, whatever happens next; the object is gone for all readers. The commit is answered. After a restart the
object is back. -/
theorem C69_violated_by_racing_delete : ∃ s s' order, Reach wcfg s ∧ wcfg.Ok ∧ s.faults = [.overlap] ∧
    s.acks.map (fun a => (a.call, a.resp)) = [(0, .created 5), (1, .committed (some 30))] ∧ s.committed [1] = none ∧
    (∃ e ∈ s.lin, e = (2, .removed [1] none 30)) ∧
    (∀ x, Onward wcfg s x → ¬ Answers x 2) ∧
    order.Perm (diskTuples wcfg.n s.ts) ∧ load wcfg s order = some s' ∧ (s'.committed [1]).map (·.id) = some 30 := by
  have h : (wrun (doCreate [1] 10 5 0 ++ [.commitClaim 5 false, .commitSeal 0, .commitPublish 0 30, .delete [1] none, .reapTuple 1, .commitUpdate 0,
      .snapshot, .page 0, .signal, .commitFinish 0])).map (fun s => decide (s.faults = [.overlap] ∧
      s.acks.map (fun a => (a.call, a.resp)) = [(0, .created 5), (1, .committed (some 30))] ∧ s.committed [1] = none ∧
      (2, .removed [1] none 30) ∈ s.lin ∧ at? s 2 = some .dead ∧
      (exec wcfg s (.restart false)).map (fun s' => (s'.committed [1]).map (·.id)) = some (some 30))) = some true := by decide +kernel
  obtain ⟨s, h1, h2⟩ := Option.map_eq_some_iff.1 h
  simp only [decide_eq_true_eq] at h2
  obtain ⟨e1, e2, e3, e4, e5, e6⟩ := h2
  obtain ⟨s', e7, e8⟩ := Option.map_eq_some_iff.1 e6
  have hr := wrun_reach h1
  obtain ⟨order, e9, e10⟩ := exec_restart hr e7
  refine ⟨s, s', order, hr, wcfg_ok, e1, e2, e3, ⟨_, e4, rfl⟩, ?_, e9, e10, e8⟩
  intro x hx
  have : Reach wcfg x ∧ at? x 2 = some .dead := by
    induction hx with
    | refl => exact ⟨hr, e5⟩
    | step _ hs ih => exact ⟨ih.1.step hs, dead_step ih.1 hs ih.2⟩
  rintro ⟨a, ha, hac⟩
  have hno := (reach_over this.1).no a ha
  rw [hac, this.2] at hno
  cases hno

end Props
end Blobd
