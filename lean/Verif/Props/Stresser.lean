import Verif.Proofs.StresserIdeal
/-!
# C73: what "all done" of the stochastic stress tester means

`Passed`, `Reads`, `Parts`, `Answers` (a correct store): Spec/Stresser.lean. `Step`: Model/Stresser.lean; the store under test answers
anything, in any order, or panics. `GReach`: runs against a correct store.
-/
set_option autoImplicit false
namespace Blobd
namespace Props
open Stress

/-- **C73** When "all done" is printed, every object was created, written in full, committed, found with its size, read back in full with the
right bytes, and deleted, each with its own key, whatever the interleaving and whatever the store did. (`workers ≠ []`: with concurrency 0,
see `C73_violated_no_workers`.) -/
theorem C73_all_done_means_tested_partial {c : Cfg} {s : St} (hl : 0 < c.lpage) (ho : c.objects ≤ 2 ^ 64) (h : Reach c s) (hw : s.workers ≠ [])
    (hd : AllDone s) : ∀ i, i < c.objects → ∃ p, params c i = some p ∧ Passed (key c p) c.lpage (data c p) (about (key c p) s.log) := by
  have hi := reach_inv hl ho h
  intro i h1
  refine hi.passed i h1 ?_
  obtain ⟨w, hw⟩ := List.exists_mem_of_ne_nil _ hw
  have := hd w hw
  subst this
  have hc := hi.compl (hi.exits hw)
  have := hi.count
  have hz : pids s = [] := List.eq_nil_of_length_eq_zero (by omega)
  rw [hz]; simp

/-- **C73** Different objects have different keys, so the tests do not disturb each other. -/
theorem C73_keys_distinct {c : Cfg} (ho : c.objects ≤ 2 ^ 64) {i j : Nat} {p q : Params} (hi : i < c.objects) (hj : j < c.objects) (hne : i ≠ j)
    (hp : params c i = some p) (hq : params c j = some q) : key c p ≠ key c q := by
  intro h
  have h1 := (params_facts hp).1
  have h2 := (params_facts hq).1
  have := key_inj (by omega) (by omega) h
  omega

/-- **C73** A read answered with anything but the bytes of the asked range kills the worker that made it. -/
theorem C73_wrong_bytes_caught {c : Cfg} {s s' : St} {k : Bytes} {id : Option Nat} {start stop : Nat} {chunks : List Bytes} (hl : 0 < c.lpage)
    (ho : c.objects ≤ 2 ^ 64) (h : Reach c s) (hs : Step c s (.answered (.read k id start stop) (.read chunks)) s') (ha : ∀ t, .dead t ∉ s'.workers) :
    ∃ i p, i < c.objects ∧ params c i = some p ∧ k = key c p ∧ start < stop ∧ stop ≤ (data c p).length ∧
      chunks.flatten = ((data c p).drop start).take (stop - start) := by
  have hi := reach_inv hl ho h
  generalize hlb : Lbl.answered (.read k id start stop) (.read chunks) = lb at hs
  cases hs with
  | take | exit | crash => cases hlb
  | @send a t st b t' ans hw hn =>
    simp only [Lbl.answered.injEq] at hlb
    obtain ⟨e1, rfl⟩ := hlb
    cases t with
    | read p off id' =>
      simp only [Task.call, Call.read.injEq] at e1
      obtain ⟨rfl, rfl, rfl, rfl⟩ := e1
      have hmem : Task.read p start id ∈ pend s := by simp [pend, hw, List.filterMap_append, List.filterMap_cons, W.task]
      have hst := hi.stops (.read p start id) stop (by rw [hw]; simp)
      have hok := hi.ok _ hmem
      refine ⟨p.pfx, p, hok.lt, hok.par, rfl, hst.1, (data_len hok.facts).symm ▸ hst.2, ?_⟩
      simp only [Task.next] at hn
      split at hn
      · cases hn
      · rename_i hch
        exact (checkChunks_ok hch hst.2).2.2
    | _ => simp only [Task.call, reduceCtorEq] at e1
  | @done a t st b ans hw hn =>
    simp only [Lbl.answered.injEq] at hlb
    obtain ⟨e1, rfl⟩ := hlb
    cases t with
    | read p off id' => simp only [Task.next] at hn; split at hn <;> cases hn
    | _ => simp only [Task.call, reduceCtorEq] at e1
  | @fail a t st b ans hw hn => exact absurd (by simp) (ha t)

/-- **C73** Against a correct store no worker ever fails: the tester raises no false alarm. -/
theorem C73_no_false_alarm {c : Cfg} {x : St × Ideal} (hl : 0 < c.lpage) (ho : c.objects ≤ 2 ^ 64) (h : GReach c x) : ∀ t, .dead t ∉ x.1.workers :=
  (greach_inv hl ho h).alive

/-- **C73** No run goes on for ever, whatever the store does (waiting for a task is not a step). -/
theorem C73_every_run_ends {c : Cfg} (hl : 0 < c.lpage) (ho : c.objects ≤ 2 ^ 64) (f : Nat → St) (h0 : Reach c (f 0)) :
    ¬ ∀ n, ∃ l, Step c (f n) l (f (n + 1)) := by
  intro h
  have hr : ∀ n, Reach c (f n) := by
    intro n
    induction n with
    | zero => exact h0
    | succ n ih => obtain ⟨l, hs⟩ := h n; exact .step ih hs
  have hb : ∀ n, cost (f n) + n ≤ cost (f 0) := by
    intro n
    induction n with
    | zero => simp
    | succ n ih =>
      obtain ⟨l, hs⟩ := h n
      have := cost_step hl (reach_inv hl ho (hr n)) hs
      omega
  have := hb (cost (f 0) + 1)
  omega

/-- **C73** Against a correct store, a run that cannot go on has printed "all done". -/
theorem C73_finishes {c : Cfg} {x : St × Ideal} (hl : 0 < c.lpage) (ho : c.objects ≤ 2 ^ 64) (h0 : 0 < c.objects) (h : GReach c x)
    (hst : ¬ ∃ y, GStep c x y) : AllDone x.1 :=
  ginv_progress (greach_inv hl ho h) (fun e => reach_complete (greach_reach h) e h0) hst

/-- **C73** Every run against a correct store can be completed, and then all objects were tested. -/
theorem C73_completes {c : Cfg} {q : List Task} (n : Nat) (hn : 0 < n) (hl : 0 < c.lpage) (ho : c.objects ≤ 2 ^ 64) (h0 : 0 < c.objects)
    (hq : tasks c = some q) : ∃ x, GReach c x ∧ AllDone x.1 ∧ x.1.workers.length = n ∧
      ∀ i, i < c.objects → ∃ p, params c i = some p ∧ Passed (key c p) c.lpage (data c p) (about (key c p) x.1.log) := by
  have main : ∀ m x, cost x.1 ≤ m → GReach c x → x.1.workers.length = n → ∃ y, GReach c y ∧ AllDone y.1 ∧ y.1.workers.length = n := by
    intro m
    induction m with
    | zero =>
      intro x hm hx hw
      refine ⟨x, hx, C73_finishes hl ho h0 hx ?_, hw⟩
      rintro ⟨y, hy⟩
      have hi := (greach_inv hl ho hx).inv
      cases hy with
      | quiet hs => have := cost_step hl hi hs; omega
      | call hs _ => have := cost_step hl hi hs; omega
    | succ m ih =>
      intro x hm hx hw
      by_cases hy : ∃ y, GStep c x y
      · obtain ⟨y, hy⟩ := hy
        have hi := (greach_inv hl ho hx).inv
        refine ih y ?_ (.step hx hy) ?_
        · cases hy with
          | quiet hs => exact Nat.lt_succ_iff.1 (Nat.lt_of_lt_of_le (cost_step hl hi hs) hm)
          | call hs _ => exact Nat.lt_succ_iff.1 (Nat.lt_of_lt_of_le (cost_step hl hi hs) hm)
        · rw [← hw]
          cases hy with
          | quiet hs => exact step_workers hs
          | call hs _ => exact step_workers hs
      · exact ⟨x, hx, C73_finishes hl ho h0 hx hy, hw⟩
  obtain ⟨x, h1, h2, h3⟩ := main _ _ (Nat.le_refl _) (.start n hq) (by simp)
  refine ⟨x, h1, h2, h3, C73_all_done_means_tested_partial hl ho (greach_reach h1) ?_ h2⟩
  intro e
  rw [e] at h3
  simp only [List.length_nil] at h3
  omega

/-! ## Where it fails -/

/-- steps from a state -/
inductive Later (c : Cfg) (s : St) : St → Prop
  | refl : Later c s s
  | step {s' s'' l} : Later c s s' → Step c s' l s'' → Later c s s''

/-- **C73** Violated: when one worker fails, no worker ever exits. Main awaits the workers one by one, so a failure in any but the first
worker makes the tester hang instead of failing. -/
theorem C73_violated_failure_hangs {c : Cfg} {s s' : St} {t : Task} (hl : 0 < c.lpage) (ho : c.objects ≤ 2 ^ 64) (h : Reach c s)
    (hd : .dead t ∈ s.workers) (hs : Later c s s') : .exited ∉ s'.workers := by
  have : .dead t ∈ s'.workers ∧ Reach c s' := by
    induction hs with
    | refl => exact ⟨hd, h⟩
    | step _ hs ih => exact ⟨step_dead ih.1 hs, .step ih.2 hs⟩
  intro he
  have hi := reach_inv hl ho this.2
  have h1 := hi.compl (hi.exits he)
  have h2 := hi.count
  have hm : t ∈ pend s' := by
    simp only [pend, List.mem_append, List.mem_filterMap]
    exact Or.inr ⟨_, this.1, rfl⟩
  have : 0 < (pids s').length := by
    simp only [pids, List.length_map]
    exact List.length_pos_of_mem hm
  omega

/-- a tester for two objects -/
def exStress : Cfg := ⟨2, 2, 6, 4, [1, 2, 3, 4, 5, 6, 7, 8], fun i => i, fun i => i + 1, fun i => i + 2, fun i => i⟩

def exP0 : Params := ⟨0, 1, 1, 3, 0⟩
def exP1 : Params := ⟨1, 2, 2, 4, 1⟩

theorem exStress_tasks : tasks exStress = some [.create exP0, .create exP1] := by decide +kernel

/-- not vacuous: two objects, three workers -/
example : ∃ x, GReach exStress x ∧ AllDone x.1 ∧ x.1.workers.length = 3 ∧
    ∀ i, i < 2 → ∃ p, params exStress i = some p ∧ Passed (key exStress p) 2 (data exStress p) (about (key exStress p) x.1.log) :=
  C73_completes 3 (by decide) (by decide) (by decide) (by decide) exStress_tasks

example : data exStress exP0 = [1, 2, 3] ∧ data exStress exP1 = [2, 3, 4, 5] ∧ key exStress exP0 = [0, 0, 0, 0, 0, 0, 0, 0, 2] := by decide +kernel

/-- **C73** Violated, one case: the store panics under the second worker; the other one has nothing left to do and waits for ever. -/
theorem C73_violated_failure_hangs_witness : ∃ (c : Cfg) (s : St) (t : Task), 0 < c.lpage ∧ c.objects = 1 ∧ Reach c s ∧ s.workers = [.idle, .dead t] ∧
    ¬ AllDone s ∧ ∀ l s', ¬ Step c s l s' := by
  let c : Cfg := { exStress with objects := 1 }
  have hq : tasks c = some [.create exP0] := by decide +kernel
  have h0 : Reach c _ := .start 2 hq
  have h1 : Reach c _ := .step h0 (.take (a := [.idle]) (b := []) (pre := []) (t := .create exP0) (post := []) 0 rfl rfl trivial)
  have h2 : Reach c _ := .step h1 (.crash (a := [.idle]) (b := []) rfl)
  refine ⟨c, _, .create exP0, by decide, rfl, h2, rfl, ?_, ?_⟩
  · intro h
    have := h .idle (by simp)
    cases this
  · intro l s' hs
    generalize hs0 : (⟨[] ++ [], [W.idle] ++ W.dead (.create exP0) :: [], 0, false, []⟩ : St) = s0 at hs
    have hb : ∀ (a b : List W) t stop, s0.workers ≠ a ++ .busy t stop :: b := by
      intro a b t stop e
      have : W.busy t stop ∈ s0.workers := by rw [e]; simp
      subst hs0
      simp at this
    cases hs with
    | @take a b pre t post stop hw hq hstop => subst hs0; simp at hq
    | @exit a b hw hcm => subst hs0; cases hcm
    | send hw => exact hb _ _ _ _ hw
    | done hw => exact hb _ _ _ _ hw
    | fail hw => exact hb _ _ _ _ hw
    | crash hw => exact hb _ _ _ _ hw

/-- **C73** Violated: with concurrency 0 the tester prints "all done" and has made no call. -/
theorem C73_violated_no_workers : ∃ (c : Cfg) (s : St), 0 < c.objects ∧ Reach c s ∧ AllDone s ∧ s.log = [] :=
  ⟨exStress, _, by decide, .start 0 exStress_tasks, fun w hw => by simp at hw, rfl⟩

/-- **C73** Violated: with no objects the tester never ends. -/
theorem C73_violated_no_objects {c : Cfg} {s : St} (h0 : c.objects = 0) (h : Reach c s) (hw : s.workers ≠ []) :
    ¬ AllDone s ∧ ∀ l s', ¬ Step c s l s' := by
  have main : s.queue = [] ∧ (∀ w ∈ s.workers, w = .idle) ∧ s.complete = false := by
    clear hw
    induction h with
    | start n hq =>
      simp only [tasks, h0, List.range_zero, List.mapM_nil, Option.pure_def, Option.some.injEq] at hq
      subst hq
      exact ⟨rfl, fun w hw => (List.mem_replicate.1 hw).2, rfl⟩
    | @step s l s' hr hs ih =>
      obtain ⟨i1, i2, i3⟩ := ih
      exfalso
      have hb : ∀ {a b t stop}, s.workers = a ++ .busy t stop :: b → False := by
        intro a b t stop e
        have := i2 (.busy t stop) (by rw [e]; simp)
        cases this
      cases hs with
      | take _ _ hq => rw [i1] at hq; simp at hq
      | exit _ hcm => rw [i3] at hcm; cases hcm
      | send hw => exact hb hw
      | done hw => exact hb hw
      | fail hw => exact hb hw
      | crash hw => exact hb hw
  obtain ⟨i1, i2, i3⟩ := main
  constructor
  · intro hd
    obtain ⟨w, hw⟩ := List.exists_mem_of_ne_nil _ hw
    have h1 := hd w hw
    have h2 := i2 w hw
    rw [h1] at h2; cases h2
  · intro l s' hs
    have hb : ∀ {a b t stop}, s.workers = a ++ .busy t stop :: b → False := by
      intro a b t stop e
      have := i2 (.busy t stop) (by rw [e]; simp)
      cases this
    cases hs with
    | take _ _ hq => rw [i1] at hq; simp at hq
    | exit _ hcm => rw [i3] at hcm; cases hcm
    | send hw => exact hb hw
    | done hw => exact hb hw
    | fail hw => exact hb hw
    | crash hw => exact hb hw

example : ∃ s, Reach { exStress with objects := 0 } s ∧ s.workers ≠ [] := ⟨_, .start 1 (q := []) rfl, by simp⟩

/-- **C73** What is tried: objects of 1 to `maximum_object_size - 1` bytes, keys of 9 to `object_key_len_max + 7` bytes. -/
theorem C73_sizes_tried {c : Cfg} {i : Nat} {p : Params} (h : params c i = some p) : 1 ≤ (data c p).length ∧ (data c p).length < c.maxObj ∧
    9 ≤ (key c p).length ∧ (key c p).length ≤ c.keyMax + 7 := by
  obtain ⟨hp, hF⟩ := params_facts h
  have hd := data_len hF
  have hk : (key c p).length = 8 + p.keyLen := by
    rw [key, List.length_append, poolGet_len (by have := hF.key; omega)]; simp
  have h1 : p.dataLen < c.maxObj ∧ p.keyLen < c.keyMax := by
    unfold params at h
    split at h
    · cases h
    · dsimp only at h
      split at h
      · cases h
      · rename_i h1 h2
        simp only [Option.some.injEq] at h
        subst h
        have e1 := Nat.mod_lt (c.hKeyLen i) (show 0 < c.keyMax - 1 by omega)
        have e2 := Nat.mod_lt (c.hDataLen i) (show 0 < c.maxObj - 1 by omega)
        simp only; omega
  have := hF.d1
  have := hF.k1
  omega

/-- **C73** Violated: keys longer than the configured maximum are used (by up to 7 bytes). -/
theorem C73_violated_key_too_long : ∃ (c : Cfg) (i : Nat) (p : Params), i < c.objects ∧ params c i = some p ∧ c.keyMax < (key c p).length :=
  ⟨exStress, 0, exP0, by decide +kernel⟩

end Props
end Blobd
