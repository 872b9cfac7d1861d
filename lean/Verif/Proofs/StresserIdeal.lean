import Verif.Proofs.Stresser
/-! The stress tester against a correct store, and that it ends. -/
set_option autoImplicit false
namespace Blobd
namespace Stress

variable {c : Cfg}

theorem checkChunks_right {p : Params} {stop : Nat} (hs : stop ≤ p.dataLen) (hF : PFacts c p) : ∀ {chunks : List Bytes} {off : Nat}, off ≤ stop →
    chunks.flatten = ((data c p).drop off).take (stop - off) → checkChunks c p stop off chunks = some stop := by
  have hd := data_len hF
  intro chunks
  induction chunks with
  | nil =>
    intro off ho h
    have := congrArg List.length h
    simp only [List.flatten_nil, List.length_nil, List.length_take, List.length_drop] at this
    have he : off = stop := by omega
    simp [checkChunks, he]
  | cons ch r ih =>
    intro off ho h
    rw [List.flatten_cons] at h
    have hl := congrArg List.length h
    simp only [List.length_append, List.length_take, List.length_drop] at hl
    have hle : off + ch.length ≤ stop := by omega
    have h1 : ch = ((data c p).drop off).take ch.length := by
      have := congrArg (List.take ch.length) h
      rw [List.take_left, List.take_take, Nat.min_eq_left (by omega)] at this
      exact this
    have h2 : r.flatten = ((data c p).drop (off + ch.length)).take (stop - (off + ch.length)) := by
      have := congrArg (List.drop ch.length) h
      rw [List.drop_left, List.drop_take, List.drop_drop] at this
      rw [this]
      congr 1; omega
    simp only [checkChunks]
    rw [if_pos ⟨by rw [poolGet_data (by omega)]; exact h1, hle⟩]
    exact ih hle h2

/-- what the store holds for a task -/
def Own (c : Cfg) (i : Ideal) : Task → Prop
  | .create _ => True
  | .write p tok off => ∃ old, i.ups tok = some (key c p, old) ∧ old.length = p.dataLen ∧ old.take off = (data c p).take off
  | .commit p tok => i.ups tok = some (key c p, data c p)
  | .inspect p id => i.objs (key c p) = some (id, data c p)
  | .read p _ id => i.objs (key c p) = some (id, data c p)
  | .delete p id => i.objs (key c p) = some (id, data c p)

theorem answers_frame {i i' : Ideal} {call : Call} {ans : Ans} (h : Answers i call ans i') :
    (∀ tok k d, k ≠ call.key → i.ups tok = some (k, d) → i'.ups tok = some (k, d)) ∧ (∀ k, k ≠ call.key → i'.objs k = i.objs k) := by
  cases h with
  | @create k n tok junk h1 h2 =>
    refine ⟨fun t k' d hk hu => ?_, fun _ _ => rfl⟩
    have : t ≠ tok := fun h => by subst h; rw [h1] at hu; cases hu
    simp [this, hu]
  | @write k tok off d old h1 h2 =>
    refine ⟨fun t k' d hk hu => ?_, fun _ _ => rfl⟩
    have : t ≠ tok := fun h => by subst h; rw [h1] at hu; simp only [Option.some.injEq, Prod.mk.injEq] at hu; exact hk hu.1.symm
    simp [this, hu]
  | @commit k tok d id h1 =>
    refine ⟨fun t k' d hk hu => ?_, fun k' hk => ?_⟩
    · have : t ≠ tok := fun h => by subst h; rw [h1] at hu; simp only [Option.some.injEq, Prod.mk.injEq] at hu; exact hk hu.1.symm
      simp [this, hu]
    · simp only [Call.key] at hk; simp [hk]
  | inspect => exact ⟨fun _ _ _ _ h => h, fun _ _ => rfl⟩
  | read => exact ⟨fun _ _ _ _ h => h, fun _ _ => rfl⟩
  | @delete k id d h1 =>
    refine ⟨fun _ _ _ _ h => h, fun k' hk => ?_⟩
    simp only [Call.key] at hk; simp [hk]

theorem own_other {i i' : Ideal} {call : Call} {ans : Ans} (h : Answers i call ans i') {u : Task} (hk : key c u.p ≠ call.key) (hu : Own c i u) :
    Own c i' u := by
  obtain ⟨f1, f2⟩ := answers_frame h
  cases u with
  | create => trivial
  | write p tok off => obtain ⟨old, h1, h2⟩ := hu; exact ⟨old, f1 _ _ _ hk h1, h2⟩
  | commit p tok => exact f1 _ _ _ hk hu
  | inspect p id => exact (f2 _ hk).trans hu
  | read p off id => exact (f2 _ hk).trans hu
  | delete p id => exact (f2 _ hk).trans hu

/-- a correct answer is taken as correct -/
theorem own_next {i i' : Ideal} {t : Task} {stop : Nat} {ans : Ans} (ht : TaskOk c t) (hs : t.stopOk stop) (ho : Own c i t)
    (h : Answers i (t.call c stop) ans i') : (∃ t', t.next c stop ans = .send t' ∧ Own c i' t') ∨ t.next c stop ans = .done := by
  have hF := ht.facts
  have hlen := data_len hF
  obtain ⟨_, _, hoff⟩ := ht
  cases t with
  | create p =>
    cases h with
    | @create _ _ tok junk h1 h2 =>
      left
      refine ⟨_, rfl, junk, ?_, h2, by simp⟩
      simp
  | write p tok off =>
    simp only [Task.p] at hlen hF
    simp only at hoff
    obtain ⟨old, o1, o2, o3⟩ := ho
    simp only [Task.call] at h
    cases h with
    | @write _ _ _ _ old' h1 h2 =>
      rw [o1] at h1
      simp only [Option.some.injEq, Prod.mk.injEq, true_and] at h1
      subst h1
      left
      have hcl : off + chunkLen c p off ≤ p.dataLen := by unfold chunkLen; split <;> omega
      have hw : (old.take off ++ poolGet c (p.dataOff + off) (chunkLen c p off)).length = off + chunkLen c p off := by
        rw [poolGet_data hcl]; simp; omega
      have hpre : old.take off ++ poolGet c (p.dataOff + off) (chunkLen c p off) = (data c p).take (off + chunkLen c p off) := by
        rw [poolGet_data hcl, o3, List.take_add]
      refine ⟨_, rfl, ?_⟩
      split
      · rename_i hlt
        have hcl' : chunkLen c p off = c.lpage := if_pos (by omega)
        refine ⟨_, if_pos rfl, ?_, ?_⟩
        · have := poolGet_len (c := c) (off := p.dataOff + off) (len := chunkLen c p off) (by have := hF.data; omega)
          simp only [List.length_append, List.length_take, List.length_drop, this]
          omega
        · rw [List.append_assoc, ← List.append_assoc, hpre, hcl', List.take_append_of_le_length (by simp; omega), List.take_take, Nat.min_self]
      · rename_i hlt
        have hcl' : chunkLen c p off = p.dataLen - off := by unfold chunkLen; split <;> omega
        show Ideal.ups _ tok = _
        simp only [↓reduceIte, Option.some.injEq, Prod.mk.injEq, true_and]
        rw [poolGet_len (by have := hF.data; omega), hpre, hcl', List.take_of_length_le (by omega), List.drop_of_length_le (by omega), List.append_nil]
  | commit p tok =>
    simp only [Task.call] at h
    cases h with
    | @commit _ _ d id h1 =>
      have ho' : i.ups tok = some (key c p, data c p) := ho
      rw [ho'] at h1
      simp only [Option.some.injEq, Prod.mk.injEq, true_and] at h1
      subst h1
      left
      exact ⟨_, rfl, by simp [Own]⟩
  | inspect p id =>
    simp only [Task.call] at h
    simp only [Task.p] at hlen hF
    cases h with
    | @inspect _ _ d h1 =>
      have ho' : i.objs (key c p) = some (id, data c p) := ho
      rw [ho'] at h1
      simp only [Option.some.injEq, Prod.mk.injEq, true_and] at h1
      subst h1
      left
      refine ⟨.read p 0 id, ?_, ho'⟩
      simp only [Task.next, hlen, and_self, ↓reduceIte]
  | read p off id =>
    simp only [Task.call] at h
    simp only [Task.p] at hlen hF
    cases h with
    | @read _ _ d _ _ chunks h1 h2 h3 h4 =>
      have ho' : i.objs (key c p) = some (id, data c p) := ho
      rw [ho'] at h1
      simp only [Option.some.injEq, Prod.mk.injEq, true_and] at h1
      subst h1
      left
      refine ⟨if stop < p.dataLen then .read p stop id else .delete p id, by simp only [Task.next, checkChunks_right hs.2 hF h2 h4], ?_⟩
      split <;> exact ho'
  | delete p id =>
    simp only [Task.call] at h
    cases h
    right
    rfl

/-- a correct store can answer -/
theorem own_answer {i : Ideal} {t : Task} {stop : Nat} (ht : TaskOk c t) (hs : t.stopOk stop) (ho : Own c i t) (hN : ∃ tok, i.ups tok = none) :
    ∃ ans i', Answers i (t.call c stop) ans i' := by
  have hF := ht.facts
  have hlen := data_len hF
  obtain ⟨_, _, hoff⟩ := ht
  cases t with
  | create p => obtain ⟨tok, h⟩ := hN; exact ⟨_, _, .create (List.replicate p.dataLen 0) h (by simp)⟩
  | write p tok off =>
    simp only [Task.p] at hlen hF
    simp only at hoff
    obtain ⟨old, o1, o2, o3⟩ := ho
    refine ⟨_, _, .write o1 ?_⟩
    have hcl : off + chunkLen c p off ≤ p.dataLen := by unfold chunkLen; split <;> omega
    rw [poolGet_len (by have := hF.data; omega)]; omega
  | commit p tok => exact ⟨_, _, .commit (none) ho⟩
  | inspect p id => exact ⟨_, _, .inspect ho⟩
  | read p off id =>
    simp only [Task.p] at hlen
    exact ⟨_, _, .read ho (by have := hs.1; omega) (by rw [hlen]; exact hs.2) (chunks := [_]) (by rw [List.flatten_singleton])⟩
  | delete p id => exact ⟨_, _, .delete ho⟩

structure GInv (c : Cfg) (x : St × Ideal) : Prop where
  inv : Inv c x.1
  own : ∀ t ∈ pend x.1, Own c x.2 t
  alive : ∀ t, .dead t ∉ x.1.workers
  fin : ∃ n, ∀ tok, n ≤ tok → x.2.ups tok = none

theorem answers_fin {i i' : Ideal} {call : Call} {ans : Ans} (h : Answers i call ans i') (hf : ∃ n, ∀ tok, n ≤ tok → i.ups tok = none) :
    ∃ n, ∀ tok, n ≤ tok → i'.ups tok = none := by
  obtain ⟨n, hn⟩ := hf
  cases h with
  | @create k m tok junk h1 h2 =>
    refine ⟨max n (tok + 1), fun t ht => ?_⟩
    have : t ≠ tok := by omega
    simp [this, hn t (by omega)]
  | @write k tok off d old h1 h2 =>
    refine ⟨max n (tok + 1), fun t ht => ?_⟩
    have : t ≠ tok := by omega
    simp [this, hn t (by omega)]
  | @commit k tok d id h1 =>
    refine ⟨max n (tok + 1), fun t ht => ?_⟩
    have : t ≠ tok := by omega
    simp [this, hn t (by omega)]
  | inspect => exact ⟨n, hn⟩
  | read => exact ⟨n, hn⟩
  | delete => exact ⟨n, hn⟩

theorem ginv_step (hl : 0 < c.lpage) (ho : c.objects ≤ 2 ^ 64) {x y : St × Ideal} (hi : GInv c x) (hs : GStep c x y) : GInv c y := by
  cases hs with
  | @quiet s s' i hst =>
    have hinv := inv_step hl ho hi.inv hst
    have hown := hi.own
    have halive := hi.alive
    simp only at hown halive
    cases hst with
    | @take a b pre t post stop hw hq hstop =>
      refine ⟨hinv, ?_, ?_, hi.fin⟩
      · intro u hu
        refine hown u ?_
        simp only [pend, hq, hw, List.filterMap_append, List.filterMap_cons, W.task, List.mem_append, List.mem_cons] at hu ⊢
        tauto
      · intro u hu
        refine halive u ?_
        rw [hw]; simpa using hu
    | @exit a b hw hcm =>
      refine ⟨hinv, ?_, ?_, hi.fin⟩
      · intro u hu
        refine hown u ?_
        simp only [pend, hw, List.filterMap_append, List.filterMap_cons, W.task, List.mem_append, List.mem_cons] at hu ⊢
        tauto
      · intro u hu
        refine halive u ?_
        rw [hw]; simpa using hu
  | @call s s' i i' call ans hst ha =>
    have hinv := inv_step hl ho hi.inv hst
    have hown := hi.own
    have halive := hi.alive
    simp only at hown halive
    have main : ∀ {a b : List W} {t : Task} {stop : Nat}, s.workers = a ++ .busy t stop :: b → Answers i (t.call c stop) ans i' →
        (t ∈ pend s) ∧ ((∃ t', t.next c stop ans = .send t' ∧ Own c i' t') ∨ t.next c stop ans = .done) ∧
        ∀ u ∈ s.queue ++ (a.filterMap W.task ++ b.filterMap W.task), Own c i' u := by
      intro a b t stop hw ha
      have hmem : t ∈ pend s := by simp [pend, hw, List.filterMap_append, List.filterMap_cons, W.task]
      have hst := hi.inv.stops t stop (by rw [hw]; simp)
      refine ⟨hmem, own_next (hi.inv.ok t hmem) hst (hown t hmem) ha, ?_⟩
      have hperm0 : (pend s).Perm (t :: (s.queue ++ (a.filterMap W.task ++ b.filterMap W.task))) := by
        simp only [pend, hw, List.filterMap_append, List.filterMap_cons, W.task]
        rw [← List.append_assoc, ← List.append_assoc]
        exact List.perm_middle
      have hnd0 := (hperm0.map (fun t : Task => t.p.pfx)).nodup_iff.1 hi.inv.nodup
      simp only [List.map_cons, List.nodup_cons] at hnd0
      intro u hu
      have hu' := hperm0.mem_iff.2 (List.mem_cons_of_mem _ hu)
      refine own_other ha ?_ (hown u hu')
      rw [call_key]
      intro h
      have h1 := (hi.inv.ok u hu').lt
      have h2 := (hi.inv.ok t hmem).lt
      have := key_inj (by omega) (by omega) h
      exact hnd0.1 (this ▸ List.mem_map_of_mem hu)
    cases hst with
    | @send a t stop b t' ans hw hn =>
      obtain ⟨h1, h2, h3⟩ := main hw ha
      refine ⟨hinv, ?_, ?_, answers_fin ha hi.fin⟩
      · intro u hu
        simp only [pend, List.filterMap_append, List.filterMap_cons, W.task, List.mem_append, List.mem_singleton] at hu
        by_cases he : u = t'
        · subst he
          rcases h2 with ⟨t'', e, h⟩ | e
          · rw [hn] at e; cases e; exact h
          · rw [hn] at e; cases e
        · refine h3 u ?_
          simp only [List.mem_append]
          tauto
      · intro u hu
        refine halive u ?_
        rw [hw]; simp only [List.mem_append, List.mem_cons, reduceCtorEq, false_or] at hu ⊢; exact hu
    | @done a t stop b ans hw hn =>
      obtain ⟨h1, h2, h3⟩ := main hw ha
      refine ⟨hinv, ?_, ?_, answers_fin ha hi.fin⟩
      · intro u hu
        simp only [pend, List.filterMap_append, List.filterMap_cons, W.task, List.mem_append] at hu
        refine h3 u ?_
        simp only [List.mem_append]
        tauto
      · intro u hu
        refine halive u ?_
        rw [hw]; simp only [List.mem_append, List.mem_cons, reduceCtorEq, false_or] at hu ⊢; exact hu
    | @fail a t stop b ans hw hn =>
      obtain ⟨h1, h2, h3⟩ := main hw ha
      rcases h2 with ⟨t'', e, h⟩ | e
      · rw [hn] at e; cases e
      · rw [hn] at e; cases e

theorem greach_inv (hl : 0 < c.lpage) (ho : c.objects ≤ 2 ^ 64) {x : St × Ideal} (h : GReach c x) : GInv c x := by
  induction h with
  | @start q n h =>
    refine ⟨inv_start h, ?_, ?_, 0, fun _ _ => rfl⟩
    · intro t ht
      simp only [pend, filterMap_idle (f := W.task) rfl, List.append_nil] at ht
      obtain ⟨p, rfl, -⟩ := (mapM_start h).2 t ht
      trivial
    · intro t ht
      simp only [List.mem_replicate, reduceCtorEq, and_false] at ht
  | step _ hs ih => exact ginv_step hl ho ih hs

theorem greach_reach {x : St × Ideal} (h : GReach c x) : Reach c x.1 := by
  induction h with
  | start n h => exact .start n h
  | step _ hs ih =>
    cases hs with
    | quiet h => exact .step ih h
    | call h _ => exact .step ih h

/-- no step can be taken only when everything is over -/
theorem ginv_progress {x : St × Ideal} (hi : GInv c x) (hcmp : x.1.deletes = c.objects → x.1.complete = true)
    (hst : ¬ ∃ y, GStep c x y) : AllDone x.1 := by
  obtain ⟨s, i⟩ := x
  have hnb : ∀ t stop, .busy t stop ∉ s.workers := by
    intro t stop hb
    obtain ⟨a, b, hw⟩ := List.append_of_mem hb
    have hmem : t ∈ pend s := by simp [pend, hw, List.filterMap_append, List.filterMap_cons, W.task]
    have hstop := hi.inv.stops t stop hb
    obtain ⟨n, hn⟩ := hi.fin
    obtain ⟨ans, i', ha⟩ := own_answer (hi.inv.ok t hmem) hstop (hi.own t hmem) ⟨n, hn n (Nat.le_refl _)⟩
    rcases own_next (hi.inv.ok t hmem) hstop (hi.own t hmem) ha with ⟨t', e, -⟩ | e
    · exact hst ⟨_, .call (.send hw e) ha⟩
    · exact hst ⟨_, .call (.done hw e) ha⟩
  intro w hw
  cases w with
  | exited => rfl
  | dead t => exact absurd hw (hi.alive t)
  | busy t stop => exact absurd hw (hnb t stop)
  | idle =>
    exfalso
    obtain ⟨a, b, hwk⟩ := List.append_of_mem hw
    have hq : s.queue = [] := by
      cases hq : s.queue with
      | nil => rfl
      | cons t q =>
        exfalso
        have hmem : t ∈ pend s := by simp [pend, hq]
        have hok := hi.inv.ok t hmem
        have hF := hok.facts
        have hstop : t.stopOk t.p.dataLen := by
          have := hok.off
          cases t <;> simp only [Task.stopOk, Task.p] at *
          omega
        exact hst ⟨_, .quiet (.take (pre := []) t.p.dataLen hwk hq hstop)⟩
    have hp : pend s = [] := by
      rw [pend, hq, List.nil_append, List.filterMap_eq_nil_iff]
      intro w hw
      cases w with
      | busy t stop => exact absurd hw (hnb t stop)
      | dead t => exact absurd hw (hi.alive t)
      | _ => rfl
    have hc := hi.inv.count
    simp only [pids, hp, List.map_nil, List.length_nil, Nat.add_zero] at hc
    exact hst ⟨_, .quiet (.exit hwk (hcmp hc))⟩

/-- once all objects are deleted, `complete` is set -/
theorem reach_complete {s : St} (h : Reach c s) : s.deletes = c.objects → 0 < c.objects → s.complete = true := by
  induction h with
  | start n h => intro h1 h2; simp only at h1; omega
  | step _ hs ih =>
    intro h1 h2
    cases hs with
    | take => exact ih h1 h2
    | exit => exact ih h1 h2
    | send => exact ih h1 h2
    | done => simp only [Bool.or_eq_true, decide_eq_true_eq]; exact Or.inr h1
    | fail => exact ih h1 h2
    | crash => exact ih h1 h2

theorem step_workers {s s' : St} {l : Lbl} (hs : Step c s l s') : s'.workers.length = s.workers.length := by
  cases hs with
  | take _ hw => simp [hw]
  | exit hw => simp [hw]
  | send hw => simp [hw]
  | done hw => simp [hw]
  | fail hw => simp [hw]
  | crash hw => simp [hw]

/-- a failed worker stays failed -/
theorem step_dead {s s' : St} {l : Lbl} {t : Task} (hd : .dead t ∈ s.workers) (hs : Step c s l s') : .dead t ∈ s'.workers := by
  cases hs with
  | take _ hw => rw [hw] at hd; simpa using hd
  | exit hw => rw [hw] at hd; simpa using hd
  | send hw => rw [hw] at hd; simpa using hd
  | done hw => rw [hw] at hd; simpa using hd
  | fail hw => rw [hw] at hd; simp only [List.mem_append, List.mem_cons, reduceCtorEq, false_or] at hd ⊢; tauto
  | crash hw => rw [hw] at hd; simp only [List.mem_append, List.mem_cons, reduceCtorEq, false_or] at hd ⊢; tauto

/-! ## It ends -/

/-- calls still to come, at most -/
def work : Task → Nat
  | .create p => 2 * p.dataLen + 4
  | .write p _ off => (p.dataLen - off) + p.dataLen + 3
  | .commit p _ => p.dataLen + 3
  | .inspect p _ => p.dataLen + 2
  | .read p off _ => p.dataLen - off + 1
  | .delete _ _ => 1

def W.cost : W → Nat
  | .idle => 1
  | .busy t _ => 2 * work t
  | _ => 0

def cost (s : St) : Nat := (s.queue.map (fun t => 2 * work t)).sum + (s.workers.map W.cost).sum

theorem work_pos (t : Task) : 1 ≤ work t := by cases t <;> simp [work]

theorem work_next (hl : 0 < c.lpage) {t t' : Task} {stop : Nat} {ans : Ans} (ht : TaskOk c t) (hs : t.stopOk stop) (h : t.next c stop ans = .send t') :
    work t' < work t := by
  have hF := ht.facts
  obtain ⟨_, _, hoff⟩ := ht
  cases t with
  | create p =>
    cases ans <;> simp only [Task.next, Next.send.injEq, reduceCtorEq] at h
    subst h; simp only [work]; omega
  | write p tok off =>
    cases ans <;> simp only [Task.next, Next.send.injEq, reduceCtorEq] at h
    simp only at hoff
    split at h <;> subst h <;> simp only [work] <;> omega
  | commit p tok =>
    cases ans <;> simp only [Task.next, Next.send.injEq, reduceCtorEq] at h
    subst h; simp only [work]; omega
  | inspect p id =>
    cases ans <;> simp only [Task.next, reduceCtorEq] at h
    split at h <;> simp only [Next.send.injEq, reduceCtorEq] at h
    subst h; simp only [work]; omega
  | read p off id =>
    cases ans <;> simp only [Task.next, reduceCtorEq] at h
    split at h <;> simp only [Next.send.injEq, reduceCtorEq] at h
    rename_i off' hch
    obtain ⟨rfl, h1, h2⟩ := checkChunks_ok hch hs.2
    simp only at hoff
    simp only [Task.stopOk] at hs
    split at h <;> subst h <;> simp only [work] <;> omega
  | delete p id => cases ans <;> simp only [Task.next, reduceCtorEq] at h

theorem cost_step (hl : 0 < c.lpage) {s s' : St} {l : Lbl} (hi : Inv c s) (hs : Step c s l s') : cost s' < cost s := by
  cases hs with
  | @take a b pre t post stop hw hq hstop => simp [cost, hw, hq, W.cost]; omega
  | @exit a b hw hcm => simp [cost, hw, W.cost]
  | @send a t stop b t' ans hw hn =>
    have hmem : t ∈ pend s := by simp [pend, hw, List.filterMap_append, List.filterMap_cons, W.task]
    have := work_next hl (hi.ok t hmem) (hi.stops t stop (by rw [hw]; simp)) hn
    simp [cost, hw, W.cost]; omega
  | @done a t stop b ans hw hn => have := work_pos t; simp [cost, hw, W.cost]; omega
  | @fail a t stop b ans hw hn => have := work_pos t; simp [cost, hw, W.cost]; omega
  | @crash a t stop b hw => have := work_pos t; simp [cost, hw, W.cost]; omega

end Stress
end Blobd
