import Verif.Proofs.BenchmarkIdeal
set_option autoImplicit false
/-! # Benchmark runner: runs against a correct store end -/
namespace Blobd
namespace Bench
open Stress (Bytes Call Ans about Ideal)
variable {c : Cfg} {s s' : St} {st st' : Ideal}

/-- the call of a task has a correct answer -/
theorem answer_exists (hp : c.pool.length = c.size) {p : Phase} {todo : List (Nat × Nat)} {log : List (Call × Ans)} {toks fin : List (Nat × Nat)}
    (hc : Cur c p todo s.running log toks fin) (htk : p = .write ∨ p = .commit → toks = s.toks) (hf : ∃ N, ∀ t, N ≤ t → st.ups t = none)
    (hst : Stored c s st p) {j : Job} (hj : j ∈ s.running) {call : Call}
    (h1 : j.call c = some call) : ∃ ans st', Answers st call ans st' := by
  obtain ⟨x, off, l, hr, hs, hx, hxt⟩ := cur_shape hc hj
  cases p
  case create =>
    rcases hs with ⟨rfl, rfl⟩ | ⟨tok, rfl, rfl⟩
    · cases h1
      obtain ⟨N, hN⟩ := hf
      exact ⟨_, _, .create (tok := N) (List.replicate c.size 0) (hN N (Nat.le_refl _)) (by simp)⟩
    · cases h1
  case write =>
    obtain ⟨o, rfl, hw⟩ := hs
    simp only [Job.call] at h1
    split at h1 <;> cases h1
    rename_i hg
    have hxm := hxt (.inl rfl)
    rw [htk (.inl rfl)] at hxm
    obtain ⟨buf, q1, q2, _, _⟩ := hst x hxm
    refine ⟨_, _, .write q1 ?_⟩
    rw [List.length_take, List.length_drop, q2]
    omega
  case commit =>
    rcases hs with ⟨rfl, rfl⟩ | ⟨id, rfl, rfl⟩
    · cases h1
      exact ⟨_, _, .commit none (hst.2.1 _ _ hj)⟩
    · cases h1
  case inspect =>
    rcases hs with ⟨rfl, rfl⟩ | ⟨_, _, rfl, rfl⟩
    · cases h1
      obtain ⟨id, e⟩ := hst x.1 hx
      exact ⟨_, _, .inspect e⟩
    · cases h1
  case randomRead =>
    rcases hs with ⟨rfl, rfl⟩ | ⟨_, rfl, _⟩
    · cases h1
      obtain ⟨id, e⟩ := hst x.1 hx
      have := random_fits hr
      exact ⟨_, _, .read (chunks := [(c.pool.drop off).take (off + randomLen c - off)]) e (by omega)
        (by unfold randomLen; omega) (by simp)⟩
    · cases h1
  case read =>
    obtain ⟨o, rfl, hw⟩ := hs
    simp only [Job.call] at h1
    split at h1 <;> cases h1
    obtain ⟨id, e⟩ := hst x.1 hx
    exact ⟨_, _, .read (chunks := [(c.pool.drop o).take (o + (min c.size (o + c.readSize) - o) - o)]) e (by omega) (by omega) (by simp)⟩
  case delete =>
    rcases hs with ⟨rfl, rfl⟩ | ⟨rfl, _⟩
    · cases h1
      obtain ⟨id, e⟩ := hst.2.1 _ hj
      exact ⟨_, _, .delete e⟩
    · cases h1

theorem call_or_finished (hk : c.chunk ≠ 0) (hr : c.readSize ≠ 0) (j : Job) : (∃ call, j.call c = some call) ∨ j.finished c = true := by
  cases j with
  | write i tok off =>
    by_cases h : off < c.size
    · exact .inl ⟨_, by simp only [Job.call]; rw [if_pos ⟨hk, h⟩]⟩
    · exact .inr (by simp only [Job.finished, decide_eq_true_eq]; omega)
  | read i off =>
    by_cases h : off < c.size
    · exact .inl ⟨_, by simp only [Job.call]; rw [if_pos ⟨hr, h⟩]⟩
    · exact .inr (by simp only [Job.finished, decide_eq_true_eq]; omega)
  | over => exact .inr rfl
  | _ => exact .inl ⟨_, rfl⟩

theorem ginv_progress (hp : c.pool.length = c.size) (hk : c.chunk ≠ 0) (hr : c.readSize ≠ 0) {x : St × Ideal} (h : GInv c x)
    (hn : ¬ Reported x.1) : ∃ y, GStep c x y := by
  obtain ⟨s, st⟩ := x
  have ha : s.panicked = false := h.alive
  cases hph : s.phases with
  | nil => exact absurd ⟨hph, ha⟩ hn
  | cons p ps =>
    obtain ⟨fin, hc, hl, hcr⟩ := h.inv.cur ha p ps hph
    cases hrun : s.running with
    | cons j b =>
      rcases call_or_finished (c := c) hk hr j with ⟨call, hcall⟩ | hf
      · obtain ⟨ans, st', hans⟩ := answer_exists hp hc (fun _ => rfl) h.fresh (h.stored p ps hph) (j := j) (by rw [hrun]; simp) hcall
        cases hnx : j.next c ans with
        | none => exact absurd hnx (no_wrong hp hc (h.stored p ps hph) (by rw [hrun]; simp) hcall hans)
        | some j' => exact ⟨_, .call (.answer (a := []) ha hrun hcall hnx) hans⟩
      · exact ⟨_, .quiet (.finish (a := []) ha hph hrun hf) ha⟩
    | nil =>
      cases htodo : s.todo with
      | cons x r =>
        have hoff : ∃ off, RandomOk c off := ⟨0, by unfold RandomOk; split <;> omega⟩
        obtain ⟨off, ho⟩ := hoff
        exact ⟨_, .quiet (.start off ha hph htodo (by rw [hrun]; simp only [List.length_nil]; omega) ho) ha⟩
      | nil =>
        cases ps with
        | nil => exact ⟨_, .quiet (.results ha hph htodo hrun) ha⟩
        | cons p' ps => exact ⟨_, .quiet (.phase ha hph htodo hrun (.refl _)) ha⟩

def jobCost (c : Cfg) : Job → Nat
  | .write _ _ off => c.size - off + 1
  | .read _ off => c.size - off + 1
  | .over _ _ => 1
  | _ => 2

def cost (c : Cfg) (s : St) : Nat :=
  s.phases.length + (s.phases.length - 1) * (c.objects * (c.size + 3)) + s.todo.length * (c.size + 3) + (s.running.map (jobCost c)).sum

theorem jobCost_begin (p : Phase) (x : Nat × Nat) (off : Nat) : jobCost c (.begin p x off) < c.size + 3 := by
  cases p <;> simp only [Job.begin, jobCost] <;> omega

theorem jobCost_next {j j' : Job} {call : Call} {ans : Ans} (h1 : j.call c = some call) (h2 : j.next c ans = some j') :
    jobCost c j' < jobCost c j := by
  cases j with
  | write i tok off =>
    simp only [Job.call] at h1
    split at h1 <;> cases h1
    cases ans <;> simp only [Job.next] at h2 <;> cases h2
    simp only [jobCost]
    omega
  | read i off =>
    simp only [Job.call] at h1
    split at h1 <;> cases h1
    cases ans <;> simp only [Job.next] at h2
    case read =>
      split at h2 <;> cases h2
      simp only [jobCost]
      omega
    all_goals cases h2
  | over => cases h1
  | random i off =>
    cases ans <;> simp only [Job.next] at h2
    case read =>
      split at h2 <;> cases h2
      simp [jobCost]
    all_goals cases h2
  | create => cases ans <;> simp only [Job.next] at h2 <;> cases h2; simp [jobCost]
  | commit => cases ans <;> simp only [Job.next] at h2 <;> cases h2; simp [jobCost]
  | inspect => cases ans <;> simp only [Job.next] at h2 <;> cases h2; simp [jobCost]
  | delete => cases ans <;> simp only [Job.next] at h2 <;> cases h2; simp [jobCost]

theorem jobCost_pos (j : Job) : 0 < jobCost c j := by cases j <;> simp [jobCost]

/-- quiet steps and passed answers bring the end nearer -/
theorem cost_step (hinv : Inv c s) {lb : Lbl} (hs : Step c s lb s') (hpan : s'.panicked = false) : cost c s' < cost c s := by
  cases hs with
  | @start p ps x r off h1 h2 h3 h4 h5 =>
    have := jobCost_begin (c := c) p x off
    simp only [cost, h3, List.map_append, List.map_cons, List.map_nil, List.sum_append, List.sum_cons, List.sum_nil, List.length_cons, Nat.succ_mul]
    omega
  | @answer a b j j' call ans h1 h2 h3 h4 =>
    have := jobCost_next h3 h4
    simp only [cost, h2, List.map_append, List.map_cons, List.sum_append, List.sum_cons]
    omega
  | wrong => cases hpan
  | @finish p ps a b j h1 h2 h3 h4 =>
    have := jobCost_pos (c := c) j
    simp only [cost, h3, List.map_append, List.map_cons, List.sum_append, List.sum_cons]
    omega
  | @phase p p' ps l h1 h2 h3 h4 h5 =>
    have hl : l.length = c.objects := by
      have hsp := hinv.split
      rw [h2] at hsp
      obtain ⟨l1, l2⟩ := later_phase hsp
      obtain ⟨fin, hc, hn, hcr⟩ := hinv.cur h1 p (p' :: ps) h2
      rw [h3, h4] at hc
      have htk : c.skipCreation = false → (s.toks.map (fun x => x.1)).Perm (List.range c.objects) := by
        intro hsk
        by_cases hpc : p = .create
        · rw [← hcr hpc]
          have := hc.perm
          simpa using this
        · exact hinv.toks hsk (by rw [h2]; simpa using hpc)
      have := ((h5.map (fun x => x.1)).trans (items_fst s.toks p' (fun hq => htk (l2 hq)))).length_eq
      simpa using this
    simp only [cost, h2, h3, h4, hl, List.length_cons, List.length_nil, Nat.add_sub_cancel, Nat.succ_mul, Nat.zero_mul]
    omega
  | @results p h1 h2 h3 h4 =>
    simp only [cost, h2, h3, h4, List.length_cons, List.length_nil]
    simp
  | crash => cases hpan

end Bench
end Blobd
