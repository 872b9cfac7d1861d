import Verif.Proofs.LiteMetrics
import Verif.Proofs.LiteRun
set_option autoImplicit false
/-! # C75: reported metrics (lite store) -/
namespace Blobd
namespace Props
open Lite

/-- C75 (lite, objects and data bytes): in every execution from a formatted device without the known faults, the counters of objects
and of data bytes are those of the stored objects (incomplete ones included), less the creates that have not answered yet: `P` lists those, with the
sizes of their objects. -/
theorem C75_lite_in_progress_partial {c : LCfg} (hc : c.Ok) {s : LSt} {m : Lite.Metrics} (h : Lite.MReach c s m) (hf : s.faults = []) :
    ∃ a l, ∃ P : List (Nat × Nat), absRun c.versioning (s.lin.map (·.2)) = some a ∧ a.Listing l ∧
      (P.map (fun x : Nat × Nat => x.1)).Nodup ∧ (∀ i n, (i, n) ∈ P ↔ creating s i = some n) ∧
      m.objects + P.length = l.length ∧
      m.data + (P.map (fun x : Nat × Nat => (x.2 : Int))).sum = (l.map (fun x => (x.2.size : Int))).sum := by
  obtain ⟨a, l, P, h1, h2, h3, h4, h5⟩ := Lite.mreach_bal hc h hf
  exact ⟨a, l, P, h1, h2, h3.1, h3.2, h4, h5⟩

/-- C75 (lite, at rest): when no call is running, they are exactly the number of stored objects and the sum of their sizes. -/
theorem C75_lite_objects_partial {c : LCfg} (hc : c.Ok) {s : LSt} {m : Lite.Metrics} (h : Lite.MReach c s m) (hf : s.faults = []) (hi : Idle s) :
    ∃ a l, absRun c.versioning (s.lin.map (·.2)) = some a ∧ a.Listing l ∧ m.objects = l.length ∧
      m.data = (l.map (fun x => (x.2.size : Int))).sum := by
  obtain ⟨a, l, P, h1, h2, h3, h4, h5⟩ := Lite.mreach_bal hc h hf
  have hP : P = [] := by
    cases P with
    | nil => rfl
    | cons x P =>
      exfalso
      have := (h3.2 x.1 x.2).1 (by simp)
      unfold creating at this
      cases ht : s.thr x.1 with
      | none => rw [ht] at this; cases this
      | some t =>
        have hd := hi _ _ ht
        obtain ⟨⟨cl, n⟩, pc⟩ := t
        simp only at hd
        rw [ht, hd] at this
        cases cl <;> cases this
  subst hP
  refine ⟨a, l, h1, h2, by simpa using h4, ?_⟩
  have h5' : m.data + 0 = dat l := h5
  unfold dat at h5'
  omega

/-- C75 (lite, calls one at a time): no exception is needed. -/
theorem C75_lite_sequential {c : LCfg} (hc : c.Ok) {s : LSt} {m : Lite.Metrics} (h : Lite.MReach c s m) (hs : SeqReach c s) (hi : Idle s) :
    ∃ a l, absRun c.versioning (s.lin.map (·.2)) = some a ∧ a.Listing l ∧ m.objects = l.length ∧
      m.data = (l.map (fun x => (x.2.size : Int))).sum :=
  C75_lite_objects_partial hc h (seq_faults hc hs).2 hi

/-- C75 (lite): every execution has counters. -/
theorem C75_lite_defined {c : LCfg} {s : LSt} (h : Reach c s) : ∃ m, Lite.MReach c s m := by
  induction h with
  | fresh h => exact ⟨_, .fresh h⟩
  | step _ hs ih =>
    obtain ⟨m, hm⟩ := ih
    cases hs with
    | act a ha => exact ⟨_, .act a hm ha⟩
    | journal hj hh => exact ⟨_, .journal hm hj hh⟩

/-! ## Runs -/

/-- a command, with the counters -/
def lexecM (c : LCfg) (y : LSt × Lite.Metrics) (x : Cmd) : Option (LSt × Lite.Metrics) :=
  (exec c y.1 x).map (fun s' => (s', match x with | .a a => y.2.count c y.1 a | _ => y.2))

def lrunM (xs : List Cmd) : Option (LSt × Lite.Metrics) := w0.bind (fun s => xs.foldlM (lexecM wcfg) (s, .zero))

theorem lrunM_reach {xs : List Cmd} {y : LSt × Lite.Metrics} (h : lrunM xs = some y) : Lite.MReach wcfg y.1 y.2 := by
  obtain ⟨s0, h1, h2⟩ := Option.bind_eq_some_iff.1 h
  have h0 : Lite.MReach wcfg s0 .zero := .fresh (w0_fresh.trans h1)
  clear h h1
  have : ∀ (xs : List Cmd) (z : LSt × Lite.Metrics), Lite.MReach wcfg z.1 z.2 → xs.foldlM (lexecM wcfg) z = some y → Lite.MReach wcfg y.1 y.2 := by
    intro xs
    induction xs with
    | nil => intro z hz h; cases h; exact hz
    | cons x xs ih =>
      intro z hz h
      rw [List.foldlM_cons] at h
      simp only [Option.bind_eq_bind, Option.bind_eq_some_iff] at h
      obtain ⟨z', h3, h4⟩ := h
      refine ih z' ?_ h4
      obtain ⟨s', h5, rfl⟩ := Option.map_eq_some_iff.1 h3
      cases x with
      | a a => exact .act a hz h5
      | _ =>
        rcases exec_step h5 with ⟨a, e, _⟩ | ⟨j', e1, e2, e3⟩
        · cases e
        · subst e3
          exact .journal hz e1 e2
  exact this xs (s0, .zero) h0 h2

/-- the hypotheses are met by executions that store, replace and delete objects: the store ends with one incomplete and one committed object -/
theorem C75_lite_case : ∃ s m, Lite.MReach wcfg s m ∧ wcfg.Ok ∧ s.faults = [] ∧ Idle s ∧
    s.lin.map (·.2) = [.created [1] 5 3, .created [2] 6 10, .committed [1] 5, .created [1] 7 4, .committed [1] 7, .created [3] 8 7,
      .committed [3] 8, .removed [3] none 8] ∧ m.objects = 2 ∧ m.data = 14 := by
  have h : (lrunM (doCreate 0 [1] 3 5 ++ doCreate 1 [2] 10 6 ++ doCommit 2 [1] 5 2 ++ doCreate 3 [1] 4 7 ++
      (commitTo 4 [1] 7 3 ++ flush 1 ++ finish 4 2) ++ doCreate 5 [3] 7 8 ++ doCommit 6 [3] 8 3 ++ doDeleteHead 7 [3])).map
      (fun y => (y.1.lin.map (·.2), y.1.faults, idleB y.1, y.2.objects, y.2.data)) = some ([.created [1] 5 3, .created [2] 6 10, .committed [1] 5,
        .created [1] 7 4, .committed [1] 7, .created [3] 8 7, .committed [3] 8, .removed [3] none 8], [], true, 2, 14) := by decide +kernel
  obtain ⟨⟨s, m⟩, h1, h2⟩ := Option.map_eq_some_iff.1 h
  simp only [Prod.mk.injEq] at h2
  have hr := lrunM_reach h1
  exact ⟨s, m, hr, wcfg_ok, h2.2.1, idleB_ok h2.2.2.1 (fun i t ht => ((reach_ai (Lite.mreach_reach hr)).thr i t ht).1), h2.1, h2.2.2.2.1, h2.2.2.2.2⟩

/-- The code breaks C75: the counter of incomplete objects is only ever touched when a store is opened. With one object created and not
committed it shows 0. -/
theorem C75_violated_lite_incomplete : ∃ s m, Lite.MReach wcfg s m ∧ Idle s ∧ s.lin.map (·.2) = [.created [1] 5 3] ∧ m.incomplete = 0 := by
  have h : (lrunM (doCreate 0 [1] 3 5)).map (fun y => (y.1.lin.map (·.2), idleB y.1, y.2.incomplete)) = some ([.created [1] 5 3], true, 0) := by
    decide +kernel
  obtain ⟨⟨s, m⟩, h1, h2⟩ := Option.map_eq_some_iff.1 h
  simp only [Prod.mk.injEq] at h2
  have hr := lrunM_reach h1
  exact ⟨s, m, hr, idleB_ok h2.2.1 (fun i t ht => ((reach_ai (Lite.mreach_reach hr)).thr i t ht).1), h2.1, h2.2.2⟩

/-- … in every execution. -/
theorem C75_violated_lite_incomplete_always {c : LCfg} {s : LSt} {m : Lite.Metrics} (h : Lite.MReach c s m) : m.incomplete = 0 := by
  induction h with
  | fresh h => rfl
  | journal _ _ _ ih => exact ih
  | act a _ ha ih =>
    unfold Metrics.count
    split
    · split <;> exact ih
    · split <;> exact ih
    · split <;> exact ih

/-- The code breaks C75: a create adds the length of the object's metadata, a delete subtracts the size of the page that holds it. One object
created, committed and deleted: the store is empty and the metadata bytes are shown as almost 2^64. -/
theorem C75_violated_lite_metadata : ∃ s m, Lite.MReach wcfg s m ∧ Idle s ∧
    s.lin.map (·.2) = [.created [1] 5 3, .committed [1] 5, .removed [1] none 5] ∧ m.objects = 0 ∧ 2 ^ 64 - 256 < Lite.shown m.metaBytes := by
  have h : (lrunM (doCreate 0 [1] 3 5 ++ doCommit 1 [1] 5 1 ++ doDeleteHead 2 [1])).map (fun y => (y.1.lin.map (·.2), idleB y.1, y.2.objects,
      decide (2 ^ 64 - 256 < Lite.shown y.2.metaBytes))) = some ([.created [1] 5 3, .committed [1] 5, .removed [1] none 5], true, 0, true) := by
    decide +kernel
  obtain ⟨⟨s, m⟩, h1, h2⟩ := Option.map_eq_some_iff.1 h
  simp only [Prod.mk.injEq, decide_eq_true_eq] at h2
  have hr := lrunM_reach h1
  exact ⟨s, m, hr, idleB_ok h2.2.1 (fun i t ht => ((reach_ai (Lite.mreach_reach hr)).thr i t ht).1), h2.1, h2.2.2.1, h2.2.2.2⟩

end Props
end Blobd
