import Verif.Proofs.DirectCluster
/-!
# C58: a direct store with several partitions is one store

`CReach c x`: `x` occurs in some execution of the whole store, with any interleaving in all partitions and any number
of crashes and restarts. `x.lin` is what happened since the last start, in all partitions, in order. `x.find c k` is what
a call with key `k` finds, `x.upload c i id` the upload of the token with partition number `i` and id `id`.
-/
set_option autoImplicit false
namespace Blobd
namespace Props
open Direct

/-- none of the events of C29, in any partition -/
def CFaultFree (c : CCfg) (x : Cluster) : Prop := ∀ i, i < c.n → PageFaultFree (x.parts i)

def COk (c : CCfg) : Prop := ∀ i, i < c.n → (c.part i).Ok

theorem owner_lt {c : CCfg} {k : List Byte} {i : Nat} (h : c.owner k = some i) : i < c.n := by
  unfold CCfg.owner Regions.partitionIndex at h
  split at h
  · cases h
  · cases h; exact Nat.mod_lt _ (by omega)

structure CInv (c : CCfg) (x : Cluster) : Prop where
  reach : ∀ i, i < c.n → Reach (c.part i) (x.parts i)
  rt : ∀ i, i < c.n → RtInv (fun k => c.owner k = some i) (x.parts i)
  lin : ∀ i, i < c.n → (x.lin.filter (fun e => e.1 = i)).map (·.2) = (x.parts i).lin
  parts : ∀ e ∈ x.lin, e.1 < c.n

theorem cinv {c : CCfg} {x : Cluster} (h : CReach c x) : CInv c x := by
  induction h with
  | fresh h =>
    refine ⟨?_, ?_, ?_, by simp⟩
    · intro i hi; obtain ⟨dev, hd⟩ := h i hi; exact .fresh hd
    all_goals
      intro i hi
      obtain ⟨dev, hd⟩ := h i hi
      simp only [fresh] at hd
      split at hd
      · cases hd
      · simp only [Option.some.injEq] at hd
        first
          | exact ⟨by simp [← hd], by simp [← hd]⟩
          | simp [← hd]
  | @step x y hx hs ih =>
    cases hs with
    | part i s' hi hst hk =>
      refine ⟨?_, ?_, ?_, ?_⟩
      · intro j hj
        simp only [upd]; split
        · rename_i e; subst e; exact .step (ih.reach j hj) hst
        · exact ih.reach j hj
      · intro j hj
        simp only [upd]; split
        · rename_i e; subst e; exact rt_step (ih.rt j hj) hst hk
        · exact ih.rt j hj
      · intro j hj
        have hf : ∀ l : List (Nat × Ev), ((l.map (fun e => (i, e))).filter (fun e => e.1 = j)).map (·.2) = if i = j then l else [] := by
          intro l
          by_cases e : i = j
          · subst e
            rw [if_pos rfl, List.filter_eq_self.2, List.map_map]
            · simp [Function.comp_def]
            · intro a ha; obtain ⟨b, _, rfl⟩ := List.mem_map.1 ha; simp
          · rw [if_neg e, List.filter_eq_nil_iff.2]
            · rfl
            · intro a ha; obtain ⟨b, _, rfl⟩ := List.mem_map.1 ha; simpa using e
        rw [List.filter_append, List.map_append, hf, ih.lin j hj]
        simp only [upd]
        by_cases e : j = i
        · subst e; simp only [if_pos]; exact (lin_ext hst).symm
        · rw [if_neg e, if_neg (Ne.symm e)]; simp
      · intro e he
        rcases List.mem_append.1 he with he | he
        · exact ih.parts e he
        · obtain ⟨a, _, rfl⟩ := List.mem_map.1 he; exact hi
  | @restart x parts order hx h ih =>
    refine ⟨?_, ?_, ?_, by simp⟩
    · intro i hi; exact .restart _ (ih.reach i hi) (h i hi).1 (h i hi).2
    · intro i hi; exact rt_load (ih.rt i hi) (h i hi).2
    · intro i hi
      obtain ⟨a0, l, _, _, _, e⟩ := load_some (h i hi).2
      simp only [e, List.filter_nil, List.map_nil]

theorem cfault_step {c : CCfg} {x y : Cluster} (hs : CStep c x y) (hf : CFaultFree c y) : CFaultFree c x := by
  cases hs with
  | part i s' hi hst hk =>
    intro j hj
    have := hf j hj
    simp only [upd] at this
    split at this
    · rename_i e; subst e
      exact ⟨fun h => this.1 (faults_step hst _ h), fun h => this.2.1 (faults_step hst _ h), fun h => this.2.2 (faults_step hst _ h)⟩
    · exact this

/-- what is visible in a partition is under keys that the partition owns -/
theorem com_owner {c : CCfg} (hc : COk c) {x : Cluster} (h : CReach c x) (hf : CFaultFree c x) {i : Nat} (hi : i < c.n)
    {k : List Byte} {o : Obj} (ho : (x.parts i).committed k = some o) : c.owner k = some i := by
  have hI := cinv h
  have hs := reach_safe (hc i hi) (hI.reach i hi) (hf i hi).1 (hf i hi).2.1 (hf i hi).2.2
  obtain ⟨mo, hn⟩ := hs.N.com k o ho
  have := (hI.rt i hi).names _ _ _ hn
  rwa [(reach_id (hI.reach i hi)).comKey k o ho] at this

/-- what was visible at the last start -/
def Cluster.base (c : CCfg) (x : Cluster) : GAbs :=
  ⟨fun k => match c.owner k with | some i => (x.parts i).base.1 k | none => none,
   fun i id => if i < c.n then (x.parts i).base.2 id else none⟩

/-- The whole store is linearizable as one store: what happened since the last start, in all partitions and in the order
in which it happened, is a run of one abstract store (one visible map for all keys, one set of tokens) that starts with
what was there at the last start and ends with what calls find now; and each answer is the one for what its own call did
while it ran. -/
theorem C58_one_store_partial {c : CCfg} (hc : COk c) {x : Cluster} (h : CReach c x) (hf : CFaultFree c x) :
    gRun (Cluster.base c x) (x.lin.map (fun e => (e.1, e.2.2))) = some ⟨x.find c, x.upload c⟩ ∧
    ∀ i, i < c.n → (x.lin.filter (fun e => e.1 = i)).map (·.2) = (x.parts i).lin ∧
      ∀ a ∈ (x.parts i).acks, a.stop ≤ (x.parts i).lin.length ∧ Explained (x.parts i).lin a := by
  refine ⟨?_, fun i hi => ⟨(cinv h).lin i hi, (reach_lin ((cinv h).reach i hi)).acks⟩⟩
  induction h with
  | @fresh parts h =>
    simp only [List.map_nil, gRun, List.foldlM_nil]
    congr 1
    simp only [Cluster.base, GAbs.mk.injEq]
    constructor
    · funext k
      simp only [Cluster.find]
      cases e : c.owner k with
      | none => rfl
      | some i =>
        obtain ⟨dev, hd⟩ := h i (owner_lt e)
        simp only [fresh] at hd
        split at hd
        · cases hd
        · simp only [Option.some.injEq] at hd; simp only [← hd]
    · funext i id
      simp only [Cluster.upload]
      split
      · rename_i hi
        obtain ⟨dev, hd⟩ := h i hi
        simp only [fresh] at hd
        split at hd
        · cases hd
        · simp only [Option.some.injEq] at hd; simp only [← hd]
      · rfl
  | @step x y hx hs ih =>
    have hf' := cfault_step hs hf
    have ih := ih hf'
    have hI := cinv hx
    cases hs with
    | part i s' hi hst hk =>
      have hsf := reach_safe (hc i hi) (hI.reach i hi) (hf' i hi).1 (hf' i hi).2.1 (hf' i hi).2.2
      have habs := step_abs (hI.reach i hi) hst
      have hkey := ev_key hsf.N (hI.rt i hi) hst hk
      obtain ⟨g', e1, e2, e3, e4⟩ := gRun_lift (own := fun k => c.owner k = some i) (i := i) (g := ⟨x.find c, x.upload c⟩) habs
        (by
          intro e he k hek
          obtain ⟨a, ha, rfl⟩ := List.mem_map.1 he
          exact hkey a ha k hek)
        (by intro k hk'; simp only [Cluster.find, hk'])
        (by funext id; simp only [Cluster.upload, if_pos hi])
      have hb : Cluster.base c ⟨upd x.parts i s', x.lin ++ (s'.lin.drop (x.parts i).lin.length).map (fun e => (i, e))⟩ = Cluster.base c x := by
        have hbs := base_step hst
        simp only [Cluster.base, GAbs.mk.injEq]
        constructor
        · funext k
          cases e : c.owner k with
          | none => rfl
          | some j =>
            simp only [upd]; split
            · rename_i e; subst e; rw [hbs]
            · rfl
        · funext j id
          simp only [upd]; split
          · split
            · rename_i e; subst e; rw [hbs]
            · rfl
          · rfl
      rw [hb, List.map_append]
      simp only [gRun, List.foldlM_append, Option.bind_eq_bind, Option.bind_eq_some_iff]
      refine ⟨_, ih, ?_⟩
      have e5 : List.map (fun e => (e.1, e.2.2)) (List.map (fun e => (i, e)) (s'.lin.drop (x.parts i).lin.length)) =
          (List.map (·.2) (s'.lin.drop (x.parts i).lin.length)).map (fun e => (i, e)) := by
        simp [List.map_map, Function.comp_def]
      rw [e5]
      refine Eq.trans e1 ?_
      congr 1
      have hv : g'.vis = Cluster.find c ⟨upd x.parts i s', x.lin ++ (s'.lin.drop (x.parts i).lin.length).map (fun e => (i, e))⟩ := by
        funext k
        by_cases ho : c.owner k = some i
        · rw [e2 k ho]; simp [Cluster.find, ho, upd]
        · rw [e3 k ho]
          simp only [Cluster.find]
          cases e : c.owner k with
          | none => rfl
          | some j =>
            simp only [upd]; rw [if_neg]; rintro rfl; exact ho e
      have ht : g'.tokens = Cluster.upload c ⟨upd x.parts i s', x.lin ++ (s'.lin.drop (x.parts i).lin.length).map (fun e => (i, e))⟩ := by
        rw [e4]; funext j id
        simp only [Cluster.upload, upd]
        by_cases ej : j = i
        · subst ej; simp [hi]
        · simp only [if_neg ej]; rfl
      cases g'
      simp only at hv ht
      rw [hv, ht]
  | @restart x parts order hx h ih =>
    simp only [List.map_nil, gRun, List.foldlM_nil]
    congr 1
    simp only [Cluster.base, GAbs.mk.injEq]
    constructor
    · funext k
      simp only [Cluster.find]
      cases e : c.owner k with
      | none => rfl
      | some i =>
        obtain ⟨a0, l, _, _, _, e⟩ := load_some (h i (owner_lt e)).2
        simp only [e]
    · funext i id
      simp only [Cluster.upload]
      split
      · rename_i hi
        obtain ⟨a0, l, _, _, _, e⟩ := load_some (h i hi).2
        simp only [e]
      · rfl

/-- `list_objects` (read at one moment) lists exactly what calls find: each visible object is listed, by one partition,
under its own key, and nothing else is listed. -/
theorem C58_list_partial {c : CCfg} (hc : COk c) {x : Cluster} (h : CReach c x) (hf : CFaultFree c x) (o : Obj) :
    ((∃ i k, x.lists c i k o) ↔ x.find c o.m.key = some o) ∧
    ∀ i k j k', x.lists c i k o → x.lists c j k' o → i = j ∧ k = k' := by
  have hone : ∀ i k, x.lists c i k o → c.owner k = some i ∧ o.m.key = k := by
    rintro i k ⟨hi, ho⟩
    exact ⟨com_owner hc h hf hi ho, (reach_id ((cinv h).reach i hi)).comKey k o ho⟩
  refine ⟨⟨?_, ?_⟩, ?_⟩
  · rintro ⟨i, k, hl⟩
    obtain ⟨h1, h2⟩ := hone i k hl
    simp only [Cluster.find, h2, h1]
    exact hl.2
  · intro hfo
    simp only [Cluster.find] at hfo
    split at hfo
    · rename_i i e; exact ⟨i, o.m.key, owner_lt e, hfo⟩
    · cases hfo
  · intro i k j k' h1 h2
    obtain ⟨a1, a2⟩ := hone i k h1
    obtain ⟨b1, b2⟩ := hone j k' h2
    have hkk : k = k' := a2.symm.trans b2
    subst hkk
    rw [a1] at b1
    exact ⟨by cases b1; rfl, rfl⟩

/-- A crash of the whole store when all calls were answered: every order of reading the tuples makes all partitions start,
and the store then shows what it showed, with the same uploads. -/
theorem C58_restart_partial {c : CCfg} (hc : COk c) {x : Cluster} (h : CReach c x) (hf : CFaultFree c x)
    (ho : ∀ i, i < c.n → Fault.overlap ∉ (x.parts i).faults) (hq : ∀ i, i < c.n → (x.parts i).threads = [])
    (order : Nat → List Tuple) (hp : ∀ i, i < c.n → (order i).Perm (diskTuples (c.part i).n (x.parts i).ts)) :
    ∃ parts, CReach c ⟨parts, []⟩ ∧ (∀ i, i < c.n → load (c.part i) (x.parts i) (order i) = some (parts i)) ∧
      Cluster.find c ⟨parts, []⟩ = x.find c ∧ Cluster.upload c ⟨parts, []⟩ = x.upload c := by
  have key : ∀ i, ∃ s' : DSt, i < c.n → load (c.part i) (x.parts i) (order i) = some s' ∧ s'.committed = (x.parts i).committed ∧
      s'.incomplete = (x.parts i).incomplete := by
    intro i
    by_cases hi : i < c.n
    · obtain ⟨s', h1, h2, h3, h4⟩ := C28_restart_partial (hc i hi) ((cinv h).reach i hi) (hf i hi) (ho i hi) (order i) (hp i hi)
      refine ⟨s', fun _ => ⟨h1, ?_, ?_⟩⟩
      · funext k
        rcases h2 k with h2 | ⟨th, hth, _⟩
        · exact h2
        · rw [hq i hi] at hth; simp at hth
      · funext id
        cases e : (x.parts i).incomplete id with
        | some o => exact h3 id o e
        | none =>
          cases e' : s'.incomplete id with
          | none => rfl
          | some o =>
            rcases h4 id o e' with h5 | ⟨th, hth, _⟩
            · rw [e] at h5; cases h5
            · rw [hq i hi] at hth; simp at hth
    · exact ⟨x.parts i, fun h => absurd h hi⟩
  obtain ⟨parts, hparts⟩ := Classical.axiomOfChoice key
  refine ⟨parts, .restart order h (fun i hi => ⟨hp i hi, (hparts i hi).1⟩), fun i hi => (hparts i hi).1, ?_, ?_⟩
  · funext k
    simp only [Cluster.find]
    cases e : c.owner k with
    | none => rfl
    | some i => simp only [(hparts i (owner_lt e)).2.1]
  · funext i id
    simp only [Cluster.upload]
    split
    · rename_i hi; simp only [(hparts i hi).2.2]
    · rfl

/-! ## Concrete executions -/

/-- one step of partition `i` -/
def cexec (c : CCfg) (x : Cluster) (i : Nat) (cmd : Cmd) : Option Cluster :=
  match cmd with
  | .restart _ => none
  | cmd =>
    match exec (c.part i) (x.parts i) cmd with
    | none => none
    | some s' =>
      if i < c.n ∧ ∀ k ∈ callKeys (x.parts i) s', c.owner k = some i then
        some ⟨upd x.parts i s', x.lin ++ (s'.lin.drop (x.parts i).lin.length).map (fun e => (i, e))⟩
      else none

theorem cexec_reach {c : CCfg} {x y : Cluster} {i : Nat} {cmd : Cmd} (hr : CReach c x) (h : cexec c x i cmd = some y) : CReach c y := by
  unfold cexec at h
  split at h
  · cases h
  · rename_i hn
    split at h
    · cases h
    · rename_i s' hs
      split at h
      · rename_i hb
        cases h
        exact .step hr (.part i s' hb.1 (exec_step hs hn) hb.2)
      · cases h

def crun (c : CCfg) (x : Cluster) (l : List (Nat × Cmd)) : Option Cluster := l.foldlM (fun x e => cexec c x e.1 e.2) x

theorem crun_reach {c : CCfg} {l : List (Nat × Cmd)} : ∀ {x y : Cluster}, CReach c x → crun c x l = some y → CReach c y := by
  induction l with
  | nil => intro x y hr h; cases h; exact hr
  | cons e l ih =>
    intro x y hr h
    simp only [crun, List.foldlM_cons, Option.bind_eq_bind, Option.bind_eq_some_iff] at h
    obtain ⟨x1, h1, h2⟩ := h
    exact ih (cexec_reach hr h1) h2

/-- two partitions; the hash of a key is its first byte -/
def wclu : CCfg := ⟨2, fun _ => wcfg, fun k => (k.headD 0).toNat⟩

def wcrun (l : List (Nat × Cmd)) : Option Cluster :=
  match fresh wcfg (fun _ => 0) with
  | none => none
  | some s => crun wclu ⟨fun _ => s, []⟩ l

theorem wcrun_reach {l : List (Nat × Cmd)} {x : Cluster} (h : wcrun l = some x) : CReach wclu x := by
  unfold wcrun at h
  split at h
  · cases h
  · rename_i s hs
    exact crun_reach (.fresh (fun i _ => ⟨_, hs⟩)) h

/-- Two objects in different partitions, created at the same time; the one in partition 0 is committed, the token of the
other one is open; nothing excluded happened and all calls are answered. -/
example : ∃ x, CReach wclu x ∧ COk wclu ∧ CFaultFree wclu x ∧ (∀ i, i < wclu.n → (x.parts i).threads = []) ∧
    (∀ i, i < wclu.n → Fault.overlap ∉ (x.parts i).faults) ∧
    (x.find wclu [2]).map (·.id) = some 9 ∧ (x.find wclu [1]) = none ∧ ((x.upload wclu 1 5).map (·.m.key)) = some [1] ∧
    x.lin.map (fun e => (e.1, e.2.1)) = [(1, 0), (0, 0), (0, 1), (0, 1)] := by
  have h : (wcrun ([(0, .createData [2] 10 7), (1, .createData [1] 20 7), (1, .createMeta 0 5), (0, .createMeta 0 5), (0, .metaWritten 0),
      (1, .metaWritten 0), (1, .createInsert 0), (0, .createInsert 0), (0, .snapshot), (1, .snapshot), (1, .page 0), (0, .page 0), (1, .signal),
      (1, .created 0), (0, .signal), (0, .created 0)] ++ (doCommit 5 9 0).map (fun cmd => (0, cmd)))).map (fun x =>
      decide ((x.parts 0).threads = [] ∧ (x.parts 1).threads = []) && (decide ((x.parts 0).faults = [] ∧ (x.parts 1).faults = []) &&
      (decide ((x.find wclu [2]).map (·.id) = some 9) && (decide ((x.find wclu [1]) = none) &&
      (decide ((x.upload wclu 1 5).map (·.m.key) = some [1]) && decide (x.lin.map (fun e => (e.1, e.2.1)) = [(1, 0), (0, 0), (0, 1), (0, 1)])))))) =
    some true := by decide +kernel
  obtain ⟨x, h1, h2⟩ := Option.map_eq_some_iff.1 h
  simp only [Bool.and_eq_true, decide_eq_true_eq] at h2
  obtain ⟨e1, e2, e3, e4, e5, e6⟩ := h2
  have two : ∀ i, i < wclu.n → i = 0 ∨ i = 1 := by intro i hi; have : i < 2 := hi; omega
  refine ⟨x, wcrun_reach h1, fun _ _ => wcfg_ok, ?_, ?_, ?_, e3, e4, e5, e6⟩
  · intro i hi; rcases two i hi with rfl | rfl <;> simp [PageFaultFree, e2]
  · intro i hi; rcases two i hi with rfl | rfl <;> simp [e1]
  · intro i hi; rcases two i hi with rfl | rfl <;> simp [e2]

/-- The partitions must stay what they are: a store with one partition and a committed object, restarted with a second
(freshly formatted) partition, still lists the object, but every call with its key misses it, if the key's hash is odd. -/
theorem C58_violated_by_added_partition : ∃ (s : DSt) (s1 : DSt) (order : List Tuple) (s0 : DSt), Reach wcfg s ∧ s.threads = [] ∧
    s.faults = [] ∧ order.Perm (diskTuples wcfg.n s.ts) ∧ load wcfg s order = some s0 ∧ fresh wcfg (fun _ => 0) = some s1 ∧
    ∀ hash : List Byte → Nat, hash [1] % 2 = 1 → ∃ o,
      Cluster.find ⟨1, fun _ => wcfg, hash⟩ ⟨fun _ => s, []⟩ [1] = some o ∧
      Cluster.lists ⟨2, fun _ => wcfg, hash⟩ ⟨fun i => if i = 0 then s0 else s1, []⟩ 0 [1] o ∧
      Cluster.find ⟨2, fun _ => wcfg, hash⟩ ⟨fun i => if i = 0 then s0 else s1, []⟩ [1] = none := by
  have h : (wrun (doCreate [1] 10 5 0 ++ doCommit 5 9 0)).map (fun s =>
      decide (s.threads = []) && (decide (s.faults = []) && (decide ((s.committed [1]).isSome) &&
       decide ((exec wcfg s (.restart false)).map (fun s' => s'.committed [1]) = some (s.committed [1]))))) = some true := by
    decide +kernel
  obtain ⟨s, h1, h2⟩ := Option.map_eq_some_iff.1 h
  simp only [Bool.and_eq_true, decide_eq_true_eq] at h2
  obtain ⟨e1, e2, e3, e6⟩ := h2
  obtain ⟨s0, e7, e8⟩ := Option.map_eq_some_iff.1 e6
  obtain ⟨order, e9, e10⟩ := exec_restart (wrun_reach h1) e7
  obtain ⟨o, ho⟩ := Option.isSome_iff_exists.1 e3
  have hfr : ∃ s1, fresh wcfg (fun _ => 0) = some s1 := by
    rw [← Option.isSome_iff_exists]; decide +kernel
  obtain ⟨s1, hs1⟩ := hfr
  refine ⟨s, s1, order, s0, wrun_reach h1, e1, e2, e9, e10, hs1, ?_⟩
  intro hash hh
  refine ⟨o, ?_, ⟨by simp, ?_⟩, ?_⟩
  · simp [Cluster.find, CCfg.owner, Regions.partitionIndex, Nat.mod_one, ho]
  · simp only [if_pos]; rw [e8]; exact ho
  · simp only [Cluster.find, CCfg.owner, Regions.partitionIndex, hh]
    simp only [fresh] at hs1
    split at hs1
    · cases hs1
    · cases hs1; simp

end Props
end Blobd
