import Verif.Proofs.DirectRun
/-!
# C27 The direct store as a map, under all interleavings

`Reach c s`: `s` occurs in some execution of a partition from a formatted device, with any interleaving of
calls, device writes and background commits and any number of crashes and restarts. `s.lin` lists what
happened since the last start, in the order in which it took effect, each with the number of the call that did
it; `s.acks` lists the calls that were answered, with the stretch of `s.lin` that passed while they ran.
-/
namespace Blobd
namespace Props
open Direct

/-- The store is linearizable: what happened since the last start is a run of the abstract store (a map from
keys to visible objects and a set of tokens of incomplete objects) ending in the present state, and each answer
is the one for what its own call did while it ran. -/
theorem C27_linearizable {c : SCfg} {s : DSt} (h : Reach c s) :
    absRun ⟨s.base.1, s.base.2⟩ (s.lin.map (·.2)) = some ⟨s.committed, s.incomplete⟩ ∧
    ∀ a ∈ s.acks, a.stop ≤ s.lin.length ∧ Explained s.lin a :=
  ⟨(reach_lin h).abs, (reach_lin h).acks⟩

theorem absStep_vis {a b : Abs} {e : Ev} (h : absStep a e = some b) : b.vis = visMap a.vis [e] := by
  cases e <;> simp only [absStep] at h <;> simp only [visMap, List.foldl_cons, List.foldl_nil]
  all_goals
    repeat' split at h
    all_goals first
      | (cases h; rfl)
      | cases h

theorem visMap_append (v : List Byte → Option Obj) (l r : List Ev) : visMap v (l ++ r) = visMap (visMap v l) r := by
  simp [visMap, List.foldl_append]

theorem absRun_vis {l : List Ev} : ∀ {a b : Abs}, absRun a l = some b → b.vis = visMap a.vis l := by
  induction l with
  | nil => intro a b h; cases h; rfl
  | cons e l ih =>
    intro a b h
    simp only [absRun, List.foldlM_cons, Option.bind_eq_bind, Option.bind_eq_some_iff] at h
    obtain ⟨a1, h1, h2⟩ := h
    rw [ih h2, absStep_vis h1, ← visMap_append]
    rfl

theorem absRun_split {l r : List Ev} {a b : Abs} (h : absRun a (l ++ r) = some b) :
    ∃ m, absRun a l = some m ∧ absRun m r = some b := by
  simpa [absRun, List.foldlM_append, Option.bind_eq_some_iff] using h

theorem visMap_no {v : List Byte → Option Obj} {l : List Ev} {k : List Byte} : (∀ e ∈ l, ¬ e.touches k) → visMap v l k = v k := by
  induction l generalizing v with
  | nil => intro _; rfl
  | cons e l ih =>
    intro h
    have h1 : visMap v (e :: l) k = visMap (visMap v [e]) l k := by rw [← visMap_append]; rfl
    rw [h1, ih (fun x hx => h x (by simp [hx]))]
    have h2 := h e (by simp)
    cases e <;> simp only [visMap, List.foldl_cons, List.foldl_nil]
    · simp only [Ev.touches] at h2
      simp only [updKey, if_neg (fun hc => h2 (Eq.symm hc))]
    · simp only [Ev.touches] at h2
      simp only [updKey, if_neg (fun hc => h2 (Eq.symm hc))]

/-- What is visible under a key is decided by the last event that concerned that key: the object is visible
exactly from the moment its commit took effect until a later commit of that key or a delete took effect. -/
theorem C27_visible_iff {c : SCfg} {s : DSt} (h : Reach c s) (k : List Byte) (o : Obj) :
    s.committed k = some o ↔
      (∃ pre call old ifne post, s.lin = pre ++ (call, .published old o.id o.m ifne) :: post ∧ o.m.key = k ∧
        ∀ e ∈ post, ¬ e.2.touches k) ∨
      (s.base.1 k = some o ∧ ∀ e ∈ s.lin, ¬ e.2.touches k) := by
  have hv : s.committed = visMap s.base.1 (s.lin.map (·.2)) := absRun_vis (reach_lin h).abs
  rw [hv]
  generalize s.lin = l
  induction l using List.reverseRecOn with
  | nil => simp [visMap]
  | append_singleton l e ih =>
    rw [List.map_append, visMap_append]
    by_cases ht : e.2.touches k
    · constructor
      · intro hs
        obtain ⟨call, ev⟩ := e
        cases ev <;> simp only [Ev.touches] at ht
        · rename_i old id m ifne
          subst ht
          simp only [List.map_cons, List.map_nil, visMap, List.foldl_cons, List.foldl_nil, updKey, if_pos] at hs
          cases hs
          exact Or.inl ⟨l, call, old, ifne, [], rfl, rfl, by simp⟩
        · subst ht
          simp only [List.map_cons, List.map_nil, visMap, List.foldl_cons, List.foldl_nil, updKey, if_pos] at hs
          cases hs
      · rintro (⟨pre, call, old, ifne, post, he, hk, hp⟩ | ⟨_, hp⟩)
        · rcases List.eq_nil_or_concat post with rfl | ⟨post, x, rfl⟩
          · obtain ⟨rfl, h2⟩ := List.append_inj' he rfl
            cases h2
            simp [visMap, updKey, hk]
          · exfalso
            simp only [List.concat_eq_append] at he hp
            have : e = x := by
              have h1 := congrArg List.getLast? he
              simpa [List.getLast?_append, List.getLast?_cons] using h1
            exact hp x (by simp) (this ▸ ht)
        · exact absurd ht (hp e (by simp))
    · have hno : ∀ v, visMap v (List.map (·.2) [e]) k = v k := fun v => visMap_no (by simpa using ht)
      rw [hno]
      refine Iff.trans ih ?_
      constructor
      · rintro (⟨pre, call, old, ifne, post, rfl, hk, hp⟩ | ⟨h1, hp⟩)
        · refine Or.inl ⟨pre, call, old, ifne, post ++ [e], by simp, hk, ?_⟩
          intro x hx
          rcases List.mem_append.1 hx with hx | hx
          · exact hp x hx
          · cases List.mem_singleton.1 hx; exact ht
        · refine Or.inr ⟨h1, ?_⟩
          intro x hx
          rcases List.mem_append.1 hx with hx | hx
          · exact hp x hx
          · cases List.mem_singleton.1 hx; exact ht
      · rintro (⟨pre, call, old, ifne, post, he, hk, hp⟩ | ⟨h1, hp⟩)
        · rcases List.eq_nil_or_concat post with rfl | ⟨post, x, rfl⟩
          · exfalso
            obtain ⟨_, h2⟩ := List.append_inj' he rfl
            cases h2
            exact ht hk
          · simp only [List.concat_eq_append] at he hp
            rw [← List.cons_append, ← List.append_assoc] at he
            obtain ⟨rfl, _⟩ := List.append_inj' he rfl
            exact Or.inl ⟨pre, call, old, ifne, post, rfl, hk, fun y hy => hp y (by simp [hy])⟩
        · exact Or.inr ⟨h1, fun y hy => hp y (by simp [hy])⟩

/-- `if_not_exists`: such a commit makes its object visible only if nothing was visible under the key at that
moment, and it is turned down (`kept`) only if something was. Any other commit always takes effect. -/
theorem C27_if_not_exists {c : SCfg} {s : DSt} (h : Reach c s) {pre post : List (Nat × Ev)} {call old id : Nat} {m : Meta} :
    (s.lin = pre ++ (call, .published old id m true) :: post → visMap s.base.1 (pre.map (·.2)) m.key = none) ∧
    (s.lin = pre ++ (call, .kept id m) :: post → visMap s.base.1 (pre.map (·.2)) m.key ≠ none) := by
  have ha := (reach_lin h).abs
  constructor
  · intro he
    rw [he, List.map_append] at ha
    obtain ⟨x, h1, h2⟩ := absRun_split ha
    rw [show visMap s.base.1 (pre.map (·.2)) = x.vis from (absRun_vis h1).symm]
    simp only [List.map_cons, absRun, List.foldlM_cons, Option.bind_eq_bind, Option.bind_eq_some_iff, absStep] at h2
    obtain ⟨y, h2, _⟩ := h2
    by_contra hn
    rw [if_pos ⟨trivial, hn⟩] at h2
    cases h2
  · intro he
    rw [he, List.map_append] at ha
    obtain ⟨x, h1, h2⟩ := absRun_split ha
    rw [show visMap s.base.1 (pre.map (·.2)) = x.vis from (absRun_vis h1).symm]
    simp only [List.map_cons, absRun, List.foldlM_cons, Option.bind_eq_bind, Option.bind_eq_some_iff, absStep] at h2
    obtain ⟨y, h2, _⟩ := h2
    by_contra hn
    rw [if_neg (by simp [hn])] at h2
    cases h2

/-- A call that inspects or deletes sees exactly what is visible at one moment while it runs. -/
theorem C27_lookups {c : SCfg} {s : DSt} (h : Reach c s) {pre post : List (Nat × Ev)} {call : Nat} {k : List Byte}
    {want : Option Nat} {id : Nat} {m : Meta} :
    (s.lin = pre ++ (call, .found k want id m) :: post → visMap s.base.1 (pre.map (·.2)) k = some ⟨id, m⟩ ∧ (∀ v, want = some v → v = id)) ∧
    (s.lin = pre ++ (call, .removed k want id) :: post →
      ∃ m, visMap s.base.1 (pre.map (·.2)) k = some ⟨id, m⟩ ∧ ∀ v, want = some v → v = id) ∧
    (s.lin = pre ++ (call, .missing k want) :: post →
      ∀ o, visMap s.base.1 (pre.map (·.2)) k = some o → ∃ v, want = some v ∧ v ≠ o.id) := by
  have ha := (reach_lin h).abs
  refine ⟨?_, ?_, ?_⟩ <;> intro he <;> rw [he, List.map_append] at ha <;> obtain ⟨x, h1, h2⟩ := absRun_split ha <;>
    rw [show visMap s.base.1 (pre.map (·.2)) = x.vis from (absRun_vis h1).symm] <;>
    simp only [List.map_cons, absRun, List.foldlM_cons, Option.bind_eq_bind, Option.bind_eq_some_iff, absStep] at h2 <;>
    obtain ⟨y, h2, _⟩ := h2
  · split at h2 <;> [rename_i o ho; cases h2]
    split at h2 <;> [rename_i hw; cases h2]
    obtain ⟨hw, rfl⟩ := hw
    refine ⟨ho, ?_⟩
    rintro v rfl
    simpa [wants] using hw
  · split at h2 <;> [rename_i o ho; cases h2]
    split at h2 <;> [rename_i hw; cases h2]
    obtain ⟨hw, rfl⟩ := hw
    refine ⟨o.m, ho, ?_⟩
    rintro v rfl
    simpa [wants] using hw
  · intro o ho
    rw [ho] at h2
    simp only at h2
    split at h2 <;> [cases h2; rename_i hw]
    cases hwt : want with
    | none => simp [wants, hwt] at hw
    | some v =>
      refine ⟨v, rfl, ?_⟩
      rintro rfl
      simp [wants, hwt] at hw

/-- No two creates and commits ever hand out the same id, and none hands out the id of an object or token that
was there at the last start. -/
theorem C27_ids_fresh {c : SCfg} {s : DSt} (h : Reach c s) :
    (s.lin.flatMap (fun e => e.2.newId)).Nodup ∧
    (∀ k o, s.base.1 k = some o → o.id ∉ s.lin.flatMap (fun e => e.2.newId)) ∧
    (∀ id o, s.base.2 id = some o → id ∉ s.lin.flatMap (fun e => e.2.newId)) := by
  have hf := reach_fresh h
  exact ⟨(List.nodup_append.1 hf.nodup).1, fun k o ho hc => (hf.bcom k o ho).2 (List.mem_append_left _ hc),
    fun id o ho hc => (hf.btok id o ho).2 (List.mem_append_left _ hc)⟩

/-- A visible object is stored under its own key, and no two keys show the same object. -/
theorem C27_own_key {c : SCfg} {s : DSt} (h : Reach c s) {k k' : List Byte} {o o' : Obj} (hk : s.committed k = some o)
    (hk' : s.committed k' = some o') : o.m.key = k ∧ (o.id = o'.id → k = k') :=
  ⟨(reach_id h).comKey k o hk, fun he => (reach_h h).comInj k o k' o' hk hk' he⟩

/-- Two creates and commits of one key overlap with each other, an inspect and a delete; the answers. -/
example : (wrun ([.createData [1] 10 7, .createData [1] 20 8, .createMeta 0 5, .createMeta 1 6, .metaWritten 1, .metaWritten 0,
      .createInsert 0, .createInsert 1, .snapshot, .page 0, .signal, .created 1, .created 0, .commitClaim 5 false,
      .commitClaim 6 true, .commitSeal 0, .commitPublish 0 9, .look [1] none, .commitSeal 1, .commitKept 1, .commitUpdate 0,
      .snapshot, .page 0, .signal, .commitFinish 0, .delete [1] (some 9), .look [1] none, .reapTuple 0, .reapTuple 1,
      .snapshot, .page 0, .signal, .reaped 0, .reaped 0])).map
    (fun s => (s.acks.map (fun a => (a.call, a.resp)), s.committed [1], s.faults)) =
    some ([(1, .created 6), (0, .created 5), (4, .inspected 9 ⟨10, 7, [1], [], [1024]⟩), (2, .committed (some 9)),
      (6, .notFound), (3, .committed none), (5, .deleted)], none, []) := by decide +kernel

end Props
end Blobd
