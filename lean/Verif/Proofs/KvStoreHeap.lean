import Verif.Proofs.KvStoreInv
/-! # KV store: heap writes never touch anybody else's value -/
namespace Blobd
namespace Kv
open Spec KvAlloc

theorem covers_dec (w : Nat × List Byte) (x : Nat) : Covers w x ∨ (x < w.1 ∨ w.1 + w.2.length ≤ x) := by
  unfold Covers; omega

theorem write_covered_same (m m' : Mem) {w : Nat × List Byte} {x : Nat} (h : Covers w x) :
    m.write w.1 w.2 x = m'.write w.1 w.2 x := by
  rw [Mem.write_in h.1 h.2, Mem.write_in h.1 h.2]

theorem writeAll_same (m m' : Mem) (ws : List (Nat × List Byte)) (x : Nat)
    (h : m x = m' x ∨ ∃ w ∈ ws, Covers w x) : m.writeAll ws x = m'.writeAll ws x := by
  induction ws generalizing m m' with
  | nil =>
    rcases h with h | ⟨w, hw, _⟩
    · exact h
    · cases hw
  | cons w ws ih =>
    rw [Mem.writeAll_cons, Mem.writeAll_cons]
    apply ih
    rcases covers_dec w x with hc | hc
    · exact .inl (write_covered_same m m' hc)
    · rw [Mem.write_out hc, Mem.write_out hc]
      rcases h with h | ⟨w', hw', h⟩
      · exact .inl h
      · rcases List.mem_cons.1 hw' with rfl | hw'
        · unfold Covers at h; omega
        · exact .inr ⟨w', hw', h⟩

/-- doing one of several disjoint writes first changes nothing -/
theorem writeAll_first (m : Mem) (pre : List (Nat × List Byte)) (w : Nat × List Byte) (post : List (Nat × List Byte))
    (hp : (pre ++ w :: post).Pairwise (fun a b => ∀ x, ¬ (Covers a x ∧ Covers b x))) :
    (m.write w.1 w.2).writeAll (pre ++ post) = m.writeAll (pre ++ w :: post) := by
  funext x
  rw [Mem.writeAll_append, Mem.writeAll_append, Mem.writeAll_cons]
  apply writeAll_same
  left
  rw [List.pairwise_append] at hp
  rcases covers_dec w x with hc | hc
  · have hn : ∀ u ∈ pre, x < u.1 ∨ u.1 + u.2.length ≤ x := by
      intro u hu
      rcases covers_dec u x with h1 | h1
      · exact absurd ⟨h1, hc⟩ (hp.2.2 u hu w (by simp) x)
      · exact h1
    rw [Mem.writeAll_out hn]
    exact write_covered_same _ _ hc
  · rw [Mem.write_out hc]
    exact writeAll_same _ _ _ _ (.inl (Mem.write_out hc))

theorem inRegion_of_read {pages : Pages} {n o x : Nat} (h1 : o ≤ x) (h2 : x < o + n) :
    InRegion pages (o, n) x := by
  refine ⟨h1, ?_⟩
  have := le_ceilPow2 n pages.spage
  simp only [regionEnd]; omega

theorem valueOf_congr {pages : Pages} {m m' : Mem} {d : Data}
    (h : ∀ r ∈ dataRegs d, ∀ x, InRegion pages r x → m' x = m x) : valueOf m' d = valueOf m d := by
  cases d with
  | inline d => rfl
  | heap n o =>
    simp only [valueOf]
    exact read_congr fun x h1 h2 => h (o, n) (by simp [dataRegs]) x (inRegion_of_read h1 h2)

theorem optValue_congr {pages : Pages} {m m' : Mem} {d : Option Data}
    (h : ∀ r ∈ optRegs d, ∀ x, InRegion pages r x → m' x = m x) : d.map (valueOf m') = d.map (valueOf m) := by
  cases d with
  | none => rfl
  | some d => simp only [Option.map_some]; rw [valueOf_congr h]

theorem mem_taskRegs {ts : List Task} {t : Task} (h : t ∈ ts) {r : Nat × Nat} (hr : r ∈ optRegs t.op) :
    r ∈ taskRegs ts := List.mem_flatMap.2 ⟨t, h, hr⟩

theorem mem_entRegs {es : List (Key × Option Data)} {e : Key × Option Data} (h : e ∈ es) {r : Nat × Nat}
    (hr : r ∈ optRegs e.2) : r ∈ entRegs es := List.mem_flatMap.2 ⟨e, h, hr⟩

theorem mem_mapRegs {m : List (Key × Data)} {t : Key × Data} (h : t ∈ m) {r : Nat × Nat}
    (hr : r ∈ dataRegs t.2) : r ∈ mapRegs m := List.mem_flatMap.2 ⟨t, h, hr⟩

theorem mem_effRegs {c : StoreCfg} {pages : Nat → List Byte} {cm : Option Commit} {i : Nat}
    (hi : i < c.bundleCount) {r : Nat × Nat} (hr : r ∈ mapRegs (eff pages cm i)) : r ∈ effRegs c pages cm :=
  List.mem_flatMap.2 ⟨i, by simpa using hi, hr⟩

theorem mem_optRegs {d : Option Data} {r : Nat × Nat} (h : r ∈ optRegs d) : d = some (.heap r.2 r.1) := by
  cases d with
  | none => cases h
  | some d =>
    cases d with
    | inline d => cases h
    | heap n o => simp [optRegs, dataRegs] at h; subst h; rfl

theorem mem_dataRegs {d : Data} {r : Nat × Nat} (h : r ∈ dataRegs d) : d = .heap r.2 r.1 := by
  cases d with
  | inline d => cases h
  | heap n o => simp [dataRegs] at h; subst h; rfl

/-- where the regions of the committing tasks are -/
theorem clRegs {c : StoreCfg} (hc : c.Ok) {heap : Mem} {pages : Nat → List Byte} {cm : Option Commit}
    {base cl ul : List Task} (hv : ValPart c heap pages cm base cl ul) {t : Task} (ht : t ∈ surv cl)
    {r : Nat × Nat} (hr : r ∈ optRegs t.op) :
    r ∈ earlyRegs cm cl ∨ r ∈ entRegs (rem cm) ∨ r ∈ effRegs c pages cm := by
  have ho := mem_optRegs hr
  by_cases he : isEarly cm = true
  · left; unfold earlyRegs; rw [if_pos he]; exact mem_taskRegs ht hr
  · right
    have he : isEarly cm = false := by simpa using he
    by_cases hk : t.key ∈ (rem cm).map (·.1)
    · left
      obtain ⟨e, hem, hek⟩ := List.mem_map.1 hk
      have := hv.remHeap e hem t (by rw [hek]; exact mem_surv.1 ht) _ _ ho
      exact mem_entRegs hem (by rw [this]; exact hr)
    · right
      have := hv.doneHeap he t ht _ _ ho hk
      exact mem_effRegs (bundleOf_lt hc _) (mem_mapRegs this (by simp [dataRegs]))

/-- bytes that heap writes in flight may change -/
structure Avoid (c : StoreCfg) (pipe : List Task) (pages : Nat → List Byte) (cm : Option Commit) (cl : List Task)
    (x : Nat) : Prop where
  pipe : ∀ r ∈ taskRegs pipe, ¬ InRegion c.heap.pages r x
  eff : ∀ r ∈ effRegs c pages cm, ¬ InRegion c.heap.pages r x
  cl : ∀ t ∈ surv cl, ∀ r ∈ optRegs t.op, ¬ InRegion c.heap.pages r x
  rem : ∀ r ∈ entRegs (rem cm), InRegion c.heap.pages r x → ∃ w ∈ wrt cm, Covers w x

theorem prep_covers {pages : Pages} {p : Prep} (hp : PrepOk pages p) {x : Nat} (h : Covers p.write x) :
    ∃ r ∈ optRegs p.task.op, InRegion pages r x := by
  obtain ⟨n, v, e1, _, _, e4, _⟩ := hp.ex
  refine ⟨(p.write.1, n), by rw [e1]; simp [optRegs, dataRegs], ?_⟩
  unfold Covers at h
  rw [e4] at h
  exact h

theorem target_avoid {c : StoreCfg} (hc : c.Ok) {s : St} (h : Inv c s) {x : Nat} (ht : HeapTarget s x) :
    Avoid c (pipe s.ready s.queue s.pending s.log.inflight s.inserting s.ul) s.pages s.commit s.cl x := by
  obtain ⟨rest, ha⟩ := h.alloc
  obtain ⟨_, d1, x1⟩ := pw_app ha.disj
  obtain ⟨_, d2, x2⟩ := pw_app d1
  obtain ⟨_, d3, x3⟩ := pw_app d2
  obtain ⟨_, d4, x4⟩ := pw_app d3
  rcases ht with ⟨p, hp, hcov⟩ | ⟨u, ws, gs, hcm, w, hw, hcov⟩
  · obtain ⟨r0, hr0, hin⟩ := prep_covers (h.preps p hp) hcov
    have hm : r0 ∈ taskRegs (s.preps.map (·.task)) := mem_taskRegs (List.mem_map.2 ⟨p, hp, rfl⟩) hr0
    have key : ∀ r, r ∈ taskRegs (pipe s.ready s.queue s.pending s.log.inflight s.inserting s.ul) ∨
        r ∈ earlyRegs s.commit s.cl ∨ r ∈ entRegs (rem s.commit) ∨ r ∈ effRegs c s.pages s.commit →
        ¬ InRegion c.heap.pages r x := by
      intro r hr hin'
      refine x1 r0 hm r ?_ x ⟨hin, hin'⟩
      simp only [List.mem_append]
      rcases hr with h | h | h | h <;> simp [h]
    refine ⟨fun r hr => key r (.inl hr), fun r hr => key r (.inr (.inr (.inr hr))), ?_,
      fun r hr hin' => absurd hin' (key r (.inr (.inr (.inl hr))))⟩
    intro t ht r hr
    exact key r (.inr (clRegs hc h.vals ht hr))
  · have hwrt : wrt s.commit = ws := by rw [hcm]; rfl
    rw [← hwrt] at hw
    obtain ⟨r0, hr0, hin⟩ := h.ws.inside w hw
    refine ⟨?_, ?_, fun t ht r hr => h.ws.apart w hw t ht r hr x hcov, fun r _ _ => ⟨w, hw, hcov⟩⟩
    · intro r hr hin'
      exact x2 r hr r0 (by simp [hr0]) x ⟨hin', hin x hcov⟩
    · intro r hr hin'
      exact x4 r0 hr0 r (by simp [hr]) x ⟨hin x hcov, hin'⟩

theorem pipe_stable {c : StoreCfg} {heap heap' : Mem} {pipe : List Task} (hp : PipePart heap pipe)
    (h : ∀ r ∈ taskRegs pipe, ∀ x, InRegion c.heap.pages r x → heap' x = heap x) : PipePart heap' pipe := by
  refine ⟨hp.good, fun t ht => ?_⟩
  unfold TaskVal
  rw [optValue_congr (pages := c.heap.pages) fun r hr x hx => h r (mem_taskRegs ht hr) x hx]
  exact hp.val t ht

theorem vals_stable {c : StoreCfg} (hc : c.Ok) {heap heap' : Mem} {pages : Nat → List Byte} {cm : Option Commit}
    {base cl ul : List Task} (hv : ValPart c heap pages cm base cl ul)
    (h1 : ∀ r ∈ effRegs c pages cm, ∀ x, InRegion c.heap.pages r x → heap' x = heap x)
    (h2 : ∀ t ∈ surv cl, ∀ r ∈ optRegs t.op, ∀ x, InRegion c.heap.pages r x → heap' x = heap x)
    (h3 : ∀ r ∈ entRegs (rem cm), ∀ x, InRegion c.heap.pages r x → heap' x = heap x ∨ ∃ w ∈ wrt cm, Covers w x) :
    ValPart c heap' pages cm base cl ul := by
  refine ⟨hv.good, ?_, hv.remHeap, hv.doneHeap, ?_, ?_⟩
  · intro t ht
    unfold TaskVal
    rw [optValue_congr (pages := c.heap.pages) fun r hr x hx => h2 t ht r hr x hx]
    exact hv.cls t ht
  · intro e he
    obtain ⟨t, e1, e2⟩ := hv.ents e he
    refine ⟨t, e1, ?_⟩
    rw [← e2]
    refine optValue_congr (pages := c.heap.pages) fun r hr x hx => ?_
    exact writeAll_same _ _ _ _ (h3 r (mem_entRegs he hr) x hx)
  · intro k hk
    rw [← hv.tup k hk]
    cases ht : tget (eff pages cm (bundleOf c k)) k with
    | none => rfl
    | some d =>
      simp only [Option.map_some]
      rw [valueOf_congr (pages := c.heap.pages) fun r hr x hx => h1 r ?_ x hx]
      exact mem_effRegs (bundleOf_lt hc k) (mem_mapRegs (tget_mem ht) hr)

/-- whatever the heap writes in flight do, all values stay -/
theorem heap_stable {c : StoreCfg} (hc : c.Ok) {s : St} (h : Inv c s) {heap' : Mem}
    (hch : ∀ x, heap' x ≠ s.heap x → HeapTarget s x) :
    PipePart heap' (pipe s.ready s.queue s.pending s.log.inflight s.inserting s.ul) ∧
    ValPart c heap' s.pages s.commit s.base s.cl s.ul := by
  have key : ∀ x, heap' x = s.heap x ∨
      Avoid c (pipe s.ready s.queue s.pending s.log.inflight s.inserting s.ul) s.pages s.commit s.cl x := by
    intro x
    by_cases hx : heap' x = s.heap x
    · exact .inl hx
    · exact .inr (target_avoid hc h (hch x hx))
  refine ⟨pipe_stable (c := c) h.pipe ?_, vals_stable hc h.vals ?_ ?_ ?_⟩
  · intro r hr x hx
    rcases key x with h | h
    · exact h
    · exact absurd hx (h.pipe r hr)
  · intro r hr x hx
    rcases key x with h | h
    · exact h
    · exact absurd hx (h.eff r hr)
  · intro t ht r hr x hx
    rcases key x with h | h
    · exact h
    · exact absurd hx (h.cl t ht r hr)
  · intro r hr x hx
    rcases key x with h | h
    · exact .inl h
    · exact .inr (h.rem r hr hx)

end Kv
end Blobd
