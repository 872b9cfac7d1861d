import Verif.Proofs.LiteSpace
import Verif.Proofs.LiteRun
import Verif.Props.DirectSpace
import Verif.Props.LiteStore
set_option autoImplicit false
/-!
# C67: lite: free space

`Reach` is every execution from a formatted device, `SeqReach` those with one call at a time; `CreateFailed s` says some
`create_object` call has found no room for one of its pages (and panicked).
-/
namespace Blobd
namespace Props
open Lite

theorem pow2_request {pages : Pages} {p : Nat} (h : pages.spage ≤ p) : Buddy.requestPow2 pages (2 ^ p) = p := by
  unfold Buddy.requestPow2
  have h4 : nextPow2Exp (2 ^ p) = p := by
    refine Nat.le_antisymm (nextPow2Exp_le (Nat.le_refl _)) ?_
    exact (Nat.pow_le_pow_iff_right (by decide)).1 (le_nextPow2 (2 ^ p))
  rw [h4]
  exact Nat.max_eq_right h

/-- In every state, with any number of calls running, a page of any size can be allocated if and only if the heap has an
aligned place for it that touches no page of a listed object, of an object being created, or of an object a running call
has unlinked and not released yet. -/
theorem C67_no_hidden_use_partial {c : LCfg} (hc : c.Ok) {s : LSt} (h : Reach c s) (hf : s.faults = []) (hn : ¬ CreateFailed s)
    {p : Nat} (h1 : c.pages.spage ≤ p) (h2 : p ≤ c.pages.lpage) :
    (∃ off a', s.alloc.allocate (2 ^ p) = (.ok off, a')) ↔
      ∃ off, Spec.PageIn c.heap.base c.heap.heap (off, p) ∧ ∀ q, UsedPage c s q → Spec.PageDisj (off, p) q := by
  obtain ⟨base, v, leak, hi, hl⟩ := reach_leak hc h hf
  have hl := hl.resolve_right hn
  subst hl
  have hh : Buddy.Inv c.heap s.alloc (v.recs.flatMap (fun x => regs c.pages x.2)) := by
    have := hi.heap
    unfold Heap at this
    rwa [List.append_nil] at this
  have e : Buddy.requestPow2 c.heap.pages (2 ^ p) = p := pow2_request h1
  have := inv_room hh (2 ^ p) (by rw [e]; exact h2)
  rw [e] at this
  rw [this]
  constructor
  · rintro ⟨off, x1, x2⟩
    exact ⟨off, x1, fun q hq => x2 q ((used_iff hc hi q).1 hq)⟩
  · rintro ⟨off, x1, x2⟩
    exact ⟨off, x1, fun q hq => x2 q ((used_iff hc hi q).2 hq)⟩

theorem lite_new {c : LCfg} {s : LSt} (h : Reach c s) :
    ∃ b0, Buddy.new c.heap.pageNumBits c.heap.base c.heap.heap c.heap.pages c.heap.dir = some b0 := by
  induction h with
  | fresh h =>
    unfold fresh at h
    split at h
    · exact ⟨_, by assumption⟩
    · cases h
  | step _ _ ih => exact ih

theorem inv_bytes {c : Spec.HeapCfg} (hsl : c.pages.spage ≤ c.pages.lpage) {b b0 : Buddy} {live : List (Nat × Nat)} (h3 : Buddy.Inv c b live)
    (h0 : Buddy.new c.pageNumBits c.base c.heap c.pages c.dir = some b0) : Spec.freeBytes b + Spec.liveBytes live = c.heap := by
  obtain ⟨b', hb⟩ := inv_reach h0 h3.pgs h3.disj
  have h5 := Buddy.reach_bytes hsl hb
  have h6 := Buddy.reach_inv hb
  rw [← h5]
  congr 1
  unfold Spec.freeBytes Spec.freeBytesOf
  rw [h3.hpages, h6.hpages]
  refine Finset.sum_congr rfl ?_
  intro p hp
  rw [Finset.mem_Icc] at hp
  rw [Buddy.canon_unique h3.canon h6.canon hp.1 hp.2]

/-- Whenever no call is running, exactly the pages of the listed objects are taken: replaced and deleted versions, and all
earlier calls, hold no space. -/
theorem C67_space_exact_partial {c : LCfg} (hc : c.Ok) {s : LSt} (h : Reach c s) (hf : s.faults = []) (hn : ¬ CreateFailed s)
    (hq : Idle s) : SpaceExact c s := by
  obtain ⟨base, v, leak, hi, hl⟩ := reach_leak hc h hf
  have hl := hl.resolve_right hn
  subst hl
  have hh : Buddy.Inv c.heap s.alloc (v.recs.flatMap (fun x => regs c.pages x.2)) := by
    have := hi.heap
    unfold Heap at this
    rwa [List.append_nil] at this
  obtain ⟨offs, o1, o2, o3⟩ := idle_recs hc hi hq
  obtain ⟨b0, h0⟩ := lite_new h
  refine ⟨offs, o1, o2, ?_, ?_⟩
  · intro p h1 h2
    have e : Buddy.requestPow2 c.heap.pages (2 ^ p) = p := pow2_request h1
    have := inv_room hh (2 ^ p) (by rw [e]; exact h2)
    rw [e] at this
    rw [o3]
    exact this
  · rw [o3]
    exact inv_bytes hc.sl hh h0

/-- For calls one at a time there are no faults to exclude. -/
theorem C67_sequential_partial {c : LCfg} (hc : c.Ok) {s : LSt} (h : SeqReach c s) (hn : ¬ CreateFailed s) (hq : Idle s) :
    SpaceExact c s :=
  C67_space_exact_partial hc h.reach (seq_faults hc h).2 hn hq

/-- If moreover no key has any version left, the free-space map is that of a freshly formatted device. -/
theorem C67_empty_store_partial {c : LCfg} (hc : c.Ok) {s : LSt} (h : Reach c s) (hf : s.faults = []) (hn : ¬ CreateFailed s)
    (hq : Idle s) (he : absRun c.versioning (s.lin.map (·.2)) = some (fun _ => [])) {dev : Mem} {s0 : LSt}
    (h0 : fresh c dev = some s0) : Spec.SameFree s.alloc s0.alloc := by
  obtain ⟨base, v, leak, hi, hl⟩ := reach_leak hc h hf
  have hl := hl.resolve_right hn
  subst hl
  have hnil : v.recs = [] := by
    rw [List.eq_nil_iff_forall_not_mem]
    rintro ⟨w, r⟩ hx
    rcases hi.own _ hx with h1 | ⟨j, t, h1, h2⟩
    · simp only at h1
      subst h1
      have hm := (hi.good.lnk r).1 hx
      have : ver v.L r ∈ absOf c v r.o.key := mem_abs hc hi hm
      rw [hi.abs, Option.some.injEq] at he
      rw [he] at this
      cases this
    · rw [hq j t h1] at h2
      exact h2.elim
  have hh : Buddy.Inv c.heap s.alloc [] := by
    have := hi.heap
    unfold Heap at this
    rwa [hnil] at this
  unfold fresh at h0
  split at h0
  · rename_i a0 ha
    cases h0
    have i2 := Buddy.new_inv ha
    intro p hs' hl'
    rw [hh.hpages] at hs' hl'
    exact Buddy.canon_unique hh.canon i2.canon hs' hl'
  · cases h0

theorem incomplete_step {vs : Bool} {a a' : Abs} {e : Ev} (h : absStep vs a e = some a') {k : List Byte} {x : Ver} (hx : x ∈ a k)
    (hinc : x.committed = false) (hinj : ∀ y ∈ a k, ∀ z ∈ a k, y.id = z.id → y = z) (hne : ∀ k', e ≠ .committed k' x.id) : x ∈ a' k := by
  cases e with
  | created k' id size =>
    simp only [absStep, Option.some.injEq] at h
    subst h
    simp only [Abs.set]
    split
    · rename_i e; subst e; exact List.mem_cons_of_mem _ hx
    · exact hx
  | committed k' id =>
    simp only [absStep] at h
    split at h
    · simp only [Option.some.injEq] at h
      subst h
      simp only [Abs.set]
      split
      · rename_i e
        subst e
        refine List.mem_map.2 ⟨x, List.mem_filter.2 ⟨hx, by simp [hinc]⟩, ?_⟩
        rw [if_neg]
        intro e
        exact hne k (by rw [e])
      · exact hx
    · cases h
  | removed k' want id =>
    simp only [absStep] at h
    split at h
    · rename_i y hy
      split at h
      · rename_i hid
        simp only [Option.some.injEq] at h
        subst h
        simp only [Abs.set]
        split
        · rename_i e
          subst e
          refine List.mem_filter.2 ⟨hx, ?_⟩
          have hm := List.mem_of_find?_eq_some hy
          have hp := List.find?_some hy
          simp only [Bool.and_eq_true] at hp
          have : x.id ≠ id := by
            intro e
            have := hinj x hx y hm (e.trans hid.symm)
            rw [this, hp.1] at hinc
            cases hinc
          simpa using this
        · exact hx
      · cases h
    · cases h
  | found k' want id size =>
    simp only [absStep] at h
    split at h
    · split at h
      · cases h; exact hx
      · cases h
    · cases h
  | missing k' want =>
    simp only [absStep] at h
    split at h
    · cases h; exact hx
    · cases h
  | opened k' id size =>
    simp only [absStep] at h
    split at h
    · split at h
      · cases h; exact hx
      · cases h
    · cases h
  | refused k' id =>
    simp only [absStep] at h
    split at h
    · cases h; exact hx
    · cases h

/-- An incomplete object that nobody commits keeps its pages for ever: whatever happens afterwards, as long as no commit
of its id takes effect, it stays listed. (`delete_object` finds only committed objects, and nothing reads
`reap_incomplete_objects_after_secs`.) -/
theorem C67_incomplete_never_freed {c : LCfg} (hc : c.Ok) {s s' : LSt} (h : Reach c s) (hs : Steps c s s') (hf : s'.faults = [])
    {a : Abs} (ha : absRun c.versioning (s.lin.map (·.2)) = some a) {k : List Byte} {x : Ver} (hx : x ∈ a k) (hinc : x.committed = false)
    (hne : ∀ i k', (i, Ev.committed k' x.id) ∉ s'.lin) : ∃ off, Listed c s' off ∧ rdKey s'.j.dev off = k ∧ verAt s' off = x := by
  have key : Reach c s' ∧ ∃ a', absRun c.versioning (s'.lin.map (·.2)) = some a' ∧ x ∈ a' k := by
    induction hs with
    | refl => exact ⟨h, a, ha, hx⟩
    | step h1 h2 ih =>
      rename_i s1 s2
      have hf1 := lite_faults h2 hf
      have hsub : ∀ y ∈ s1.lin, y ∈ s2.lin := by
        intro y hy
        have hr1 : ∀ {s1}, Steps c s s1 → Reach c s1 := by
          intro s1 h1
          induction h1 with
          | refl => exact h
          | step _ h2 ih => exact ih.step h2
        obtain ⟨_, _, _, _, _, _, _, _, hrel⟩ := step_rel hc (hr1 h1) h2 hf
        rcases hrel with ⟨e, _⟩ | ⟨i, e, e1, _⟩
        · rw [e]; exact hy
        · rw [e1]; exact List.mem_append_left _ hy
      obtain ⟨r1, a1, r2, r3⟩ := ih hf1 (fun i k' hm => hne i k' (hsub _ hm))
      refine ⟨r1.step h2, ?_⟩
      obtain ⟨base, v, leak, base', v', leak', hi, hi', hrel⟩ := step_rel hc r1 h2 hf
      have e1 : a1 = absOf c v := by
        have := hi.abs
        rw [r2, Option.some.injEq] at this
        exact this
      rcases hrel with ⟨e, _⟩ | ⟨i, e, e2, _⟩
      · exact ⟨a1, by rw [e]; exact r2, r3⟩
      · refine ⟨absOf c v', hi'.abs, ?_⟩
        have hst : absStep c.versioning a1 e = some (absOf c v') := by
          rw [← absRun_snoc r2 e, ← hi'.abs, e2]
          simp
        refine incomplete_step hst r3 hinc ?_ ?_
        · rw [e1]; exact abs_inj hc hi k
        · rintro k' rfl
          exact hne i k' (by rw [e2]; simp)
  obtain ⟨hr, a', ha', hx'⟩ := key
  obtain ⟨l, l1, _, _, l4⟩ := lists_abs hc hr hf (bkt_lt hc k)
  have := l4 a' ha' k rfl
  rw [← this] at hx'
  obtain ⟨off, o1, o2⟩ := List.mem_map.1 hx'
  obtain ⟨o3, o4⟩ := List.mem_filter.1 o1
  exact ⟨off, ⟨_, bkt_lt hc k, l, l1, o3⟩, by simpa using o4, o2⟩

/-! ## Witnesses -/

theorem notFailed {s : LSt} (h : (List.range s.nextCall).all (fun i => (s.thr i).isNone) = true)
    (hb : ∀ i t, s.thr i = some t → i < s.nextCall) : Idle s ∧ ¬ CreateFailed s := by
  have key : ∀ i t, s.thr i = some t → False := by
    intro i t ht
    have := List.all_eq_true.1 h i (List.mem_range.2 (hb i t ht))
    rw [ht] at this
    cases this
  exact ⟨fun i t ht => (key i t ht).elim, fun ⟨i, t, ht, _⟩ => key i t ht⟩

theorem space_run : (wseq (doCreate 0 [1] 1300 5 ++ doCommit 1 [1] 5 1 ++ doCreate 2 [1] 3 6 ++ commitTo 3 [1] 6 2 ++ flush 1 ++ finish 3 2 ++
      doCreate 4 [2] 3 7)).map (fun s => (List.range s.nextCall).all (fun i => (s.thr i).isNone) && (decide (s.acks.length = 5) &&
      (decide (listOf s 9 (getHead wcfg s 0) = [35072, 34816]) && (decide (visMap (s.lin.map (·.2)) [1] = some 6) &&
      decide (pagesAt wcfg s 34816 = [(34560, 8), (34816, 8)] ∧ pagesAt wcfg s 35072 = [(34304, 8), (35072, 8)]))))) = some true := by
  decide +kernel

theorem seq_bound {c : LCfg} (hc : c.Ok) {s : LSt} (h : SeqReach c s) : ∀ i t, s.thr i = some t → i < s.nextCall := by
  obtain ⟨_, _, _, hi⟩ := reach_inv hc h.reach (seq_faults hc h).2
  exact fun i t ht => (hi.thr i t ht).1

/-- The hypotheses of the theorems above are met: after an object of 1300 bytes was replaced by one of 3 bytes, and
another one was created and not committed, the four pages of these two are all that is taken. -/
example : ∃ s, SeqReach wcfg s ∧ wcfg.Ok ∧ Idle s ∧ ¬ CreateFailed s ∧ s.acks.length = 5 ∧ Chain s (getHead wcfg s 0) [35072, 34816] ∧
    pagesAt wcfg s 34816 = [(34560, 8), (34816, 8)] ∧ pagesAt wcfg s 35072 = [(34304, 8), (35072, 8)] ∧ SpaceExact wcfg s := by
  have h := space_run
  obtain ⟨s, h1, h2⟩ := Option.map_eq_some_iff.1 h
  simp only [Bool.and_eq_true, decide_eq_true_eq] at h2
  obtain ⟨e1, e2, e3, _, e4, e5⟩ := h2
  have hr := wseq_reach h1
  obtain ⟨n1, n2⟩ := notFailed e1 (seq_bound wcfg_ok hr)
  refine ⟨s, hr, wcfg_ok, n1, n2, e2, ?_, e4, e5, C67_sequential_partial wcfg_ok hr n2 n1⟩
  rw [← e3]; exact listOf_chain (by rw [e3]; decide)

theorem emptied_run : (wseq (doCreate 0 [1] 1300 5 ++ doCommit 1 [1] 5 1 ++ doDeleteHead 2 [1])).map (fun s =>
      (List.range s.nextCall).all (fun i => (s.thr i).isNone) && (decide (s.acks.length = 3) &&
      decide (s.lin.map (·.2) = [.created [1] 5 1300, .committed [1] 5, .removed [1] none 5]))) = some true := by
  decide +kernel

/-- … and those of the theorem about the empty store: the object is deleted again. -/
example : ∃ s s0 dev, SeqReach wcfg s ∧ wcfg.Ok ∧ Idle s ∧ ¬ CreateFailed s ∧ s.acks.length = 3 ∧ fresh wcfg dev = some s0 ∧
    absRun wcfg.versioning (s.lin.map (·.2)) = some (fun _ => []) := by
  have h := emptied_run
  obtain ⟨s, h1, h2⟩ := Option.map_eq_some_iff.1 h
  simp only [Bool.and_eq_true, decide_eq_true_eq] at h2
  obtain ⟨e1, e2, e3⟩ := h2
  have hr := wseq_reach h1
  obtain ⟨n1, n2⟩ := notFailed e1 (seq_bound wcfg_ok hr)
  obtain ⟨s0, h3, _⟩ := Option.bind_eq_some_iff.1 h1
  refine ⟨s, s0, _, hr, wcfg_ok, n1, n2, e2, w0_fresh.trans h3, ?_⟩
  rw [e3]
  have : absRun wcfg.versioning [.created [1] 5 1300, .committed [1] 5, .removed [1] none 5] =
      some (Abs.set (Abs.set (Abs.set (fun _ => []) [1] [⟨5, 1300, false⟩]) [1] [⟨5, 1300, true⟩]) [1] []) := by
    rfl
  rw [this]
  congr 1
  funext k
  simp only [Abs.set]
  split <;> rfl

/-- decides that the call is a `create_object` that panicked -/
def deadCreate (t : Option Thread) : Bool :=
  match t with
  | some t => (match t.pc with | .dead => true | _ => false) && (match t.start.call with | .create _ _ => true | _ => false)
  | none => false

theorem deadCreate_ok {s : LSt} {i : Nat} (h : deadCreate (s.thr i) = true) : CreateFailed s := by
  unfold deadCreate at h
  split at h
  · rename_i t ht
    rw [Bool.and_eq_true] at h
    obtain ⟨h1, h2⟩ := h
    split at h1
    · rename_i hp
      split at h2
      · rename_i k z hk
        exact ⟨i, t, ht, hp, k, z, hk⟩
      · cases h2
    · cases h1
  · cases h

theorem failed_run : (wseq [.a (.create [1] 9000 [] 7 5)]).map (fun s => idleB s && (s.lin.isEmpty && (s.acks.isEmpty &&
      (deadCreate (s.thr 0) && ([8, 9, 10].all (fun p => match (s.alloc.allocate (2 ^ p)).1 with
        | .ok _ => false
        | _ => true)))))) = some true := by decide +kernel

/-- The code breaks C67: `create_object` with a size the heap has no room for allocates what it can get and panics
without giving it back: nothing was ever created, no call is running, and no page can be allocated any more. -/
theorem C67_violated_by_failed_create : ∃ s, SeqReach wcfg s ∧ wcfg.Ok ∧ Idle s ∧ s.lin = [] ∧ s.acks = [] ∧ CreateFailed s ∧
    ∀ p, wcfg.pages.spage ≤ p → p ≤ wcfg.pages.lpage → ∀ off a', s.alloc.allocate (2 ^ p) ≠ (.ok off, a') := by
  have h := failed_run
  obtain ⟨s, h1, h2⟩ := Option.map_eq_some_iff.1 h
  simp only [Bool.and_eq_true] at h2
  obtain ⟨e1, e2, e4, e5, e3⟩ := h2
  have hr := wseq_reach h1
  have hi := idleB_ok e1 (seq_bound wcfg_ok hr)
  refine ⟨s, hr, wcfg_ok, hi, List.isEmpty_iff.1 e2, List.isEmpty_iff.1 e4, deadCreate_ok (i := 0) e5, ?_⟩
  intro p p1 p2 off a' e
  have hp : p ∈ [8, 9, 10] := by
    have e1 : wcfg.pages.spage = 8 := rfl
    have e2 : wcfg.pages.lpage = 10 := rfl
    have : p = 8 ∨ p = 9 ∨ p = 10 := by omega
    simpa using this
  have := List.all_eq_true.1 e3 p hp
  rw [e] at this
  cases this

theorem abandoned_run : (wseq (doCreate 0 [1] 3 5)).map (fun s => idleB s && (decide (s.acks.length = 1) &&
      decide (s.lin.map (·.2) = [.created [1] 5 3]))) = some true := by decide +kernel

/-- The code breaks C67: an upload that is given up is never reclaimed. After a single `create_object`, whatever else
happens later, its pages stay taken as long as its id is not committed. -/
theorem C67_violated_by_abandoned : ∃ s, SeqReach wcfg s ∧ wcfg.Ok ∧ Idle s ∧ s.acks.length = 1 ∧
    ∀ s', Steps wcfg s s' → s'.faults = [] → (∀ i k, (i, Ev.committed k 5) ∉ s'.lin) → ∃ off, Listed wcfg s' off ∧ verAt s' off = ⟨5, 3, false⟩ := by
  have h := abandoned_run
  obtain ⟨s, h1, h2⟩ := Option.map_eq_some_iff.1 h
  simp only [Bool.and_eq_true, decide_eq_true_eq] at h2
  obtain ⟨e1, e2, e3⟩ := h2
  have hr := wseq_reach h1
  refine ⟨s, hr, wcfg_ok, idleB_ok e1 (seq_bound wcfg_ok hr), e2, ?_⟩
  intro s' hs hf hne
  have ha : absRun wcfg.versioning (s.lin.map (·.2)) = some (Abs.set (fun _ => []) [1] [⟨5, 3, false⟩]) := by
    rw [e3]; rfl
  obtain ⟨off, o1, _, o3⟩ := C67_incomplete_never_freed wcfg_ok hr.reach hs hf ha (k := [1]) (x := ⟨5, 3, false⟩)
    (by simp [Abs.set]) rfl hne
  exact ⟨off, o1, o3⟩

theorem midway_run : (wseq (doCreate 0 [1] 1300 5 ++ doCommit 1 [1] 5 1 ++ [.a (.create [2] 3 [] 7 6)])).map (fun s =>
      (match s.thr 2 with | some t => (match t.pc with | .createWrite _ _ => true | _ => false) | none => false) &&
      !deadCreate (s.thr 2) && ((List.range 2).all (fun i => (s.thr i).isNone) && decide (s.nextCall = 3))) = some true := by
  decide +kernel

/-- The hypotheses of `C67_no_hidden_use_partial` are met with a call running: a `create_object` that has allocated its
pages and written nothing yet. -/
example : ∃ s, SeqReach wcfg s ∧ wcfg.Ok ∧ s.faults = [] ∧ ¬ CreateFailed s ∧ ¬ Idle s := by
  have h := midway_run
  obtain ⟨s, h1, h2⟩ := Option.map_eq_some_iff.1 h
  simp only [Bool.and_eq_true, decide_eq_true_eq] at h2
  obtain ⟨⟨e1, e2⟩, e3, e4⟩ := h2
  have hr := wseq_reach h1
  refine ⟨s, hr, wcfg_ok, (seq_faults wcfg_ok hr).2, ?_, ?_⟩
  · rintro ⟨i, t, ht, hd, k, z, hk⟩
    have hlt := seq_bound wcfg_ok hr i t ht
    rw [e4] at hlt
    rcases (by omega : i < 2 ∨ i = 2) with h2 | rfl
    · have := List.all_eq_true.1 e3 i (List.mem_range.2 h2)
      rw [ht] at this
      cases this
    · rw [ht] at e2
      unfold deadCreate at e2
      simp only [hd, hk] at e2
      cases e2
  · intro hi
    split at e1
    · rename_i t ht
      have := hi _ _ ht
      rw [this] at e1
      cases e1
    · cases e1

end Props
end Blobd
