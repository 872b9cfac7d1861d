import Verif.Proofs.DirectSpace
import Verif.Props.DirectDurable
import Verif.Props.Buddy
/-!
# C56, C57: space of the direct store

C56: in a state in which every call since the last start was answered, the pages that cannot be allocated are exactly
those of the visible objects and of the uploads that can still be committed.

`Reach c s`: see Props/DirectDurable. `s.threads = []`: no call is unanswered (running, panicked or given up).
`PageFaultFree s`: none of the three events of C29 happened.
-/
set_option autoImplicit false
namespace Blobd
namespace Props
open Direct

/-- a version that can be read, or an upload that can be committed -/
def Alive (s : DSt) (o : Obj) : Prop := s.committed o.m.key = some o ∨ s.incomplete o.id = some o

/-- the pages an object with its metadata page at `mo` takes -/
def takes (c : SCfg) (o : Obj) (mo : Nat) : List (Nat × Nat) :=
  (mo, MetaPage.allocated c.pages o.m.enc.length) :: o.m.dataPages c.pages

/-- the pages of the objects in `l` (with their metadata pages) -/
def taken (c : SCfg) (l : List (Obj × Nat)) : List (Nat × Nat) := l.flatMap (fun x => takes c x.1 x.2)

theorem space_core {c : SCfg} (hc : c.Ok) {s : DSt} (h : Reach c s) (hf : PageFaultFree s) (hq : s.threads = []) :
    ∃ l : List (Obj × Nat), (l.map (·.1)).Nodup ∧ (∀ o, o ∈ l.map (·.1) ↔ Alive s o) ∧ Buddy.Inv c.heap s.alloc (taken c l) := by
  have hs := reach_safe hc h hf.1 hf.2.1 hf.2.2
  have hp := reach_sp hc h hf.1 hf.2.1 hf.2.2
  have hk := reach_k h
  have hnd : NoDead s := by intro th hth; rw [hq] at hth; simp at hth
  -- a known object has a tuple in memory
  have key : ∀ o : Obj, Alive s o → ∃ b, ∃ t ∈ s.ts.bundles b, t.id = o.id ∧ ⟨t.metaOff, t.metaPow2, o.m, .live b⟩ ∈ s.recs ∧
      s.names o.id = some (t.metaOff, o.m) := by
    intro o ho
    have hn : NamedO s.names o := ho.elim (hs.N.com _ _) (hs.N.inc _ _)
    have ht : ∃ st, HasTuple s.ts o.id st := by
      rcases ho with ho | ho
      · rcases hk.ck _ _ ho with ht | ⟨th, hth, _⟩
        · exact ⟨_, ht⟩
        · rw [hq] at hth; simp at hth
      · exact ⟨_, hk.tki o.id (by rw [ho]; simp)⟩
    obtain ⟨_, b, t, htb, hti, _⟩ := ht
    obtain ⟨mo, hmo⟩ := hn
    have hr := mem_tup_named hs.R htb (o := o) (mo := mo) (hti ▸ hmo)
    obtain ⟨m, h1, _⟩ := (hs.R.mem b).tup t htb
    rw [hti, hmo] at h1
    simp only [Option.some.injEq, Prod.mk.injEq] at h1
    exact ⟨b, t, htb, hti, hr, by rw [hmo, h1.1]⟩
  have hown : ∀ r : Rec, ∃ o : Obj, r ∈ s.recs → Alive s o ∧ o.m = r.m ∧ s.names o.id = some (r.mo, r.m) := by
    intro r
    by_cases hr : r ∈ s.recs
    · obtain ⟨o, hk', hm, hn⟩ := hp.own hnd r hr
      refine ⟨o, fun _ => ⟨?_, hm, hn⟩⟩
      rcases hk' with h1 | h1 | ⟨th, hth, _⟩
      · exact Or.inr h1
      · exact Or.inl h1
      · rw [hq] at hth; simp at hth
    · exact ⟨⟨0, r.m⟩, fun h => absurd h hr⟩
  obtain ⟨f, hf'⟩ := Classical.axiomOfChoice hown
  refine ⟨s.recs.map (fun r => (f r, r.mo)), ?_, ?_, ?_⟩
  · rw [List.map_map]
    refine List.Nodup.map_on ?_ (List.Nodup.of_map _ hs.R.nd)
    intro r hr r' hr' he
    have h1 := (hf' r hr).2.2
    have h2 := (hf' r' hr').2.2
    simp only [Function.comp] at he
    rw [he, h2] at h1
    simp only [Option.some.injEq, Prod.mk.injEq] at h1
    exact rec_uniq hs.R.nd hr hr' h1.1.symm
  · intro o
    rw [List.map_map]
    constructor
    · intro ho
      obtain ⟨r, hr, rfl⟩ := List.mem_map.1 ho
      exact (hf' r hr).1
    · intro ho
      obtain ⟨b, t, ht, hti, hrec, hn⟩ := key o ho
      refine List.mem_map.2 ⟨_, hrec, ?_⟩
      obtain ⟨ha, hm, hn2⟩ := hf' _ hrec
      obtain ⟨b', t', ht', hti', hrec', hn'⟩ := key _ ha
      rw [hn2] at hn'
      simp only [Option.some.injEq, Prod.mk.injEq] at hn'
      have : t = t' := mem_tup_uniq hs.R ht ht' hn'.1
      subst this
      rw [hti] at hti'
      show f _ = o
      generalize f _ = o' at hm hti'
      cases o; cases o'
      simp only at hm hti'
      subst hm; subst hti'; rfl
  · have hi := hp.alloc hnd
    rw [hq] at hi
    simp only [List.flatMap_nil, List.append_nil] at hi
    have e : taken c (s.recs.map (fun r => (f r, r.mo))) = s.recs.flatMap (regs c) := by
      unfold taken
      rw [List.flatMap_map]
      refine List.flatMap_congr ?_
      intro r hr
      simp only [takes, regs, objPages, hp.mp r hr, (hf' r hr).2.1]
    rw [e]
    exact hi

/-- whether a page can be had depends only on what is taken -/
theorem inv_room {c : Spec.HeapCfg} {b : Buddy} {live : List (Nat × Nat)} (inv : Buddy.Inv c b live) (size : Nat)
    (hsz : Buddy.requestPow2 c.pages size ≤ c.pages.lpage) :
    (∃ off b', b.allocate size = (.ok off, b')) ↔ Spec.Room c.base c.heap live (Buddy.requestPow2 c.pages size) := by
  rcases inv.alloc size hsz with ⟨n, b', e, hv, _⟩ | ⟨b', e, _, hfree, _, hv⟩
  · rw [e]
    have hv' := (Buddy.vac_iff _ _ _ _ _).1 hv
    have hpos := Nat.two_pow_pos (Buddy.requestPow2 c.pages size)
    refine iff_of_true ⟨_, _, rfl⟩ ?_
    exact ⟨c.base + n * 2 ^ Buddy.requestPow2 c.pages size, ⟨Buddy.dvd_page inv n hsz, by simp, by simp only; omega⟩, hv'.2⟩
  · rw [e]
    refine iff_of_false (by simp) ?_
    rintro ⟨off, ⟨h1, h2, h3⟩, h4⟩
    simp only at h1 h2 h3
    have hdvd : 2 ^ Buddy.requestPow2 c.pages size ∣ off - c.base :=
      Nat.dvd_sub h1 (Nat.dvd_trans (Nat.pow_dvd_pow 2 hsz) inv.abase)
    apply hv ((off - c.base) / 2 ^ Buddy.requestPow2 c.pages size)
    rw [Buddy.vac_iff, Nat.div_mul_cancel hdvd, show c.base + (off - c.base) = off by omega]
    exact ⟨by omega, h4⟩

/-- Whenever every call was answered, there is a list `l` of exactly the objects that can be read or committed, each
once, such that their pages are disjoint and in the heap, and a page of any size can be allocated if and only if the
heap has an aligned place for it that touches none of their pages. So replaced, deleted and discarded versions, and all
earlier calls, hold no space. -/
theorem C56_space_reclaimed_partial {c : SCfg} (hc : c.Ok) {s : DSt} (h : Reach c s) (hf : PageFaultFree s) (hq : s.threads = []) :
    ∃ l : List (Obj × Nat), (l.map (·.1)).Nodup ∧ (∀ o, o ∈ l.map (·.1) ↔ Alive s o) ∧
      (taken c l).Pairwise Spec.PageDisj ∧ (∀ p ∈ taken c l, Spec.PageIn c.heap.base c.heap.heap p) ∧
      ∀ p, c.pages.spage ≤ p → p ≤ c.pages.lpage →
        ((∃ off a', s.alloc.allocate (2 ^ p) = (.ok off, a')) ↔ Spec.Room c.heap.base c.heap.heap (taken c l) p) := by
  obtain ⟨l, h1, h2, h3⟩ := space_core hc h hf hq
  refine ⟨l, h1, h2, h3.disj, fun p hp => (h3.pgs p hp).1, ?_⟩
  intro p hs hl
  have e : Buddy.requestPow2 c.heap.pages (2 ^ p) = p := by
    unfold Buddy.requestPow2
    have h4 : nextPow2Exp (2 ^ p) = p := by
      refine Nat.le_antisymm (nextPow2Exp_le (Nat.le_refl _)) ?_
      exact (Nat.pow_le_pow_iff_right (by decide)).1 (le_nextPow2 (2 ^ p))
    rw [h4]
    exact Nat.max_eq_right hs
  have := inv_room h3 (2 ^ p) (by rw [e]; exact hl)
  rw [e] at this
  exact this

/-- If moreover nothing is visible and no upload is open, the free-space map is that of a freshly formatted partition. -/
theorem C56_empty_store_partial {c : SCfg} (hc : c.Ok) {s : DSt} (h : Reach c s) (hf : PageFaultFree s) (hq : s.threads = [])
    (h1 : ∀ k, s.committed k = none) (h2 : ∀ id, s.incomplete id = none) {dev : Mem} {s0 : DSt} (h0 : fresh c dev = some s0) :
    Spec.SameFree s.alloc s0.alloc := by
  obtain ⟨l, _, hl, hi⟩ := space_core hc h hf hq
  have : l = [] := by
    rw [List.eq_nil_iff_forall_not_mem]
    rintro ⟨o, mo⟩ ho
    rcases (hl o).1 (List.mem_map_of_mem (f := (·.1)) ho) with h3 | h3
    · rw [h1] at h3; cases h3
    · rw [h2] at h3; cases h3
  subst this
  simp only [fresh] at h0
  split at h0
  · cases h0
  · rename_i a0 ha
    cases h0
    have i2 := Buddy.new_inv ha
    intro p hs' hl'
    have hi' : Buddy.Inv c.heap s.alloc [] := hi
    rw [hi'.hpages] at hs' hl'
    exact Buddy.canon_unique hi'.canon i2.canon hs' hl'

/-- the free-space map is that of some history in which exactly these pages are taken -/
theorem inv_reach {c : Spec.HeapCfg} {b0 : Buddy} (h0 : Buddy.new c.pageNumBits c.base c.heap c.pages c.dir = some b0) :
    ∀ {live : List (Nat × Nat)}, (∀ a ∈ live, Spec.PageIn c.base c.heap a ∧ c.pages.spage ≤ a.2 ∧ a.2 ≤ c.pages.lpage) →
      live.Pairwise Spec.PageDisj → ∃ b, Spec.Reach c b live := by
  intro live
  induction live with
  | nil => exact fun _ _ => ⟨b0, .init h0⟩
  | cons a l ih =>
    intro hp hd
    rw [List.pairwise_cons] at hd
    obtain ⟨b, hb⟩ := ih (fun x hx => hp x (List.mem_cons_of_mem _ hx)) hd.2
    obtain ⟨h1, h2, h3⟩ := hp a (by simp)
    obtain ⟨b', hb'⟩ := (C07_mark_iff hb a.1 a.2 h1.2.1).2 ⟨h1, h2, h3, hd.1⟩
    exact ⟨b', .mark hb h1.2.1 hb'⟩

/-- In bytes: what is free is the heap less the pages of the objects that can be read or committed. -/
theorem C56_free_bytes_partial {c : SCfg} (hc : c.Ok) {s : DSt} (h : Reach c s) (hf : PageFaultFree s) (hq : s.threads = []) :
    ∃ l : List (Obj × Nat), (l.map (·.1)).Nodup ∧ (∀ o, o ∈ l.map (·.1) ↔ Alive s o) ∧
      Spec.freeBytes s.alloc + Spec.liveBytes (taken c l) = c.heap.heap := by
  obtain ⟨l, h1, h2, h3⟩ := space_core hc h hf hq
  refine ⟨l, h1, h2, ?_⟩
  obtain ⟨b0, h0⟩ : ∃ b0, Buddy.new c.heap.pageNumBits c.heap.base c.heap.heap c.heap.pages c.heap.dir = some b0 := by
    clear hf hq h1 h2 h3
    induction h with
    | fresh h =>
      simp only [fresh] at h
      split at h
      · cases h
      · exact ⟨_, by assumption⟩
    | step _ _ ih => exact ih
    | restart _ _ _ _ ih => exact ih
  obtain ⟨b, hb⟩ := inv_reach h0 h3.pgs h3.disj
  have h5 := Buddy.reach_bytes hc.sl hb
  have h6 := Buddy.reach_inv hb
  rw [← h5]
  congr 1
  unfold Spec.freeBytes Spec.freeBytesOf
  rw [h3.hpages, h6.hpages]
  refine Finset.sum_congr rfl ?_
  intro p hp
  rw [Finset.mem_Icc] at hp
  rw [Buddy.canon_unique h3.canon h6.canon hp.1 hp.2]

/-- A restart frees whatever interrupted, abandoned or failed calls held: whatever the state at the crash, the state
after the next start is one to which the theorems above apply. -/
theorem C56_restart_reclaims_partial {c : SCfg} (hc : c.Ok) {s : DSt} (h : Reach c s) {order : List Tuple}
    (hp : order.Perm (diskTuples c.n s.ts)) {s' : DSt} (hl : load c s order = some s') (hf : PageFaultFree s') :
    s'.threads = [] ∧ ∃ l : List (Obj × Nat), (l.map (·.1)).Nodup ∧ (∀ o, o ∈ l.map (·.1) ↔ Alive s' o) ∧
      Spec.freeBytes s'.alloc + Spec.liveBytes (taken c l) = c.heap.heap := by
  have hr : Reach c s' := .restart order h hp hl
  have hq : s'.threads = [] := by
    obtain ⟨a0, l, _, _, _, rfl⟩ := load_some hl
    rfl
  exact ⟨hq, C56_free_bytes_partial hc hr hf hq⟩

/-- The hypotheses are met: after two creates, two commits to one key (the second replaces the first) and the delete of
another object one object is left, and 128 of the 2048 bytes are taken. -/
example : ∃ s, Reach wcfg s ∧ wcfg.Ok ∧ PageFaultFree s ∧ s.threads = [] ∧ Alive s ⟨12, ⟨11, 7, [1], [], [1152]⟩⟩ ∧
    s.committed [2] = none ∧ s.acks.length = 7 ∧ Spec.freeBytes s.alloc = 2048 - 128 := by
  have h : (wrun (doCreate [1] 10 5 0 ++ doCommit 5 9 0 ++ doCreate [1] 11 6 0 ++
      [.commitClaim 6 false, .commitSeal 0, .commitPublish 0 12, .commitUpdate 0, .snapshot, .page 0, .signal, .commitFinish 0,
       .reapTuple 0, .snapshot, .page 0, .signal, .reaped 0] ++ doCreate [2] 20 7 0 ++ doCommit 7 13 0 ++ doDelete [2] 0)).map (fun s =>
      decide (s.threads = []) && (decide (s.faults = []) && (decide (s.acks.length = 7) &&
      (decide (s.committed [1] = some ⟨12, ⟨11, 7, [1], [], [1152]⟩⟩) && (decide (s.committed [2] = none) &&
       decide ((s.alloc.free 6).card * 64 + (s.alloc.free 7).card * 128 = 1920)))))) = some true := by decide +kernel
  obtain ⟨s, h1, h2⟩ := Option.map_eq_some_iff.1 h
  simp only [Bool.and_eq_true, decide_eq_true_eq] at h2
  obtain ⟨e1, e2, e3, e4, e5, e6⟩ := h2
  refine ⟨s, wrun_reach h1, wcfg_ok, by simp [PageFaultFree, e2], e1, Or.inl e4, e5, e3, ?_⟩
  obtain ⟨l, _, _, hi⟩ := space_core wcfg_ok (wrun_reach h1) (by simp [PageFaultFree, e2]) e1
  unfold Spec.freeBytes Spec.freeBytesOf
  rw [hi.hpages]
  show ∑ p ∈ Finset.Icc 6 7, (s.alloc.free p).card * 2 ^ p = _
  rw [show Finset.Icc 6 7 = {6, 7} from rfl, Finset.sum_pair (by decide)]
  exact e6

/-- The code breaks C56 without any of the excluded events: a create for which the space does not suffice keeps the
pages it already got. One such call on an empty store takes all of it: nothing is visible, no upload is open, and not even
the smallest page can be allocated. Only a restart repairs this. -/
theorem C56_violated_by_failed_create : ∃ s, Reach wcfg s ∧ wcfg.Ok ∧ s.faults = [] ∧ s.threads = [⟨0, 0, .dead⟩] ∧
    (∀ k, s.committed k = none) ∧ (∀ id, s.incomplete id = none) ∧
    ∀ p, wcfg.pages.spage ≤ p → p ≤ wcfg.pages.lpage → ∀ off a', s.alloc.allocate (2 ^ p) ≠ (.ok off, a') := by
  have h : (fresh wcfg (fun _ => 0)).map (fun s0 =>
      match calcObjectLayoutDirect wcfg.pages 2058 with
      | none => false
      | some lay =>
        decide ((allocPages s0.alloc (dataSizes wcfg.pages lay)).1 = none) &&
        ([6, 7].all (fun p => match ((allocPages s0.alloc (dataSizes wcfg.pages lay)).2.allocate (2 ^ p)).1 with
          | .ok _ => false
          | _ => true))) = some true := by decide +kernel
  obtain ⟨s0, h1, h2⟩ := Option.map_eq_some_iff.1 h
  split at h2
  · cases h2
  · rename_i lay hlay
    simp only [Bool.and_eq_true, decide_eq_true_eq] at h2
    obtain ⟨e1, e2⟩ := h2
    obtain ⟨r, a', he⟩ : ∃ r a', allocPages s0.alloc (dataSizes wcfg.pages lay) = (r, a') := ⟨_, _, rfl⟩
    rw [he] at e1 e2
    simp only at e1 e2
    subst e1
    have hr := Reach.step (.fresh h1) (Step.createDataPanic 2058 hlay he)
    simp only [fresh] at h1
    split at h1
    · cases h1
    · cases h1
      refine ⟨_, hr, wcfg_ok, rfl, rfl, fun _ => rfl, fun _ => rfl, ?_⟩
      intro p hs hl off a'' ha
      have hp : p = 6 ∨ p = 7 := by
        have e1 : wcfg.pages.spage = 6 := rfl
        have e2 : wcfg.pages.lpage = 7 := rfl
        omega
      simp only at ha
      simp only [List.all_cons, List.all_nil, Bool.and_eq_true] at e2
      rcases hp with rfl | rfl
      · have := e2.1; rw [ha] at this; cases this
      · have := e2.2.1; rw [ha] at this; cases this

/-! ## C57: uploads that are never committed -/

/-- `s'` is some state after `s`, with any number of calls, crashes and restarts in between, and in the meantime no
commit took the upload `id`. -/
inductive Unclaimed (c : SCfg) (id : Nat) (s : DSt) : DSt → Prop
  | refl : Unclaimed c id s s
  | step {s' s''} : Unclaimed c id s s' → Step c s' s'' → (∀ call m, s''.lin ≠ s'.lin ++ [(call, .claimed id m)]) →
      Unclaimed c id s s''
  | restart {s' s''} (order : List Tuple) : Unclaimed c id s s' → order.Perm (diskTuples c.n s'.ts) →
      load c s' order = some s'' → Unclaimed c id s s''

/-- no step takes a token away except the commit that uses it -/
theorem tok_step {c : SCfg} {s s' : DSt} (hI : IdInv s) (h : Step c s s') {id : Nat} {o : Obj} (hi : s.incomplete id = some o)
    (hn : ∀ call m, s'.lin ≠ s.lin ++ [(call, .claimed id m)]) : s'.incomplete id = some o := by
  cases h with
  | @created pre th post o' ticket ht hp hft =>
    have := (hI.cidFree th (ht ▸ mem_mid) o'.id (by rw [hp]; simp [PC.cid])).1
    simp only [upd]
    rw [if_neg]
    · exact hi
    · rintro rfl; rw [hi] at this; cases this
  | @commitClaim o' id' ifne ho =>
    simp only [upd]
    rw [if_neg]
    · exact hi
    · rintro rfl; exact hn _ _ rfl
  | _ => exact hi

theorem unclaimed_reach {c : SCfg} {id : Nat} {s s' : DSt} (hr : Reach c s) (h : Unclaimed c id s s') : Reach c s' := by
  induction h with
  | refl => exact hr
  | step _ hs _ ih => exact .step ih hs
  | restart order _ hp hl ih => exact .restart order ih hp hl

/-- The code breaks C57: an upload that is never committed stays for ever, whatever happens and however often the store
is restarted, although the configuration has a time after which incomplete objects expire (nothing reads it). The events
that break C28 are excluded. -/
theorem C57_violated_uploads_never_expire {c : SCfg} (hc : c.Ok) {s : DSt} (hr : Reach c s) {id : Nat} {o : Obj}
    (hi : s.incomplete id = some o) {s' : DSt} (h : Unclaimed c id s s') (hf : PageFaultFree s') (ho : Fault.overlap ∉ s'.faults) :
    s'.incomplete id = some o := by
  induction h with
  | refl => exact hi
  | @step s1 s2 h1 hs hn ih =>
    have hf' : PageFaultFree s1 := ⟨fun h => hf.1 (faults_step hs _ h), fun h => hf.2.1 (faults_step hs _ h), fun h => hf.2.2 (faults_step hs _ h)⟩
    exact tok_step (reach_id (unclaimed_reach hr h1)) hs (ih hf' (fun h => ho (faults_step hs _ h))) hn
  | @restart s1 s2 order h1 hp hl ih =>
    have hf' : PageFaultFree s1 := ⟨fun h => hf.1 (faults_load hl _ h), fun h => hf.2.1 (faults_load hl _ h), fun h => hf.2.2 (faults_load hl _ h)⟩
    have ho' : Fault.overlap ∉ s1.faults := fun h => ho (faults_load hl _ h)
    obtain ⟨s3, hl3, _, h3, _⟩ := C28_restart_partial hc (unclaimed_reach hr h1) hf' ho' order hp
    rw [hl] at hl3
    cases hl3
    exact h3 id o (ih hf' ho')

/-- and its pages stay allocated: whenever all calls are answered it is among the objects that take space (C56) -/
theorem C57_violated_space_kept {c : SCfg} (hc : c.Ok) {s : DSt} (hr : Reach c s) {id : Nat} {o : Obj}
    (hi : s.incomplete id = some o) {s' : DSt} (h : Unclaimed c id s s') (hf : PageFaultFree s') (ho : Fault.overlap ∉ s'.faults)
    (hq : s'.threads = []) : ∃ l : List (Obj × Nat), o ∈ l.map (·.1) ∧ Spec.freeBytes s'.alloc + Spec.liveBytes (taken c l) = c.heap.heap := by
  have h1 := C57_violated_uploads_never_expire hc hr hi h hf ho
  have h2 := (reach_id hr).incKey id o hi
  obtain ⟨l, _, h3, h4⟩ := C56_free_bytes_partial hc (unclaimed_reach hr h) hf hq
  exact ⟨l, (h3 o).2 (Or.inr (by rw [h2]; exact h1)), h4⟩

/-- an upload, a lookup that finds nothing, a crash and a restart -/
example : ∃ s s', Reach wcfg s ∧ (s.incomplete 5).isSome ∧ Unclaimed wcfg 5 s s' ∧ PageFaultFree s' ∧
    Fault.overlap ∉ s'.faults ∧ s'.threads = [] ∧ s'.nextCall ≠ s.nextCall := by
  have h : (wrun (doCreate [1] 10 5 0)).map (fun s => decide ((s.incomplete 5).isSome) && (decide (s.committed [2] = none) &&
      (exec wcfg s (.look [2] none)).elim false (fun s1 => decide (s1.nextCall = s.nextCall + 1) &&
        (exec wcfg s1 (.restart false)).elim false (fun s2 => decide (s2.faults = []) && (decide (s2.threads = []) &&
          decide (s2.nextCall = s1.nextCall)))))) = some true := by decide +kernel
  obtain ⟨s, h1, h2⟩ := Option.map_eq_some_iff.1 h
  simp only [Bool.and_eq_true, decide_eq_true_eq] at h2
  obtain ⟨e1, e2, h3⟩ := h2
  have hlook : exec wcfg s (.look [2] none) = some { s with
      lin := s.lin ++ [(s.nextCall, .missing [2] none)]
      acks := s.acks ++ [⟨s.nextCall, s.lin.length, s.lin.length + 1, .notFound⟩]
      nextCall := s.nextCall + 1 } := by simp only [exec, e2]
  rw [hlook] at h3
  simp only [Option.elim] at h3
  split at h3
  · rename_i s2 hs2
    simp only [Bool.and_eq_true, decide_eq_true_eq] at h3
    obtain ⟨_, e3, e4, e5⟩ := h3
    have hs : Step wcfg s _ := Step.missing (c := wcfg) (s := s) [2] none (by rw [e2]; intro o h; cases h)
    obtain ⟨order, e6, e7⟩ := exec_restart (.step (wrun_reach h1) hs) hs2
    refine ⟨s, s2, wrun_reach h1, e1, .restart order (.step .refl hs ?_) e6 e7, by simp [PageFaultFree, e3], by simp [e3], e4, ?_⟩
    · intro call m h; simp at h
    · rw [e5]; simp
  · simp at h3

end Props
end Blobd
