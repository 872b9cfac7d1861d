import Verif.Proofs.LiteEnds2
import Verif.Proofs.LiteRun
set_option autoImplicit false
/-!
# C71: lite store: every call ends

Executions never end and are fair (Spec/LiteProgress): a call that can go on eventually does, what is pending in the
journal is eventually sent to the flusher, the flusher's device writes complete, and a create waiting for its bucket's
lock is overtaken by finitely many others. The claim is proved for executions without the faults of the lite store
(Model/LiteStore `Fault`), and fails after one of them.
-/
namespace Blobd
namespace Props
open Lite Spec

variable {c : LCfg} {σ : Nat → LSt}

/-- Every call that was made ends: it is answered, or its future was dropped (or its create found no room, which
panics). -/
theorem C71_every_call_ends_partial (hc : c.Ok) (h : FairRun c σ) (hf : ∀ m, (σ m).faults = []) {i n : Nat} (hi : at? (σ n) i ≠ none) :
    ∃ m, n ≤ m ∧ (at? (σ m) i = none ∨ at? (σ m) i = some .dead) := call_ends hc h hf hi

/-- Nothing else ends a call without an answer: from one moment to the next, a call under way is still under way, or was
answered, or was dropped by its caller. -/
theorem C71_why_calls_die (hc : c.Ok) {s s' : LSt} (hr : Reach c s) (hs : Step c s s') (hf : s'.faults = []) {i : Nat} {pc : PC}
    (ha : at? s i = some pc) (hd : pc ≠ .dead) :
    (∃ pc', at? s' i = some pc' ∧ pc' ≠ .dead) ∨ Answers s' i ∨ act c s (.drop i) = some s' := by
  obtain ⟨base, v, leak, hi⟩ := reach_inv hc (hr.step hs) hf
  obtain ⟨base, v, leak, _, _, _, hi, _, _⟩ := step_rel hc hr hs hf
  have hb : ∀ i t, s.thr i = some t → i < s.nextCall := fun i t ht => (hi.thr i t ht).1
  rcases step_at hs hb ha with ⟨h1, _⟩ | ⟨pc', evs, h1, h2, _⟩ | ⟨_, h1, _⟩
  · exact .inl ⟨pc, h1, hd⟩
  · by_cases hd' : pc' = .dead
    · subst hd'
      exact .inr (.inr (why_dead hc hr hs hf ha hd h1))
    · exact .inl ⟨pc', h1, hd'⟩
  · exact .inr (.inl h1)

/-- Every call that its caller does not drop is answered. -/
theorem C71_answered_partial (hc : c.Ok) (h : FairRun c σ) (hf : ∀ m, (σ m).faults = []) {i n : Nat} {pc : PC} (hi : at? (σ n) i = some pc)
    (hd : pc ≠ .dead) (hno : ∀ m, n ≤ m → act c (σ m) (.drop i) ≠ some (σ (m + 1))) : ∃ m, n ≤ m ∧ Answers (σ m) i := by
  by_contra hna
  have alive : ∀ m, n ≤ m → ∃ pc', at? (σ m) i = some pc' ∧ pc' ≠ .dead := by
    refine keeps (P := fun s => ∃ pc', at? s i = some pc' ∧ pc' ≠ .dead) ⟨pc, hi, hd⟩ ?_
    rintro m hm ⟨pc', h1, h2⟩
    rcases h.next m with e | e
    · rw [e]; exact ⟨pc', h1, h2⟩
    · rcases C71_why_calls_die hc (h.toRun.reach m) e (hf _) h1 h2 with h3 | h3 | h3
      · exact h3
      · exact absurd ⟨m + 1, by omega, h3⟩ hna
      · exact absurd h3 (hno m hm)
  obtain ⟨m, h1, h2⟩ := C71_every_call_ends_partial hc h hf (i := i) (n := n) (by rw [hi]; simp)
  obtain ⟨pc', h3, h4⟩ := alive m h1
  rcases h2 with h2 | h2
  · rw [h2] at h3; cases h3
  · rw [h2, Option.some.injEq] at h3; exact h4 h3.symm

/-- Every transaction that was committed to the journal is acknowledged. -/
theorem C71_transactions_acknowledged_partial (hc : c.Ok) (h : FairRun c σ) (hf : ∀ m, (σ m).faults = []) {n : Nat} {t : Journal.Txn}
    (ht : t ∈ (σ n).j.hist) : ∃ m, n ≤ m ∧ t.id ∈ (σ m).j.acked := by
  obtain ⟨base, v, leak, hi⟩ := reach_inv hc (h.toRun.reach n) (hf n)
  obtain ⟨k, hk⟩ := List.mem_iff_getElem?.1 ht
  have := txn_acked hc h hf (n := n) (List.getElem?_eq_some_iff.1 hk).1
  rw [← hi.jinv.ids k t hk] at this
  exact this

/-- Every lock is given back, so a bucket that nobody enters any more becomes free. -/
theorem C71_locks_given_back_partial (hc : c.Ok) (h : FairRun c σ) (hf : ∀ m, (σ m).faults = []) {i b n : Nat} (hh : Holds c (σ n) i b) :
    ∃ m, n ≤ m ∧ ¬ Holds c (σ m) i b := by
  obtain ⟨m, h1, h2⟩ := holder_ends hc h hf hh
  exact ⟨m, h1, over_not_holds h2⟩

/-- The fairness assumed of calls asks nothing impossible: in every reachable fault-free state a call that is not waiting
for the journal or for a lock can go on, without being dropped. -/
theorem C71_never_blocked (hc : c.Ok) {s : LSt} (hr : Reach c s) (hf : s.faults = []) {i : Nat} {pc : PC} (ha : at? s i = some pc) (hd : pc ≠ .dead)
    (hw : ∀ n f ts r, pc = .wait (some n) f ts r → n ∈ s.j.acked) (hl : ∀ o off, pc = .createLink o off → canLock c s (c.bkt o.key) true = true) :
    ∃ a s', act c s a = some s' ∧ at? s' i ≠ some pc ∧ at? s' i ≠ some .dead := by
  obtain ⟨base, v, leak, hi⟩ := reach_inv hc hr hf
  exact can_move hc hi ha hd hw hl

/-- Nor does that of the journal: what is pending can be sent off, and a flusher with work to do can do it. -/
theorem C71_journal_never_blocked {s : LSt} :
    (s.j.pending.txns ≠ [] → ∃ s', Step c s s' ∧ s.j.queue.length < s'.j.queue.length) ∧
    (s.j.queue ≠ [] ∨ s.j.phase ≠ .idle → ∃ s', Step c s s' ∧ s'.j.phase ≠ s.j.phase) := by
  constructor
  · intro hp
    exact ⟨_, .journal (.timer hp) rfl, by simp⟩
  · intro hq
    cases hph : s.j.phase with
    | idle =>
      have hq : s.j.queue ≠ [] := hq.resolve_right (by rw [hph]; simp)
      obtain ⟨b, q, e⟩ := List.exists_cons_of_ne_nil hq
      exact ⟨_, .journal (.recv hph e) rfl, by simp⟩
    | journal b => exact ⟨_, .journal (.journalDone hph) rfl, by simp⟩
    | entries b todo =>
      cases todo with
      | nil => exact ⟨_, .journal (.ack hph) rfl, by simp⟩
      | cons e todo =>
        refine ⟨_, .journal (.entryDone hph e (by simp)) rfl, ?_⟩
        simp only [ne_eq, Journal.Phase.entries.injEq, true_and]
        intro e'
        have := congrArg List.length e'
        rw [List.length_erase_of_mem (by simp)] at this
        simp at this
    | blanking b => exact ⟨_, .journal (.blankDone hph) rfl, by simp⟩

/-! ## A fair run -/

theorem exec_is_step {s s' : LSt} {x : Cmd} (h : exec c s x = some s') : Step c s s' := by
  rcases exec_step h with ⟨a, _, ha⟩ | ⟨j', h3, h4, rfl⟩
  · exact .act a ha
  · exact .journal h3 h4

/-- the run that performs `cmds` and then rests -/
theorem lite_run_of_cmds {cmds : List Cmd} : ∀ {s s' : LSt}, Reach c s → Lite.run c s cmds = some s' →
    ∃ σ, Run c σ ∧ ∀ m, Lite.run c s (cmds.take m) = some (σ m) := by
  induction cmds with
  | nil =>
    intro s s' hr h
    cases h
    exact ⟨fun _ => s, ⟨hr, fun _ => .inl rfl⟩, fun _ => by simp [Lite.run]⟩
  | cons x xs ih =>
    intro s s' hr h
    simp only [Lite.run, List.foldlM_cons, Option.bind_eq_bind, Option.bind_eq_some_iff] at h
    obtain ⟨s1, h1, h2⟩ := h
    have hst := exec_is_step h1
    obtain ⟨σ, r1, r2⟩ := ih (hr.step hst) h2
    refine ⟨fun n => match n with | 0 => s | n + 1 => σ n, ⟨hr, ?_⟩, ?_⟩
    · intro n
      cases n with
      | zero =>
        right
        have := r2 0
        simp only [Lite.run, List.take_zero, List.foldlM_nil] at this
        cases this
        exact hst
      | succ n => exact r1.next n
    · intro m
      cases m with
      | zero => rfl
      | succ m =>
        simp only [Lite.run, List.take_succ_cons, List.foldlM_cons, h1, Option.bind_eq_bind, Option.bind_some]
        exact r2 m

theorem lite_fair_at_end (h : Run c σ) {s : LSt} {N : Nat} (hN : ∀ m, N ≤ m → σ m = s) (h1 : ∀ i, at? s i = none)
    (h2 : s.j.pending.txns = []) (h3 : s.j.queue = []) (h4 : s.j.phase = .idle) : FairRun c σ := by
  have key : ∀ {can act}, ¬ can s → Fair σ can act := by
    intro can act hcan n hall
    have := hall (max n N) (by omega)
    rw [hN _ (by omega)] at this
    exact absurd this hcan
  refine { toRun := h, calls := fun i => key ?_, timer := key ?_, flusher := key ?_, lock := ?_ }
  · rintro ⟨hn, _⟩; exact hn (h1 i)
  · exact fun hx => hx h2
  · rintro (e | e)
    · exact e h3
    · exact e h4
  · intro i o off n hall
    have := hall (max n N) (by omega)
    rw [hN _ (by omega), h1 i] at this
    cases this

theorem faults_keep {s s' : LSt} (h : Step c s s') (hf : s'.faults = []) : s.faults = [] := by
  cases h with
  | act a ha => exact act_faults ha hf
  | journal _ _ => exact hf

theorem reach_bound {s : LSt} (hr : Reach c s) : ∀ i t, s.thr i = some t → i < s.nextCall := fun i t ht => ((reach_ai hr).thr i t ht).1

def isIdle : Journal.Phase → Bool
  | .idle => true
  | _ => false

theorem isIdle_ok {p : Journal.Phase} (h : isIdle p = true) : p = .idle := by cases p <;> first | rfl | cases h

/-- two creates in one bucket: the second waits for a lookup to give the lock back while the first waits for the journal -/
def liteMixed : List Cmd :=
  [.a (.create [1] 3 [] 7 5), .a (.create [2] 3 [] 7 6), .a (.createWritten 1), .a (.createWritten 0), .a (.createLink 0 false),
   .a (.lookup (.look none) [1]), .a (.read 2), .timer, .a (.inode 2 false), .recv, .journalDone, .a (.atEnd 2 false), .a (.createLink 1 false)] ++
  List.replicate 2 .entryDone ++ [.ack, .blankDone] ++ finish 0 2 ++ flush 2 ++ finish 1 2

/-- A fair fault-free run with two creates and a lookup in one bucket: after seven steps the second create (call 1) waits
for the lock the lookup (call 2) holds and the first create waits for the journal; all three are answered. -/
theorem C71_case : ∃ σ, FairRun wcfg σ ∧ wcfg.Ok ∧ (∀ m, (σ m).faults = []) ∧ Holds wcfg (σ 7) 2 0 ∧ canLock wcfg (σ 7) 0 true = false ∧
    (∃ o off, at? (σ 7) 1 = some (.createLink o off) ∧ wcfg.bkt o.key = 0) ∧ (∃ f ts r, at? (σ 7) 0 = some (.wait (some 0) f ts r)) ∧
    (σ 40).acks.map (fun a => (a.id, a.resp)) = [(2, .notFound), (0, .created 5), (1, .created 6)] := by
  obtain ⟨s0, h0⟩ : ∃ s0, w0 = some s0 := Option.isSome_iff_exists.1 (by decide +kernel)
  have hall : (wrun liteMixed).map (fun s => decide (s.faults = [] ∧ (List.range s.nextCall).all (fun i => (s.thr i).isNone) ∧ s.j.pending.txns = [] ∧
      s.j.queue.length = 0 ∧ isIdle s.j.phase = true ∧
      s.acks.map (fun a => (a.id, a.resp)) = [(2, .notFound), (0, .created 5), (1, .created 6)])) = some true := by decide +kernel
  have hmid : (wrun (liteMixed.take 7)).map (fun s => (match s.thr 0, s.thr 1, s.thr 2 with
      | some ⟨_, .wait (some 0) _ _ _⟩, some ⟨_, .createLink o _⟩, some ⟨_, .walk _ key _ _ _ _ _⟩ =>
        decide (wcfg.bkt o.key = 0 ∧ wcfg.bkt key = 0 ∧ canLock wcfg s 0 true = false)
      | _, _, _ => false)) = some true := by decide +kernel
  have e : ∀ l, wrun l = Lite.run wcfg s0 l := fun l => by simp [wrun, h0]
  rw [e] at hall hmid
  obtain ⟨s1, h1, hend⟩ := Option.map_eq_some_iff.1 hall
  obtain ⟨s2, h2, hm⟩ := Option.map_eq_some_iff.1 hmid
  simp only [decide_eq_true_eq] at hend
  have hr0 : Reach wcfg s0 := .fresh (w0_fresh.trans h0)
  obtain ⟨σ, r1, r2⟩ := lite_run_of_cmds hr0 h1
  have hN : ∀ m, 40 ≤ m → σ m = s1 := by
    intro m hm
    have := r2 m
    rw [List.take_of_length_le (by have : liteMixed.length ≤ 40 := by decide
                                   omega), h1] at this
    exact (Option.some.inj this).symm
  have e2 : σ 7 = s2 := by
    have := r2 7
    rw [h2] at this
    exact (Option.some.inj this).symm
  obtain ⟨g1, g2, g3, g4, g5, g6⟩ := hend
  have hb := reach_bound (run_reach hr0 h1)
  have hfl : ∀ k m, σ (m + k) = s1 → (σ m).faults = [] := by
    intro k
    induction k with
    | zero => intro m e; rw [Nat.add_zero] at e; rw [e]; exact g1
    | succ k ih =>
      intro m e
      have := ih (m + 1) (by rw [← e]; congr 1; omega)
      rcases r1.next m with e' | e'
      · rw [← e']; exact this
      · exact faults_keep e' this
  refine ⟨σ, lite_fair_at_end r1 hN ?_ g3 (List.eq_nil_of_length_eq_zero g4) ?_, wcfg_ok, fun m => hfl 40 m (hN _ (by omega)), ?_⟩
  · intro i
    unfold at?
    cases ht : s1.thr i with
    | none => rfl
    | some t =>
      have := List.all_eq_true.1 g2 i (List.mem_range.2 (hb i t ht))
      rw [ht] at this
      cases this
  · exact isIdle_ok g5
  · rw [e2, hN 40 (Nat.le_refl _)]
    split at hm
    · rename_i t0 t1 t2
      simp only [decide_eq_true_eq] at hm
      exact ⟨⟨_, _, at_some.2 ⟨_, t2⟩, by simp only [PC.lock, hm.2.1]; rfl⟩, hm.2.2, ⟨_, _, at_some.2 ⟨_, t1⟩, hm.1⟩, ⟨_, _, _, at_some.2 ⟨_, t0⟩⟩, g6⟩
    · cases hm

/-! ## Where the code falls short -/

/-- the bytes a walk reads of the inode at `off` -/
def inodeAt (s : LSt) (off : Nat) : List Byte := s.j.dev.read off ({ keyLen := rdKeyLen s.j.dev off } : ObjectOffsets).lpages

/-- `s` with call `i` at `pc` -/
def putAt (s : LSt) (i : Nat) (st : Begun) (pc : PC) : LSt := { s with thr := upd s.thr i (some ⟨st, pc⟩) }

theorem upd_upd {β : Type} (f : Nat → β) (i : Nat) (a b : β) : upd (upd f i a) i b = upd f i b := by
  funext x; simp only [upd]; split <;> rfl

theorem spin_read {s : LSt} {i : Nat} {st : Begun} {req : Req} {key : List Byte} {cur : Nat} {prev : Option Nat} (h0 : cur ≠ 0) :
    act c (putAt s i st (.walk req key cur prev none none none)) (.read i) = some (putAt s i st (.walk req key cur prev
      (some (s.j.dev.read cur ({ keyLen := rdKeyLen s.j.dev cur } : ObjectOffsets).lpages)) none none)) := by
  have : (putAt s i st (.walk req key cur prev none none none)).thr i = some ⟨st, .walk req key cur prev none none none⟩ := by simp [putAt, upd]
  simp only [act, this, if_neg h0]
  simp only [setPc, putAt, upd_upd]

theorem spin_inode {s : LSt} {i : Nat} {st : Begun} {req : Req} {key : List Byte} {cur : Nat} {prev : Option Nat} {raw : List Byte}
    (hk : rdKey (ofBytes raw) 0 ≠ key) :
    act c (putAt s i st (.walk req key cur prev (some raw) none none)) (.inode i false) =
      some (putAt s i st (.walk req key (rawNext s raw) (some cur) none none none)) := by
  have : (putAt s i st (.walk req key cur prev (some raw) none none)).thr i = some ⟨st, .walk req key cur prev (some raw) none none⟩ := by simp [putAt, upd]
  simp only [act, this, onInode, if_neg hk]
  simp only [setPc, putAt, upd_upd]
  rfl

/-- four calls, answered: two objects of one bucket are created, and the first deleted while the second's transaction is
pending; then a third object is created, which gets the deleted one's place -/
def cycleRun : List Cmd :=
  doCreate 0 [1] 3 5 ++ doCommit 1 [1] 5 1 ++ createTo 2 [2] 3 6 ++ doDeleteMid 3 [1] 2 ++ flush 2 ++ finish 2 2 ++ doCreate 4 [3] 3 7

/-- The code breaks C71: after creating an object, committing it, creating another in the same bucket and, while that
create is not answered, deleting the first, and then creating a third one (all five calls answered, nothing pending),
the bucket's list is a cycle. A lookup of the deleted key follows it for ever: it keeps moving and never ends, in a
fair run; and it holds the bucket's lock, so that no create, commit or delete in the bucket can ever proceed. -/
theorem C71_violated_by_cycle : ∃ σ, FairRun wcfg σ ∧ wcfg.Ok ∧ (σ 0).acks.map (fun a => (a.id, a.resp)) =
      [(0, .created 5), (1, .committed), (3, .deleted), (2, .created 6), (4, .created 7)] ∧ (σ 0).faults = [.pendingPrev] ∧
    (∀ i, i ≠ 5 → at? (σ 0) i = none) ∧
    (∀ n, at? (σ n) 5 ≠ none ∧ at? (σ n) 5 ≠ some .dead ∧ at? (σ (n + 1)) 5 ≠ at? (σ n) 5) ∧
    (∀ n key, wcfg.bkt key = 0 → ∀ req, req.exclusive = true → act wcfg (σ n) (.lookup req key) = none) := by
  have h : (wrun cycleRun).map (fun s => decide (s.acks.map (fun a => (a.id, a.resp)) =
      [(0, .created 5), (1, .committed), (3, .deleted), (2, .created 6), (4, .created 7)] ∧ s.faults = [.pendingPrev] ∧ s.nextCall = 5 ∧
      (List.range s.nextCall).all (fun i => (s.thr i).isNone) ∧ s.j.pending.txns = [] ∧ s.j.queue.length = 0 ∧ isIdle s.j.phase = true ∧
      getHead wcfg s 0 = 33024 ∧
      rdKey (ofBytes (inodeAt s 33024)) 0 ≠ [1] ∧ rawNext s (inodeAt s 33024) = 33536 ∧
      rdKey (ofBytes (inodeAt s 33536)) 0 ≠ [1] ∧ rawNext s (inodeAt s 33536) = 33024)) = some true := by decide +kernel
  obtain ⟨s, h1, h2⟩ := Option.map_eq_some_iff.1 h
  simp only [decide_eq_true_eq] at h2
  obtain ⟨e1, e2, e3, e4, e5, e6, e7, e8, e9, e10, e11, e12⟩ := h2
  have hr := wrun_reach h1
  have hnone : ∀ i, s.thr i = none := by
    intro i
    cases ht : s.thr i with
    | none => rfl
    | some t =>
      have := List.all_eq_true.1 e4 i (List.mem_range.2 (reach_bound hr i t ht))
      rw [ht] at this
      cases this
  generalize hs5 : { s with nextCall := s.nextCall + 1 } = s5
  have f1 : s5.j = s.j ∧ s5.ov = s.ov ∧ s5.nextCall = 6 ∧ s5.thr = s.thr ∧ s5.acks = s.acks ∧ s5.faults = s.faults := by
    subst hs5; simp [e3]
  obtain ⟨f1, f2, f3, f4, f5, f6⟩ := f1
  have hin : ∀ off, inodeAt s5 off = inodeAt s off := fun off => by unfold inodeAt; rw [f1]
  have hnx : ∀ raw, rawNext s5 raw = rawNext s raw := fun raw => by unfold rawNext; rw [f2]
  rw [← hin] at e9 e10 e11 e12
  rw [← hnx] at e10 e12
  let st : Begun := ⟨.lookup (.look none) [1], s.lin.length⟩
  have key : ∀ pc, ∀ i, at? (putAt s5 5 st pc) i = if i = 5 then some pc else none := by
    intro pc i
    unfold at? putAt
    simp only [upd, f4]
    split
    · rfl
    · rw [hnone]; rfl
  have look : ∀ key, wcfg.bkt key = 0 := fun key => by unfold LCfg.bkt bucketIdForKey; simp [wcfg]
  have s0 : act wcfg s (.lookup (.look none) [1]) = some (putAt s5 5 st (.walk (.look none) [1] 33024 none none none none)) := by
    have : canLock wcfg s 0 false = true := by
      unfold canLock
      rw [List.all_eq_true]
      intro i _
      rw [hnone]; rfl
    simp only [act, look, Req.exclusive, this, if_true, e8, e3]
    subst hs5
    simp only [putAt, e3]
    rfl
  have rd : ∀ {cur prev}, cur ≠ 0 → Step wcfg (putAt s5 5 st (.walk (.look none) [1] cur prev none none none))
      (putAt s5 5 st (.walk (.look none) [1] cur prev (some (inodeAt s5 cur)) none none)) := fun h0 => .act (.read 5) (spin_read h0)
  have ino : ∀ {cur prev raw}, rdKey (ofBytes raw) 0 ≠ [1] → Step wcfg (putAt s5 5 st (.walk (.look none) [1] cur prev (some raw) none none))
      (putAt s5 5 st (.walk (.look none) [1] (rawNext s5 raw) (some cur) none none none)) := fun h0 => .act (.inode 5 false) (spin_inode h0)
  let pcs : Nat → PC := fun n => match n % 4 with
    | 0 => .walk (.look none) [1] 33536 (some 33024) none none none
    | 1 => .walk (.look none) [1] 33536 (some 33024) (some (inodeAt s5 33536)) none none
    | 2 => .walk (.look none) [1] 33024 (some 33536) none none none
    | _ => .walk (.look none) [1] 33024 (some 33536) (some (inodeAt s5 33024)) none none
  have hpcs : ∀ n, ∃ cur prev raw, pcs n = .walk (.look none) [1] cur prev raw none none := by
    intro n
    simp only [pcs]
    split <;> exact ⟨_, _, _, rfl⟩
  have hstep : ∀ n, Step wcfg (putAt s5 5 st (pcs n)) (putAt s5 5 st (pcs (n + 1))) ∧ pcs (n + 1) ≠ pcs n := by
    intro n
    have hn : n % 4 = 0 ∨ n % 4 = 1 ∨ n % 4 = 2 ∨ n % 4 = 3 := by omega
    rcases hn with hn | hn | hn | hn
    · have hn' : (n + 1) % 4 = 1 := by omega
      simp only [pcs, hn, hn']
      exact ⟨rd (by decide), by simp⟩
    · have hn' : (n + 1) % 4 = 2 := by omega
      simp only [pcs, hn, hn']
      have := ino (cur := 33536) (prev := some 33024) e11
      rw [e12] at this
      exact ⟨this, by simp⟩
    · have hn' : (n + 1) % 4 = 3 := by omega
      simp only [pcs, hn, hn']
      exact ⟨rd (by decide), by simp⟩
    · have hn' : (n + 1) % 4 = 0 := by omega
      simp only [pcs, hn, hn']
      have := ino (cur := 33024) (prev := some 33536) e9
      rw [e10] at this
      exact ⟨this, by simp⟩
  have hstart : Reach wcfg (putAt s5 5 st (pcs 0)) := by
    have h3 := ((hr.step (.act _ s0)).step (rd (by decide))).step (ino e9)
    rw [e10] at h3
    exact h3
  have hnc : ∀ i o off n, at? (putAt s5 5 st (pcs n)) i ≠ some (.createLink o off) := by
    intro i o off n
    rw [key]
    obtain ⟨cur, prev, raw, e⟩ := hpcs n
    split
    · rw [e]; simp
    · simp
  refine ⟨fun n => putAt s5 5 st (pcs n), { start := hstart, next := fun n => .inr (hstep n).1, calls := ?_, timer := ?_, flusher := ?_, lock := ?_ },
    wcfg_ok, ?_, ?_, ?_, ?_, ?_⟩
  · intro i n hall
    have h5 : i = 5 := by
      by_contra hne
      exact (hall n (Nat.le_refl _)).1 (by rw [key, if_neg hne])
    subst h5
    refine ⟨n, Nat.le_refl _, ?_⟩
    show at? (putAt s5 5 st (pcs (n + 1))) 5 ≠ at? (putAt s5 5 st (pcs n)) 5
    rw [key, key, if_pos rfl, if_pos rfl]
    intro e
    exact (hstep n).2 (Option.some.inj e)
  · intro n hall
    have := hall n (Nat.le_refl _)
    simp only [putAt, f1, e5, ne_eq, not_true_eq_false] at this
  · intro n hall
    rcases hall n (Nat.le_refl _) with h | h
    · simp only [putAt, f1] at h
      exact absurd (List.eq_nil_of_length_eq_zero e6) h
    · simp only [putAt, f1] at h
      exact absurd (isIdle_ok e7) h
  · intro i o off n hall
    exact absurd (hall n (Nat.le_refl _)) (hnc i o off n)
  · show s5.acks.map _ = _
    rw [f5]; exact e1
  · show s5.faults = _
    rw [f6]; exact e2
  · intro i hi
    rw [key, if_neg hi]
  · intro n
    obtain ⟨cur, prev, raw, e⟩ := hpcs n
    refine ⟨by rw [key, if_pos rfl]; simp, by rw [key, if_pos rfl, e]; simp, ?_⟩
    rw [key, key, if_pos rfl, if_pos rfl]
    intro e
    exact (hstep n).2 (Option.some.inj e)
  · intro n key' _ req hex
    obtain ⟨cur, prev, raw, e⟩ := hpcs n
    have : canLock wcfg (putAt s5 5 st (pcs n)) 0 true = false := by
      unfold canLock
      rw [List.all_eq_false]
      refine ⟨5, by simp [putAt, f3], ?_⟩
      have : (putAt s5 5 st (pcs n)).thr 5 = some ⟨st, pcs n⟩ := by simp [putAt, upd]
      rw [this, e]
      simp [PC.lock, look]
    simp only [act, look, hex, this]
    simp

end Props
end Blobd
