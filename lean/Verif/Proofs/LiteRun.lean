import Verif.Proofs.LiteSeq
set_option autoImplicit false
/-! # Lite store: running particular executions -/
namespace Blobd
namespace Lite

/-- a scheduler's choice: an action of a call, or a step of the journal -/
inductive Cmd
  | a (x : Act)
  | timer
  | recv
  | journalDone
  | entryDone
  | ack
  | blankDone

def exec (c : LCfg) (s : LSt) : Cmd → Option LSt
  | .a x => act c s x
  | .timer => if s.j.pending.txns.isEmpty then none else some { s with j := { s.j with queue := s.j.queue ++ [s.j.pending], pending := {} } }
  | .recv =>
    match s.j.phase, s.j.queue with
    | .idle, b :: q => some { s with j := { s.j with queue := q, phase := .journal b } }
    | _, _ => none
  | .journalDone =>
    match s.j.phase with
    | .journal b => some { s with j := { s.j with dev := s.j.dev.write c.jc.devOffset (b.buf c.jc), phase := .entries b b.entries } }
    | _ => none
  | .entryDone =>
    match s.j.phase with
    | .entries b (e :: todo) => some { s with j := { s.j with dev := s.j.dev.write e.1 e.2, phase := .entries b ((e :: todo).erase e) } }
    | _ => none
  | .ack =>
    match s.j.phase with
    | .entries b [] => some { s with j := { s.j with acked := s.j.acked ++ b.txns.map Journal.Txn.id, phase := .blanking b } }
    | _ => none
  | .blankDone =>
    match s.j.phase with
    | .blanking _ => some { s with j := { s.j with dev := s.j.dev.write c.jc.devOffset (Journal.blank c.jc), phase := .idle } }
    | _ => none

/-- the command is a journal step -/
theorem exec_step {c : LCfg} {s s' : LSt} {x : Cmd} (h : exec c s x = some s') :
    (∃ a, x = .a a ∧ act c s a = some s') ∨ ∃ j', Journal.Step c.jc s.j j' ∧ j'.hist = s.j.hist ∧ s' = { s with j := j' } := by
  cases x with
  | a x => exact .inl ⟨x, rfl, h⟩
  | timer =>
    simp only [exec] at h
    split at h <;> cases h
    rename_i hp
    exact .inr ⟨_, .timer (by intro e; exact hp (by rw [e]; rfl)), rfl, rfl⟩
  | recv =>
    simp only [exec] at h
    split at h <;> cases h
    rename_i hp hq
    exact .inr ⟨_, .recv hp hq, rfl, rfl⟩
  | journalDone =>
    simp only [exec] at h
    split at h <;> cases h
    rename_i hp
    exact .inr ⟨_, .journalDone hp, rfl, rfl⟩
  | entryDone =>
    simp only [exec] at h
    split at h <;> cases h
    rename_i e _ hp
    exact .inr ⟨_, .entryDone hp e (by simp), rfl, rfl⟩
  | ack =>
    simp only [exec] at h
    split at h <;> cases h
    rename_i hp
    exact .inr ⟨_, .ack hp, rfl, rfl⟩
  | blankDone =>
    simp only [exec] at h
    split at h <;> cases h
    rename_i hp
    exact .inr ⟨_, .blankDone hp, rfl, rfl⟩

def run (c : LCfg) (s : LSt) (xs : List Cmd) : Option LSt := xs.foldlM (exec c) s

theorem run_reach {c : LCfg} {s s' : LSt} {xs : List Cmd} (hs : Reach c s) (h : run c s xs = some s') : Reach c s' := by
  induction xs generalizing s with
  | nil => cases h; exact hs
  | cons x xs ih =>
    unfold run at h
    rw [List.foldlM_cons] at h
    simp only [Option.bind_eq_bind, Option.bind_eq_some_iff] at h
    obtain ⟨s1, h1, h2⟩ := h
    refine ih (hs.step ?_) h2
    rcases exec_step h1 with ⟨a, _, ha⟩ | ⟨j', h3, h4, rfl⟩
    · exact .act a ha
    · exact .journal h3 h4

/-- `Idle`, computed -/
def idleB (s : LSt) : Bool := (List.range s.nextCall).all (fun i => match s.thr i with
  | some ⟨_, .dead⟩ => true
  | some _ => false
  | none => true)

/-- like `exec`, for calls one at a time -/
def execSeq (c : LCfg) (s : LSt) : Cmd → Option LSt
  | .a (.create k n as cr id) => if idleB s then exec c s (.a (.create k n as cr id)) else none
  | .a (.lookup r k) => if idleB s then exec c s (.a (.lookup r k)) else none
  | .a (.cancel ..) => none
  | x => exec c s x

def runSeq (c : LCfg) (s : LSt) (xs : List Cmd) : Option LSt := xs.foldlM (execSeq c) s

theorem idleB_ok {s : LSt} (h : idleB s = true) (hb : ∀ i t, s.thr i = some t → i < s.nextCall) : Idle s := by
  intro i t ht
  have := List.all_eq_true.1 h i (List.mem_range.2 (hb i t ht))
  rw [ht] at this
  obtain ⟨st, pc⟩ := t
  cases pc <;> first | rfl | cases this

theorem runSeq_reach {c : LCfg} (hc : c.Ok) {s s' : LSt} {xs : List Cmd} (hs : SeqReach c s) (h : runSeq c s xs = some s') : SeqReach c s' := by
  induction xs generalizing s with
  | nil => cases h; exact hs
  | cons x xs ih =>
    unfold runSeq at h
    rw [List.foldlM_cons] at h
    simp only [Option.bind_eq_bind, Option.bind_eq_some_iff] at h
    obtain ⟨s1, h1, h2⟩ := h
    refine ih ?_ h2
    obtain ⟨_, _, _, hi⟩ := reach_inv hc hs.reach (seq_faults hc hs).2
    have hb : ∀ i t, s.thr i = some t → i < s.nextCall := fun i t ht => (hi.thr i t ht).1
    have he : exec c s x = some s1 ∧ (∀ a, x = .a a → a.starts → idleB s = true) ∧ (∀ i n bs, x ≠ .a (.cancel i n bs)) := by
      cases x with
      | a y =>
        cases y <;> simp only [execSeq] at h1 <;> first
          | (split at h1
             · rename_i hid
               exact ⟨h1, fun _ _ _ => hid, fun _ _ _ => by simp⟩
             · cases h1)
          | cases h1; done
          | (refine ⟨h1, ?_, fun _ _ _ => by simp⟩
             intro a e hst
             cases e
             cases hst)
      | _ => exact ⟨h1, fun a e => by simp at e, fun _ _ _ => by simp⟩
    rcases exec_step he.1 with ⟨a, rfl, ha⟩ | ⟨j', h3, h4, rfl⟩
    · exact .act a hs ha (fun hst => idleB_ok (he.2.1 a rfl hst) hb) (fun i n bs e => he.2.2 i n bs (by rw [e]))
    · exact .journal hs h3 h4

/-! ## A small store -/

/-- 256-byte and 1 KiB pages, a heap of 8 KiB, 4096 buckets, all keys in bucket 0 -/
def wcfg : LCfg where
  heap := ⟨32, 32768, 8192, ⟨8, 10⟩, .left⟩
  bkDev := 1024
  bits := 12
  hash := fun _ => 0
  jc := { devOffset := 24576, cap := 1024, encode := fun _ => [], hash := fun _ => List.replicate 32 0 }
  versioning := false

theorem wcfg_ok : wcfg.Ok :=
  ⟨by decide, by decide, by decide, by decide, by decide, by decide, by decide, by decide, by decide, by decide,
    fun _ => by simp [wcfg], ⟨by decide, fun _ => by simp [wcfg]⟩, fun _ _ => by simp [wcfg]⟩

/-- `fresh wcfg` on a device of zeros -/
def w0 : Option LSt := (Buddy.new wcfg.heap.pageNumBits wcfg.heap.base wcfg.heap.heap wcfg.heap.pages wcfg.heap.dir).map (fun a =>
  { j := { dev := fun _ => 0 }, ov := {}, alloc := a, thr := fun _ => none, nextCall := 0, orphans := [], ids := [], lin := [], acks := [],
    faults := [] })

theorem w0_fresh : fresh wcfg (fun _ => 0) = w0 := by
  have : Mem.write (fun _ => (0 : Byte)) wcfg.bkDev (List.replicate (bucketsSize (2 ^ wcfg.bits)) 0) = fun _ => 0 := by
    funext x
    simp only [Mem.write]
    split
    · rw [List.getElem?_replicate]
      split <;> rfl
    · rfl
  unfold fresh w0
  rw [this]
  cases Buddy.new wcfg.heap.pageNumBits wcfg.heap.base wcfg.heap.heap wcfg.heap.pages wcfg.heap.dir <;> rfl

def wrun (xs : List Cmd) : Option LSt := w0.bind (fun s => run wcfg s xs)

theorem wrun_reach {xs : List Cmd} {s : LSt} (h : wrun xs = some s) : Reach wcfg s := by
  obtain ⟨s0, h1, h2⟩ := Option.bind_eq_some_iff.1 h
  exact run_reach (.fresh (w0_fresh.trans h1)) h2

def wseq (xs : List Cmd) : Option LSt := w0.bind (fun s => runSeq wcfg s xs)

theorem wseq_reach {xs : List Cmd} {s : LSt} (h : wseq xs = some s) : SeqReach wcfg s := by
  obtain ⟨s0, h1, h2⟩ := Option.bind_eq_some_iff.1 h
  exact runSeq_reach wcfg_ok (.fresh (w0_fresh.trans h1)) h2

/-- the journal writes out what is pending: `n` places -/
def flush (n : Nat) : List Cmd := [.timer, .recv, .journalDone] ++ List.replicate n .entryDone ++ [.ack, .blankDone]

/-- `create_object` by call `i` up to its transaction -/
def createTo (i : Nat) (key : List Byte) (size id : Nat) : List Cmd :=
  [.a (.create key size [] 7 id), .a (.createWritten i), .a (.createLink i false)]

/-- the rest of call `i` with `n` overlay entries, once its transaction is acknowledged -/
def finish (i n : Nat) : List Cmd := [.a (.signalled i)] ++ List.replicate n (.a (.evict i)) ++ [.a (.respond i)]

/-- a lookup by call `i` that visits `n` inodes -/
def visit (i n : Nat) : List Cmd := (List.replicate n [Cmd.a (.read i), .a (.inode i false)]).flatten

/-- whole calls, run alone by call `i`; `n` is the number of inodes they visit -/
def doCreate (i : Nat) (key : List Byte) (size id : Nat) : List Cmd := createTo i key size id ++ flush 2 ++ finish i 2
def doWrite (i : Nat) (key : List Byte) (id n : Nat) (bytes : List Byte) : List Cmd :=
  [.a (.lookup (.write id 0 bytes.length) key)] ++ visit i n ++ [.a (.data i 0 0 bytes), .a (.writeEnd i (.ok ()))]
def commitTo (i : Nat) (key : List Byte) (id n : Nat) : List Cmd := [.a (.lookup (.commit id) key)] ++ visit i n ++ [.a (.atEnd i false)]
def doCommit (i : Nat) (key : List Byte) (id n : Nat) : List Cmd := commitTo i key id n ++ flush 1 ++ finish i 1
/-- of the first inode -/
def doDeleteHead (i : Nat) (key : List Byte) : List Cmd := [.a (.lookup (.delete none) key)] ++ visit i 1 ++ flush 1 ++ finish i 1
/-- of the `n`th inode -/
def doDeleteMid (i : Nat) (key : List Byte) (n : Nat) : List Cmd := [.a (.lookup (.delete none) key)] ++ visit i n ++ finish i 1
/-- finds the `n`th inode -/
def doLook (i : Nat) (key : List Byte) (n : Nat) : List Cmd := [.a (.lookup (.look none) key)] ++ visit i n

/-- the list of bucket `b`, at most `n` inodes of it, computed -/
def listOf (s : LSt) : Nat → Nat → List Nat
  | 0, _ => []
  | n + 1, off => if off = 0 then [] else off :: listOf s n (nextOf s off)

theorem listOf_chain {s : LSt} {n off : Nat} (h : (listOf s n off).length < n) : Chain s off (listOf s n off) := by
  induction n generalizing off with
  | zero => cases h
  | succ n ih =>
    simp only [listOf] at h ⊢
    split
    · rename_i e; rw [e]; exact .nil
    · rename_i e
      rw [if_neg e] at h
      exact .cons e (ih (by simpa using h))

end Lite
end Blobd
