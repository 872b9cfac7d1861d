import Verif.Model.LiteStart
import Verif.Spec.LiteStore
set_option autoImplicit false
/-! # Specification vocabulary for reopening a lite store -/
namespace Blobd
namespace Lite

/-- every transaction handed to the journal has been written out and acknowledged -/
def Drained (s : LSt) : Prop := s.j.acked.length = s.j.hist.length

/-- the store holds no object, incomplete or committed -/
def Empty (c : LCfg) (s : LSt) : Prop := ∀ b, b < 2 ^ c.bits → Chain s (getHead c s b) []

/-- the action releases pages -/
def Releases (s : LSt) (a : Act) : Prop :=
  ∃ i st txn free tickets resp, a = .signalled i ∧ s.thr i = some ⟨st, .wait txn free tickets resp⟩ ∧ free ≠ []

/-- executions in which no object is created and no pages are released: lookups, reads, writes, commits that replace
nothing (and deletes and replacing commits up to the point where they would release pages), interleaved in any way -/
inductive Later (c : LCfg) : LSt → LSt → Prop
  | refl {s : LSt} : Later c s s
  | act {s s1 s2 : LSt} (a : Act) : Later c s s1 → act c s1 a = some s2 → (∀ k n as t id, a ≠ .create k n as t id) → ¬ Releases s1 a →
      Later c s s2
  | journal {s s1 : LSt} {j' : Journal.State} : Later c s s1 → Journal.Step c.jc s1.j j' → j'.hist = s1.j.hist →
      Later c s { s1 with j := j' }

/-- following the next pointers on the device from `off` visits exactly `l` and then ends -/
inductive DevChain (m : Mem) : Nat → List Nat → Prop
  | nil : DevChain m 0 []
  | cons {off : Nat} {l : List Nat} : off ≠ 0 → DevChain m (rdNext m off) l → DevChain m off (off :: l)

/-- bucket `b`'s list on the device, without any overlay, holds the versions of `a` of the keys of that bucket, newest first, each in
one of the two states the code knows -/
def BucketShows (c : LCfg) (m : Mem) (a : Abs) (b : Nat) : Prop :=
  ∃ l, DevChain m (rdHead m c.bkDev b) l ∧ l.Nodup ∧ (∀ off ∈ l, rdState m off = stIncomplete ∨ rdState m off = stCommitted) ∧
    ∀ k, c.bkt k = b → (l.filter (fun off => rdKey m off = k)).map
      (fun off => (⟨rdId m off, rdSize m off, decide (rdState m off = stCommitted)⟩ : Ver)) = a k

/-- the lists on the device, without any overlay, hold key by key the versions of `a`, newest first -/
def DeviceShows (c : LCfg) (m : Mem) (a : Abs) : Prop := ∀ b, b < 2 ^ c.bits → BucketShows c m a b

/-- the journal is writing transactions to their places on the device, and has not finished -/
def Applying (s : LSt) : Prop := ∃ b todo, s.j.phase = .entries b todo ∧ todo ≠ []

/-- what happened last is a commit that replaced a committed version of its key -/
def ReplacingNow (c : LCfg) (s : LSt) : Prop :=
  c.versioning = false ∧ ∃ pre i k id a, s.lin = pre ++ [(i, .committed k id)] ∧ absRun c.versioning (pre.map (·.2)) = some a ∧ (a.find k none).isSome

/-- the event `e` of call `i` is a commit that replaced a committed version of its key -/
def ReplacedIn (c : LCfg) (lin : List (Nat × Ev)) (i : Nat) (e : Ev) : Prop :=
  c.versioning = false ∧ ∃ pre post k id x, lin = pre ++ (i, e) :: post ∧ e = .committed k id ∧ absRun c.versioning (pre.map (·.2)) = some x ∧
    (x.find k none).isSome

/-- the moments, with calls one at a time, at which a crash does harm: during a commit that replaces an object, and while
the journal writes the changes of anything but a commit to their places -/
def Exposed (c : LCfg) (s : LSt) : Prop :=
  ¬ Drained s ∧ (ReplacingNow c s ∨ (Applying s ∧ ∀ pre i k id, s.lin ≠ pre ++ [(i, .committed k id)]))

/-- the store opened again after a crash in state `s` of which only the events `pre` count -/
def restarted (c : LCfg) (s : LSt) (a : Buddy) (pre : List (Nat × Ev)) : LSt := { reopened c s a with lin := pre }

/-- any execution from one state to another -/
inductive Execs (c : LCfg) : LSt → LSt → Prop
  | refl {s : LSt} : Execs c s s
  | step {s s1 s2 : LSt} : Execs c s s1 → Step c s1 s2 → Execs c s s2

/-- every call that changed anything in bucket `b` (created, committed or removed an object) has been answered -/
def Answered (c : LCfg) (s : LSt) (b : Nat) : Prop :=
  ∀ i e, (i, e) ∈ s.lin → c.bkt e.key = b → ((∃ k id n, e = .created k id n) ∨ (∃ k id, e = .committed k id) ∨ ∃ k want id, e = .removed k want id) →
    ∃ a ∈ s.acks, a.id = i

/-- every call that changed anything in bucket `b` has been answered, except commits that replaced nothing -/
def OnlyCommits (c : LCfg) (s : LSt) (b : Nat) : Prop :=
  ∀ i e, (i, e) ∈ s.lin → c.bkt e.key = b → ((∃ k id n, e = .created k id n) ∨ ReplacedIn c s.lin i e ∨ ∃ k want id, e = .removed k want id) →
    ∃ a ∈ s.acks, a.id = i

/-- every call that changed anything in bucket `b` has been answered, except creates -/
def OnlyCreates (c : LCfg) (s : LSt) (b : Nat) : Prop :=
  ∀ i e, (i, e) ∈ s.lin → c.bkt e.key = b → ((∃ k id, e = .committed k id) ∨ ∃ k want id, e = .removed k want id) → ∃ a ∈ s.acks, a.id = i

/-- every call that changed anything in bucket `b` has been answered, except deletes -/
def OnlyDeletes (c : LCfg) (s : LSt) (b : Nat) : Prop :=
  ∀ i e, (i, e) ∈ s.lin → c.bkt e.key = b → ((∃ k id n, e = .created k id n) ∨ ∃ k id, e = .committed k id) → ∃ a ∈ s.acks, a.id = i

/-- the event creates, commits or removes an object -/
def Ev.isChange : Ev → Bool
  | .created .. => true
  | .committed .. => true
  | .removed .. => true
  | _ => false

/-- every commit in bucket `b` that replaced a committed object has been answered -/
def NoneReplacing (c : LCfg) (s : LSt) (b : Nat) : Prop :=
  ∀ i e, (i, e) ∈ s.lin → c.bkt e.key = b → ReplacedIn c s.lin i e → ∃ a ∈ s.acks, a.id = i

/-- `y` are the versions after everything that happened, or, as far as bucket `b` is concerned, before the last change of the bucket, if
that has not been answered -/
def AllOrAllButLast (c : LCfg) (s : LSt) (b : Nat) (y : Abs) : Prop :=
  absRun c.versioning (s.lin.map (·.2)) = some y ∨
  ∃ pre i e post, s.lin = pre ++ (i, e) :: post ∧ e.isChange = true ∧ c.bkt e.key = b ∧ (∀ a ∈ s.acks, a.id ≠ i) ∧
    (∀ p ∈ post, c.bkt p.2.key = b → p.2.isChange = false) ∧ absRun c.versioning (pre.map (·.2)) = some y

/-- the versions `x` but for the object with this id -/
def Abs.omit (x : Abs) (id : Nat) : Abs := fun k => (x k).filter fun v => v.id ≠ id

/-- the versions `x`, with those in `D` not yet committed -/
def Abs.without (x : Abs) (D : List Nat) : Abs := fun k => (x k).map fun v => if v.id ∈ D then ⟨v.id, v.size, false⟩ else v

/-- actions with which the inspect (or read) call `i` looks for its object -/
def Act.looks (i : Nat) : Act → Prop
  | .read j => j = i
  | .inode j _ => j = i
  | .atEnd j _ => j = i
  | _ => False

/-- `n` of these actions and nothing else -/
inductive Looking (c : LCfg) (i : Nat) : Nat → LSt → LSt → Prop
  | refl {s : LSt} : Looking c i 0 s s
  | step {n : Nat} {s s1 s2 : LSt} {a : Act} : Looking c i n s s1 → a.looks i → act c s1 a = some s2 → Looking c i (n + 1) s s2

/-- the answer to an inspect of this version of `key` when `x` is what the store holds -/
def AnswersAs (x : Abs) (key : List Byte) (want : Option Nat) (r : Resp) : Prop :=
  match x.find key want with
  | some v => ∃ off, r = .found v.id v.size off
  | none => r = .notFound

/-- the inodes startup looks at: the places it takes for the first objects of the buckets, and from each the next -/
inductive Visited (c : LCfg) (m : Mem) : Nat → Prop
  | first {b : Nat} : b < 2 ^ c.bits → rdHeadAtStartup m c.bkDev b ≠ 0 → Visited c m (rdHeadAtStartup m c.bkDev b)
  | next {x : Nat} : Visited c m x → rdNext m x ≠ 0 → Visited c m (rdNext m x)

end Lite
end Blobd
