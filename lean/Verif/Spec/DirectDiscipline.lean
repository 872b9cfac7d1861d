import Verif.Spec.DirectStore
/-!
# Well-behaved use of the direct store

Conditions on what clients do and on when the process crashes, in terms of the history only: `s.lin` are the effects
since the last start, `s.acks` the answers given. Each excludes one thing that the violation theorems of C28, C29, C30
show to break the store.
-/
set_option autoImplicit false
namespace Blobd
namespace Direct

/-- every commit and delete that changed key `k` since the last start has been answered -/
def Answered (s : DSt) (k : List Byte) : Prop := ∀ e ∈ s.lin, e.2.touches k → ∃ a ∈ s.acks, a.call = e.1

structure Polite (c : SCfg) (s s' : DSt) : Prop where
  /-- a commit or delete takes effect on a key only when the earlier ones on that key are answered -/
  turns : ∀ e k, s'.lin = s.lin ++ [e] → e.2.touches k → Answered s k
  /-- no `write_object` call is dropped during a device write -/
  writes : s'.orphans = []
  /-- the metadata (with the key and the list of pages) of every object takes at most two small pages -/
  small : ∀ th ∈ s'.threads, ∀ m, th.pc = .createData m → m.enc.length ≤ 2 * 2 ^ c.pages.spage

/-- every commit that replaced an object has been answered -/
def NoReplacing (s : DSt) : Prop := ∀ pre call old id m ifne post,
  s.lin = pre ++ (call, Ev.published old id m ifne) :: post → visMap s.base.1 (pre.map (·.2)) m.key ≠ none →
  ∃ a ∈ s.acks, a.call = call

/-- the states of executions with polite steps and with restarts after crashes that did not hit a commit replacing an
object -/
inductive Calm (c : SCfg) : DSt → Prop
  | fresh {dev s} : fresh c dev = some s → Calm c s
  | step {s s'} : Calm c s → Step c s s' → Polite c s s' → Calm c s'
  | restart {s s'} (order : List Tuple) : Calm c s → NoReplacing s → order.Perm (diskTuples c.n s.ts) →
      load c s order = some s' → Calm c s'

/-- `s'` is reached from `s` by polite steps, none of which is a commit or delete taking effect on key `k`, and by restarts
after crashes that did not hit a commit replacing an object -/
inductive Later (c : SCfg) (k : List Byte) (s : DSt) : DSt → Prop
  | refl : Later c k s s
  | step {a b} : Later c k s a → Step c a b → Polite c a b → (∀ e, b.lin = a.lin ++ [e] → ¬ e.2.touches k) → Later c k s b
  | restart {a b} (order : List Tuple) : Later c k s a → NoReplacing a → order.Perm (diskTuples c.n a.ts) →
      load c a order = some b → Later c k s b

end Direct
end Blobd
