import Verif.Spec.KvStore
/-! # Specification vocabulary: a KV read spread over time -/
namespace Blobd
namespace Kv

/-- an execution: `tr i` is the state after `i` steps, for `i ≤ n` -/
def Trace (c : StoreCfg) (tr : Nat → St) (n : Nat) : Prop := ∀ i, i < n → Step c (tr i) (tr (i + 1))

/-- finitely many steps -/
inductive Steps (c : StoreCfg) : St → St → Prop
  | refl (s) : Steps c s s
  | snoc {s s' s''} : Steps c s s' → Step c s' s'' → Steps c s s''

/-- libblobd-kv/src/log_buffer.rs:732-766 `read_tuple` interleaved with everything else: the two overlay maps are picked at
time `t1`, looked up at `t2` and `t3`, and the bundle page is read at `t4` -/
def slowReadTuple (c : StoreCfg) (tr : Nat → St) (t1 t2 t3 t4 : Nat) (k : Key) : Option Data :=
  match ((tr t2).gens (tr t1).cur).get k with
  | some e => e
  | none =>
    match (tr t1).com.bind (fun g => ((tr t3).gens g).get k) with
    | some e => e
    | none => pageGet ((tr t4).pages (bundleOf c k)) k

/-- no write or delete of `k` takes effect between times `a` and `b` -/
def Untouched (tr : Nat → St) (k : Key) (a b : Nat) : Prop :=
  ∀ i, a ≤ i → i < b → ∀ t, (tr (i + 1)).applied = (tr i).applied ++ [t] → t.key ≠ k

/-- libblobd-kv/src/op/read_object.rs:28-43, 81-85: the value bytes of a tuple when byte `i` of it is read from the device
at time `at i` -/
def slowValue (tr : Nat → St) (clock : Nat → Nat) : Data → List Byte
  | .inline d => d
  | .heap size off => (List.range size).map (fun i => (tr (clock i)).heap (off + i))

end Kv
end Blobd
