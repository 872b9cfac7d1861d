import Verif.Model.LiteStore
set_option autoImplicit false
/-!
# Bodies of `write_object` calls of the lite store

Model/LiteStore has the calls, lists, pages and the device; there the bytes a `write_object` call puts on its pages are left open. Here
each such call has its request body, and what it writes is what libblobd-lite/src/op/write_object.rs:133-187 makes of it: chunks arrive
in a buffer, pages are written from it one after the other, and the call answers when everything was received and written.
-/
namespace Blobd
namespace Lite
namespace Upload

/-- the loop of a running `write_object` call: libblobd-lite/src/op/write_object.rs:133-135 -/
structure Put where
  id : Nat
  off : Nat
  len : Nat
  body : List (Except Unit (List Byte))
  /-- what the body has still to yield -/
  stream : List (Except Unit (List Byte))
  buf : List Byte
  written : Nat
  idx : Nat
  /-- the bytes being written to the device (libblobd-lite/src/op/write_object.rs:161-167) -/
  busy : Option (List Byte)

/-- the store and the bodies of its running `write_object` calls -/
structure World where
  s : LSt
  /-- by call -/
  puts : Nat → Option Put
  /-- ghost: object id, offset and body of every call that passed the checks -/
  sent : List (Nat × Nat × List (Except Unit (List Byte)))

/-- actions of other calls, and those of a `write_object` call before it has found its object -/
def Act.other : Act → Prop
  | .data .. => False
  | .writeEnd .. => False
  | .cancel .. => False
  | .drop .. => False
  | _ => True

inductive WStep (c : LCfg) : World → World → Prop
  /-- libblobd-lite/src/op/write_object.rs:57-135: the object was found and the checks passed -/
  | start {w : World} {s' : LSt} {i : Nat} {idle : Bool} {st : Begun} {key : List Byte} {id off len : Nat} {targets : List (Nat × Nat)}
      (body : List (Except Unit (List Byte))) : act c w.s (.inode i idle) = some s' → s'.thr i = some ⟨st, .writing key id targets⟩ →
      st.call = .lookup (.write id off len) key →
      WStep c w ⟨s', upd w.puts i (some ⟨id, off, len, body, body, [], 0, 0, none⟩), (id, off, body) :: w.sent⟩
  /-- libblobd-lite/src/op/write_object.rs:136-142: a chunk. Simplified: chunks may also arrive while a whole page is buffered, and the
length check of lines 147-155 may be late; this only adds executions. -/
  | chunk {w : World} {i : Nat} {p : Put} {c' : List Byte} {rest : List (Except Unit (List Byte))} : w.puts i = some p → p.busy = none →
      p.stream = .ok c' :: rest → WStep c w { w with puts := upd w.puts i (some { p with stream := rest, buf := p.buf ++ c' }) }
  /-- libblobd-lite/src/op/write_object.rs:158-167: enough for the next page; the device write begins -/
  | begin_ {w : World} {i : Nat} {p : Put} {st : Begun} {key : List Byte} {id amt page : Nat} {targets : List (Nat × Nat)} : w.puts i = some p → p.busy = none →
      w.s.thr i = some ⟨st, .writing key id targets⟩ → targets[p.idx]? = some (amt, page) → amt ≤ p.buf.length →
      WStep c w { w with puts := upd w.puts i (some { p with busy := some (p.buf.take amt) }) }
  /-- some of its bytes have reached the device -/
  | piece {w : World} {s' : LSt} {i : Nat} {p : Put} {d : List Byte} (skip n : Nat) : w.puts i = some p → p.busy = some d →
      act c w.s (.data i p.idx skip ((d.drop skip).take n)) = some s' → WStep c w { w with s := s' }
  /-- libblobd-lite/src/op/write_object.rs:167-177: all of them have -/
  | written {w : World} {s' : LSt} {i : Nat} {p : Put} {d : List Byte} : w.puts i = some p → p.busy = some d →
      act c w.s (.data i p.idx 0 d) = some s' →
      WStep c w { w with
        s := s'
        puts := upd w.puts i (some { p with busy := none, buf := p.buf.drop d.length, written := p.written + d.length, idx := p.idx + 1 }) }
  /-- libblobd-lite/src/op/write_object.rs:143-146, 179-188: the body has ended, all of it is written and it was as long as declared -/
  | ack {w : World} {s' : LSt} {i : Nat} {p : Put} : w.puts i = some p → p.busy = none → p.stream = [] → p.buf = [] → p.written = p.len →
      act c w.s (.writeEnd i (.ok ())) = some s' → WStep c w { w with s := s', puts := upd w.puts i none }
  /-- libblobd-lite/src/op/write_object.rs:140, 154, 184: a broken, too long or too short body -/
  | fail {w : World} {s' : LSt} {i : Nat} {p : Put} (e : RW.OpError) : w.puts i = some p → p.busy = none →
      act c w.s (.writeEnd i (.error e)) = some s' → WStep c w { w with s := s', puts := upd w.puts i none }
  /-- the caller drops the call, not during a device write -/
  | drop {w : World} {s' : LSt} {i : Nat} : (∀ p, w.puts i = some p → p.busy = none) → act c w.s (.drop i) = some s' →
      WStep c w { w with s := s', puts := upd w.puts i none }
  /-- anything else, except that a `write_object` call passes its checks (`start`). A call dropped during a device write is not modelled
here: it is a fault (`writeCancelled`) of Model/LiteStore. -/
  | other {w : World} {s' : LSt} {a : Act} : Act.other a → act c w.s a = some s' →
      (∀ i st key id targets, s'.thr i = some ⟨st, .writing key id targets⟩ → w.s.thr i = some ⟨st, .writing key id targets⟩) →
      WStep c w { w with s := s' }
  | journal {w : World} {j' : Journal.State} : Journal.Step c.jc w.s.j j' → j'.hist = w.s.j.hist → WStep c w { w with s := { w.s with j := j' } }

/-- all executions on a freshly formatted device (libblobd-lite/src/lib.rs:281-330) -/
inductive Runs (c : LCfg) : World → Prop
  | fresh {dev : Mem} {s : LSt} : fresh c dev = some s → Runs c ⟨s, fun _ => none, []⟩
  | step {w w' : World} : Runs c w → WStep c w w' → Runs c w'

end Upload
end Lite
end Blobd
