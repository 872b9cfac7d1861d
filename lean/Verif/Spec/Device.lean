import Verif.Model.Device
/-!
# What is expected of the device layer
-/
set_option autoImplicit false
namespace Blobd
namespace Dev

/-- nobody else touches byte `a` of the device -/
def Untouched (oth : File → File → Prop) (a : Nat) : Prop := ∀ g g', oth g g' → g'.bytes a = g.bytes a

/-- nobody makes the device larger or smaller -/
def SameSize (oth : File → File → Prop) : Prop := ∀ g g', oth g g' → g'.size = g.size

/-- the bytes `start …` replaced by `data` -/
def over (b : Nat → Byte) (start : Nat) (data : List Byte) : Nat → Byte :=
  fun a => if start ≤ a ∧ a < start + data.length then data.getD (a - start) 0 else b a

/-- the first byte of a window and its length -/
def Win.start : Win → Nat
  | .raw => 0
  | .part p => p.offset
  | .bounded b => b.part.offset + b.offset

/-- see above; `raw` is the whole device -/
def Win.len (size : Nat) : Win → Nat
  | .raw => size
  | .part p => p.len
  | .bounded b => b.len

/-- windows as the code makes them: within 64 bits, bounded stores made by `bounded` -/
def Win.Made : Win → Prop
  | .raw => True
  | .part p => p.offset + p.len < 2 ^ 64
  | .bounded b => b.part.offset + b.part.len < 2 ^ 64 ∧ b.part.bounded b.offset b.len = some b ∧ b.offset + b.len < 2 ^ 64

/-- calls -/
inductive Op where
  | read (off len : Nat)
  | write (off : Nat) (data : List Byte)

/-- answers -/
inductive Ans where
  | bytes (d : List Byte)
  | done
  | failed

/-- the call's range is within 64 bits -/
def Op.Small : Op → Prop
  | .read off len => off + len < 2 ^ 64
  | .write off data => off + data.length < 2 ^ 64

/-- what a call on a disk of its own, of `len` bytes, does to its contents `d`: a read answers the bytes asked for and
changes nothing, a write replaces exactly its range, both only inside the disk; a failed write may have written some of
its bytes -/
def Does (len : Nat) (d : Nat → Byte) : Op → Ans → (Nat → Byte) → Prop
  | .read off n, .bytes x, d' => off + n ≤ len ∧ x = (List.range n).map (fun i => d (off + i)) ∧ ∀ a < len, d' a = d a
  | .read _ _, .failed, d' => ∀ a < len, d' a = d a
  | .write off data, .done, d' => off + data.length ≤ len ∧ ∀ a < len, d' a = over d off data a
  | .write off data, .failed, d' => ∀ a < len, d' a = d a ∨ d' a = over d off data a
  | _, _, _ => False

/-- a history of calls on a disk of its own -/
inductive DiskRun (len : Nat) : (Nat → Byte) → List (Op × Ans) → (Nat → Byte) → Prop
  | nil {d d' : Nat → Byte} : (∀ a < len, d' a = d a) → DiskRun len d [] d'
  | cons {d d1 d2 : Nat → Byte} {o : Op} {x : Ans} {h : List (Op × Ans)} : Does len d o x d1 → DiskRun len d1 h d2 →
      DiskRun len d ((o, x) :: h) d2

/-- one call through a window of the device -/
inductive Call (K : Kernel) (oth : File → File → Prop) (k : Kind) (w : Win) : File → Op → Ans → File → Prop
  | read {f g : File} {off len : Nat} {d : List Byte} : WRead K oth k w f off len (.ok d) g → Call K oth k w f (.read off len) (.bytes d) g
  | readFails {f g : File} {off len : Nat} : WRead K oth k w f off len .panic g → Call K oth k w f (.read off len) .failed g
  | write {f g : File} {off : Nat} {data : List Byte} : WWrite K oth k w f off data (.ok ()) g →
      Call K oth k w f (.write off data) .done g
  | writeFails {f g : File} {off : Nat} {data : List Byte} : WWrite K oth k w f off data .panic g →
      Call K oth k w f (.write off data) .failed g

/-- calls through several windows of one device, one after the other -/
inductive History (K : Kernel) (oth : File → File → Prop) (k : Kind) (ws : Nat → Win) :
    File → List (Nat × Op × Ans) → File → Prop
  | nil {f : File} : History K oth k ws f [] f
  | cons {f g h : File} {i : Nat} {o : Op} {x : Ans} {l : List (Nat × Op × Ans)} : Call K oth k (ws i) f o x g →
      History K oth k ws g l h → History K oth k ws f ((i, o, x) :: l) h

/-- the contents of a page device: bytes of pages that are not there are zero -/
def Mock.flat (m : Mock) (a : Nat) : Byte := match m.pages (a / 4096) with
  | some p => p.getD (a % 4096) 0
  | none => 0

/-- the device is made by `new`, reads and writes -/
inductive Mock.Made : Mock → Prop
  | new : Mock.Made Mock.new
  | read {m : Mock} (start len : Nat) : Mock.Made m → Mock.Made (m.read start len).2
  | write {m : Mock} (start : Nat) (data : List Byte) : Mock.Made m → Mock.Made (m.write start data)

end Dev
end Blobd
