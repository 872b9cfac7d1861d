import Verif.Model.Capacity
import Verif.Model.Regions
/-!
# The device layer

How the three libraries read and write their devices: the file-backed and io_uring-backed stores of the direct and KV
libraries, the `O_DSYNC` file of the lite library, the windows (partition and bounded stores) put on top of them, the
in-memory device used by lite's tests, and the whole-area accesses made when a store is formatted and opened.

The operating system is represented by the answers it may give to one system call. Not modelled: alignment demanded by
`O_DIRECT` (C70), volatile device caches and `sync` (the crash models of C28 and C35), files that grow when written past
the end (the devices have a fixed size), `u64`-to-`usize` conversions.
-/
set_option autoImplicit false
namespace Blobd
namespace Dev

/-- the most bytes one read or write transfers on Linux (read(2); `URING_LEN_MAX` of the crate used by
libblobd-kv/src/object.rs:21) -/
def lenMax : Nat := 0x7ffff000

/-- an open device or file -/
structure File where
  size : Nat
  bytes : Nat → Byte

/-- `n` bytes from `off` on -/
def File.slice (f : File) (off n : Nat) : List Byte := (List.range n).map fun i => f.bytes (off + i)

/-- the first `n` bytes of `data` put at `off` -/
def File.put (f : File) (off : Nat) (data : List Byte) (n : Nat) : File :=
  { f with bytes := fun a => if off ≤ a ∧ a < off + n then data.getD (a - off) 0 else f.bytes a }

/-- what the system answers to a call that wants to transfer `len` bytes at `off`: the number of bytes transferred, an
interruption, or another error -/
inductive Answer where
  | n (n : Nat)
  | interrupted
  | error

/-- the answers a system may give -/
abbrev Kernel := File → Nat → Nat → Answer → Prop

/-- what every system guarantees: it transfers no more than asked for, than it ever transfers at once, and than there is -/
def Kernel.Sound (K : Kernel) : Prop := ∀ f off len n, K f off len (.n n) → n ≤ len ∧ n ≤ lenMax ∧ n ≤ f.size - off

/-- what Linux does with a healthy disk and without signals: it transfers as much as it can -/
def Kernel.Healthy (K : Kernel) : Prop := ∀ f off len a, K f off len a → a = .n (min len (min lenMax (f.size - off)))

/-- how a call of the code ends -/
inductive Res (α : Type) where
  | ok (a : α)
  | panic

/-- what the other users of the device do between two system calls of a call -/
inductive Others (oth : File → File → Prop) : File → File → Prop
  | none {f : File} : Others oth f f
  | one {f g h : File} : Others oth f g → oth g h → Others oth f h

/-- libblobd-direct/src/backing_store/file.rs:29-41 and libblobd-direct/src/backing_store/uring.rs:79-92 (the same in
libblobd-kv/src/backing_store/file.rs:29-41 and libblobd-kv/src/backing_store/uring.rs:79-92) `read_at`: one system call
into a buffer with old contents `junk`; anything but a full transfer is a panic -/
inductive OneRead (K : Kernel) (f : File) (off len : Nat) (junk : List Byte) : Res (List Byte) → Prop
  | ok {n : Nat} : K f off len (.n n) → n = len → OneRead K f off len junk (.ok (f.slice off n ++ junk.drop n))
  | short {n : Nat} : K f off len (.n n) → n ≠ len → OneRead K f off len junk .panic
  | interrupted : K f off len .interrupted → OneRead K f off len junk .panic
  | error : K f off len .error → OneRead K f off len junk .panic

/-- libblobd-direct/src/backing_store/file.rs:43-54 and libblobd-direct/src/backing_store/uring.rs:94-107 (the same in
libblobd-kv/src/backing_store/file.rs:43-54 and libblobd-kv/src/backing_store/uring.rs:94-107) `write_at` -/
inductive OneWrite (K : Kernel) (f : File) (off : Nat) (data : List Byte) : Res Unit → File → Prop
  | ok {n : Nat} : K f off data.length (.n n) → n = data.length → OneWrite K f off data (.ok ()) (f.put off data n)
  | short {n : Nat} : K f off data.length (.n n) → n ≠ data.length → OneWrite K f off data .panic (f.put off data n)
  | interrupted : K f off data.length .interrupted → OneWrite K f off data .panic f
  | error : K f off data.length .error → OneWrite K f off data .panic f

/-- libblobd-lite/src/device/real.rs:37-49 `read_at` (`read_exact_at` of the standard library): calls until everything is
there; an interrupted call is made again, an error or the end of the file is a panic -/
inductive AllRead (K : Kernel) (oth : File → File → Prop) : File → Nat → Nat → Res (List Byte) → File → Prop
  | done {f : File} {off : Nat} : AllRead K oth f off 0 (.ok []) f
  | more {f g h : File} {off len n : Nat} {d : List Byte} : 0 < len → Others oth f g → K g off len (.n n) → 0 < n →
      AllRead K oth g (off + n) (len - n) (.ok d) h → AllRead K oth f off len (.ok (g.slice off n ++ d)) h
  | fails {f g h : File} {off len n : Nat} : 0 < len → Others oth f g → K g off len (.n n) → 0 < n →
      AllRead K oth g (off + n) (len - n) .panic h → AllRead K oth f off len .panic h
  | again {f g h : File} {off len : Nat} {r : Res (List Byte)} : 0 < len → Others oth f g → K g off len .interrupted →
      AllRead K oth g off len r h → AllRead K oth f off len r h
  | eof {f g : File} {off len : Nat} : 0 < len → Others oth f g → K g off len (.n 0) → AllRead K oth f off len .panic g
  | error {f g : File} {off len : Nat} : 0 < len → Others oth f g → K g off len .error → AllRead K oth f off len .panic g

/-- libblobd-lite/src/device/real.rs:53-64 `write_at` (`write_all_at` of the standard library) -/
inductive AllWrite (K : Kernel) (oth : File → File → Prop) : File → Nat → List Byte → Res Unit → File → Prop
  | done {f : File} {off : Nat} : AllWrite K oth f off [] (.ok ()) f
  | more {f g h : File} {off n : Nat} {data : List Byte} {r : Res Unit} : data ≠ [] → Others oth f g →
      K g off data.length (.n n) → 0 < n → AllWrite K oth (g.put off data n) (off + n) (data.drop n) r h →
      AllWrite K oth f off data r h
  | again {f g h : File} {off : Nat} {data : List Byte} {r : Res Unit} : data ≠ [] → Others oth f g →
      K g off data.length .interrupted → AllWrite K oth g off data r h → AllWrite K oth f off data r h
  | eof {f g : File} {off : Nat} {data : List Byte} : data ≠ [] → Others oth f g → K g off data.length (.n 0) →
      AllWrite K oth f off data .panic g
  | error {f g : File} {off : Nat} {data : List Byte} : data ≠ [] → Others oth f g → K g off data.length .error →
      AllWrite K oth f off data .panic g

/-- the ways a device is accessed: direct and KV (`File` or `Uring`, libblobd-direct/src/lib.rs:81-86,
libblobd-kv/src/lib.rs:51-56), lite -/
inductive Kind where
  | file
  | uring
  | dsync
  deriving DecidableEq

/-- a read by any of them: how it ends, and the device afterwards -/
inductive Read (K : Kernel) (oth : File → File → Prop) : Kind → File → Nat → Nat → Res (List Byte) → File → Prop
  | one {k : Kind} {f g h : File} {off len : Nat} {junk : List Byte} {r : Res (List Byte)} : k ≠ .dsync →
      junk.length = len → Others oth f g → OneRead K g off len junk r → Others oth g h → Read K oth k f off len r h
  | all {f g h : File} {off len : Nat} {r : Res (List Byte)} : AllRead K oth f off len r g → Others oth g h →
      Read K oth .dsync f off len r h

/-- a write by any of them -/
inductive Write (K : Kernel) (oth : File → File → Prop) : Kind → File → Nat → List Byte → Res Unit → File → Prop
  | one {k : Kind} {f g h i : File} {off : Nat} {data : List Byte} {r : Res Unit} : k ≠ .dsync → Others oth f g →
      OneWrite K g off data r h → Others oth h i → Write K oth k f off data r i
  | all {f g h : File} {off : Nat} {data : List Byte} {r : Res Unit} : AllWrite K oth f off data r g → Others oth g h →
      Write K oth .dsync f off data r h

/-! ## Windows -/

/-- `u64` addition in a release build -/
def wadd (a b : Nat) : Nat := (a + b) % 2 ^ 64

/-- libblobd-direct/src/backing_store/mod.rs:33-38 `PartitionStore` (libblobd-kv/src/backing_store/mod.rs:23-28
`BoundedStore`) -/
structure Part where
  offset : Nat
  len : Nat
  deriving DecidableEq

/-- libblobd-direct/src/backing_store/mod.rs:98-103 `BoundedStore` -/
structure Bounded where
  part : Part
  offset : Nat
  len : Nat
  deriving DecidableEq

/-- libblobd-direct/src/backing_store/mod.rs:87-95 `bounded`; `none` is a panic -/
def Part.bounded (p : Part) (offset len : Nat) : Option Bounded :=
  if wadd offset len ≤ p.len then some ⟨p, offset, len⟩ else none

/-- libblobd-direct/src/backing_store/mod.rs:57-66, libblobd-kv/src/backing_store/mod.rs:43-52: where on the device an
access of `n` bytes at `off` goes; `none` is a panic -/
def Part.at? (p : Part) (off n : Nat) : Option Nat := if wadd off n ≤ p.len then some (wadd p.offset off) else none

/-- libblobd-direct/src/backing_store/mod.rs:111-117, 119-125 -/
def Bounded.at? (b : Bounded) (off n : Nat) : Option Nat :=
  if wadd off n ≤ b.len then b.part.at? (wadd b.offset off) n else none

/-- what an access goes through: nothing (the KV library also uses the device as it is, libblobd-kv/src/lib.rs:94-100), a
partition, or a part of it -/
inductive Win where
  | raw
  | part (p : Part)
  | bounded (b : Bounded)

/-- where an access goes -/
def Win.at? : Win → Nat → Nat → Option Nat
  | .raw => fun off _ => some off
  | .part p => p.at?
  | .bounded b => b.at?

/-- libblobd-direct/src/backing_store/mod.rs:57-66, 111-117: a read through a window -/
inductive WRead (K : Kernel) (oth : File → File → Prop) (k : Kind) (w : Win) (f : File) (off len : Nat) :
    Res (List Byte) → File → Prop
  | refused : w.at? off len = none → WRead K oth k w f off len .panic f
  | goes {a : Nat} {r : Res (List Byte)} {g : File} : w.at? off len = some a → Read K oth k f a len r g →
      WRead K oth k w f off len r g

/-- libblobd-direct/src/backing_store/mod.rs:68-81, 119-125: a write through a window -/
inductive WWrite (K : Kernel) (oth : File → File → Prop) (k : Kind) (w : Win) (f : File) (off : Nat) (data : List Byte) :
    Res Unit → File → Prop
  | refused : w.at? off data.length = none → WWrite K oth k w f off data .panic f
  | goes {a : Nat} {r : Res Unit} {g : File} : w.at? off data.length = some a → Write K oth k f a data r g →
      WWrite K oth k w f off data r g

/-! ## Accesses to whole areas -/

/-- `(0..len).step_by(step)` with `min(len - offset, step)`: the pieces (offset, length) of an area -/
def pieces (len step : Nat) (off : Nat) : List (Nat × Nat) :=
  if h : off < len ∧ 0 < step then (off, min (len - off) step) :: pieces len step (off + step) else []
termination_by len - off

/-- writes one after the other, each through the window -/
inductive Zeroes (K : Kernel) (oth : File → File → Prop) (k : Kind) (w : Win) : File → List (Nat × Nat) → Res Unit → File → Prop
  | done {f : File} : Zeroes K oth k w f [] (.ok ()) f
  | more {f g h : File} {p : Nat × Nat} {ps : List (Nat × Nat)} {r : Res Unit} :
      WWrite K oth k w f p.1 (List.replicate p.2 0) (.ok ()) g → Zeroes K oth k w g ps r h → Zeroes K oth k w f (p :: ps) r h
  | fails {f g : File} {p : Nat × Nat} {ps : List (Nat × Nat)} :
      WWrite K oth k w f p.1 (List.replicate p.2 0) .panic g → Zeroes K oth k w f (p :: ps) .panic g

/-- reads one after the other -/
inductive Loads (K : Kernel) (oth : File → File → Prop) (k : Kind) (w : Win) :
    File → List (Nat × Nat) → Res (List Byte) → File → Prop
  | done {f : File} : Loads K oth k w f [] (.ok []) f
  | more {f g h : File} {p : Nat × Nat} {ps : List (Nat × Nat)} {d e : List Byte} :
      WRead K oth k w f p.1 p.2 (.ok d) g → Loads K oth k w g ps (.ok e) h → Loads K oth k w f (p :: ps) (.ok (d ++ e)) h
  | later {f g h : File} {p : Nat × Nat} {ps : List (Nat × Nat)} {d : List Byte} :
      WRead K oth k w f p.1 p.2 (.ok d) g → Loads K oth k w g ps .panic h → Loads K oth k w f (p :: ps) .panic h
  | fails {f g : File} {p : Nat × Nat} {ps : List (Nat × Nat)} :
      WRead K oth k w f p.1 p.2 .panic g → Loads K oth k w f (p :: ps) .panic g

/-- libblobd-direct/src/partition/mod.rs:61-64 `format` with libblobd-direct/src/objects.rs:48-57
`format_device_for_objects`: the tuple area is overwritten with zeros, a GiB at a time -/
def DirectFormat (K : Kernel) (oth : File → File → Prop) (k : Kind) (p : Part) (area : Nat) (f : File) (r : Res Unit)
    (g : File) : Prop :=
  (p.bounded 0 area = none ∧ r = .panic ∧ g = f) ∨
  ∃ b, p.bounded 0 area = some b ∧ Zeroes K oth k (.bounded b) f (pieces area (1024 * 1024 * 1024) 0) r g

/-- libblobd-direct/src/tuples.rs:198-203 `load_raw_tuples_area_from_device`: the tuple area is read at once. `area` is
`heap_dev_offset` (libblobd-direct/src/partition/mod.rs:36-37, `Direct.tupleArea`). -/
def DirectLoad (K : Kernel) (oth : File → File → Prop) (k : Kind) (p : Part) (area : Nat) (f : File)
    (r : Res (List Byte)) (g : File) : Prop :=
  WRead K oth k (.part p) f 0 area r g

/-- libblobd-kv/src/object.rs:217, 238: how much is accessed at once -/
def kvBuf (spage : Nat) : Nat := ceilPow2 lenMax spage

/-- libblobd-kv/src/object.rs:212-229 `format_device_for_tuples` -/
def KvFormat (K : Kernel) (oth : File → File → Prop) (k : Kind) (spage area : Nat) (f : File) (r : Res Unit)
    (g : File) : Prop :=
  Zeroes K oth k .raw f (pieces area (kvBuf spage) 0) r g

/-- libblobd-kv/src/object.rs:231-266 `load_tuples_from_device`, the reads -/
def KvLoad (K : Kernel) (oth : File → File → Prop) (k : Kind) (spage area : Nat) (f : File)
    (r : Res (List Byte)) (g : File) : Prop :=
  Loads K oth k .raw f (pieces area (kvBuf spage) 0) r g

/-! ## The device of lite's tests -/

/-- libblobd-lite/src/device/mock.rs:17-24: pages of 4096 bytes, made when they are touched -/
structure Mock where
  pages : Nat → Option (List Byte)

/-- libblobd-lite/src/device/mock.rs:27-31 `new` -/
def Mock.new : Mock := ⟨fun _ => none⟩

/-- `entry(page).or_insert_with(zeros)`: the page, and the device with it -/
def Mock.entry (m : Mock) (page : Nat) : List Byte := (m.pages page).getD (List.replicate 4096 0)

/-- a page put into the device -/
def Mock.set (m : Mock) (page : Nat) (p : List Byte) : Mock := ⟨fun k => if k = page then some p else m.pages k⟩

/-- libblobd-lite/src/device/mock.rs:35-53 `read_at`, from `next` to `stop` -/
def Mock.readFrom (m : Mock) (next stop : Nat) : List Byte × Mock :=
  if h : next < stop then
    let page := next / 4096
    let off := next % 4096
    let n := min (stop - next) (4096 - off)
    let p := m.entry page
    let r := (m.set page p).readFrom (next + n) stop
    ((p.drop off).take n ++ r.1, r.2)
  else ([], m)
termination_by stop - next

/-- libblobd-lite/src/device/mock.rs:35-53 -/
def Mock.read (m : Mock) (start len : Nat) : List Byte × Mock := m.readFrom start (start + len)

/-- libblobd-lite/src/device/mock.rs:55-71 `write_at`, what is left of the data -/
def Mock.writeFrom (m : Mock) (next stop : Nat) (cur : List Byte) : Mock :=
  if h : next < stop then
    let page := next / 4096
    let off := next % 4096
    let n := min (stop - next) (4096 - off)
    let p := m.entry page
    let p' := p.take off ++ cur.take n ++ p.drop (off + n)
    (m.set page p').writeFrom (next + n) stop (cur.drop n)
  else m
termination_by stop - next

/-- libblobd-lite/src/device/mock.rs:55-71 -/
def Mock.write (m : Mock) (start : Nat) (data : List Byte) : Mock := m.writeFrom start (start + data.length) data

/-- libblobd-lite/src/device/mock.rs:78-90 `eq`: the same pages are there, with the same contents -/
def Mock.Eq (m m' : Mock) : Prop := ∀ k, m.pages k = m'.pages k

end Dev
end Blobd
