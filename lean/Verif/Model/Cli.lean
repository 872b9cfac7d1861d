import Verif.Model.Batch
import Verif.Model.RustClient
set_option autoImplicit false
/-!
# The command-line client

blobc/src/put.rs, get.rs and upload_dir.rs. By contract: `SyncReadStream` on a regular file that does not change yields
its bytes in full buffers, the last one possibly shorter; `WalkDir` yields the root first and then everything below it;
opening a directory for reading succeeds and reading from it fails (Linux).
-/
namespace Blobd
namespace Cli

open Http
open MP (Bytes)

/-! ### put -/

/-- blobc/src/put.rs:22 `TILE_SIZE` -/
def tileSize : Nat := 1024 * 1024 * 16

/-- blobc/src/put.rs:23: the chunks of the stream -/
def putChunks (file : Bytes) : List Bytes :=
  (List.range (partCount file.length tileSize)).map (fun i => (file.drop (i * tileSize)).take tileSize)

/-- blobc/src/put.rs:35: the offset of chunk `i` -/
def putOffset (i : Nat) : Nat := i * tileSize

/-- blobc/src/put.rs:41-45: enter the receipt of chunk `i` -/
def enterReceipt (rs : List (List Char)) (i : Nat) (r : List Char) : List (List Char) :=
  (rs ++ List.replicate (i + 1 - rs.length) []).set i r

/-- blobc/src/put.rs:25-49: the receipts when all writes have succeeded, completing in the order `order` -/
def putReceipts (receipt : Nat → List Char) (order : List Nat) : List (List Char) :=
  order.foldl (fun rs i => enterReceipt rs i (receipt i)) []

/-- blobc/src/put.rs:17-21, 37-40, 52-56: the calls of the client library -/
def putCreate (key file : Bytes) : ClientCall := .create key file.length
def putWrite (key : Bytes) (upload : List Char) (i : Nat) (chunk : Bytes) : ClientCall := .write key upload (putOffset i) chunk
def putCommit (key : Bytes) (upload : List Char) (receipts : List (List Char)) : ClientCall := .commit key upload receipts

/-- blobd/src/endpoint/write_object.rs:58-66 of the server: the receipt of an accepted write at `offset` -/
def serverReceipt (S : Srv) (tok : Tok) (offset : Nat) : List Char := writeReceipt S tok (offset / 2 ^ S.pages.lpage)

/-! ### upload_dir -/

/-- a path: absolute or relative, and its components -/
structure Path where
  absolute : Bool
  comps : List Bytes
  deriving DecidableEq

/-- `Path::join` -/
def Path.join (a b : Path) : Path := if b.absolute then b else ⟨a.absolute, a.comps ++ b.comps⟩

/-- what is at a place of the file system; a directory has a size too (`st_size`) -/
inductive Node
  | file (data : Bytes)
  | dir (size : Nat)

/-- a file system that does not change, and the current directory -/
structure Fs where
  node : List Bytes → Option Node
  cwd : List Bytes

def Fs.at (fs : Fs) (p : Path) : Option Node := fs.node (if p.absolute then p.comps else fs.cwd ++ p.comps)

def Node.size : Node → Nat
  | .file d => d.length
  | .dir n => n

/-- `Path::to_str`: components with slashes; the relative path without components prints as `.` (all components are taken
to be Unicode) -/
def Path.text (p : Path) : Bytes :=
  if p.absolute then 47 :: joinSlash p.comps else if p.comps = [] then [46] else joinSlash p.comps

/-- blobc/src/upload_dir.rs:22-47 `process_dir_ent` and the stream of `batch_create_objects`: what one entry of the walk adds to the body,
and whether the body then ends in an error. An entry that cannot be opened is skipped (lines 70-73). -/
def uploadEntry (fs : Fs) (baseDir : Path) (pre : Bytes) (ent : Path) : Bytes × Bool :=
  match fs.at ent with
  | none => ([], false)
  | some m =>
    let key := pre ++ ent.text
    let header := beBytes 2 key.length ++ key ++ beBytes 5 m.size
    match fs.at (baseDir.join ent) with
    | none => ([], false)
    | some (.dir _) => (header, true)
    | some (.file d) => (header ++ d, false)

/-- blobc/src/upload_dir.rs:66-79: the whole body, and whether it ended in an error -/
def uploadBody (fs : Fs) (baseDir : Path) (pre : Bytes) : List Path → Bytes × Bool
  | [] => ([], false)
  | e :: es =>
    match uploadEntry fs baseDir pre e with
    | (b, true) => (b, true)
    | (b, false) => (b ++ (uploadBody fs baseDir pre es).1, (uploadBody fs baseDir pre es).2)

/-- blobc/src/upload_dir.rs:94-97: the message; the number of objects created is ignored -/
def uploadMessage (aborted : Bool) (_created : Nat) : Bool := !aborted

end Cli
end Blobd
