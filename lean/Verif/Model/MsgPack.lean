import Verif.Model.Bytes
/-!
# MessagePack as written by `rmp_serde::Serializer::new` (dependency, by its documented format)

Only the forms used by the tokens: unsigned integers in the smallest form, arrays (structs and tuples
are arrays of their fields), short strings, `u128` as a 16-byte binary, and enum struct variants as a
one-entry map from the variant name to the array of fields.
-/
namespace Blobd
namespace MP

abbrev Bytes := List Byte

/-- `serialize_u8 .. serialize_u64`, `usize`: smallest unsigned form -/
def uint (n : Nat) : Bytes :=
  if n < 128 then [UInt8.ofNat n]
  else if n < 256 then [0xcc, UInt8.ofNat n]
  else if n < 65536 then 0xcd :: beBytes 2 n
  else if n < 4294967296 then 0xce :: beBytes 4 n
  else 0xcf :: beBytes 8 n

/-- array header -/
def arr (n : Nat) : Bytes :=
  if n < 16 then [UInt8.ofNat (0x90 + n)]
  else if n < 65536 then 0xdc :: beBytes 2 n
  else 0xdd :: beBytes 4 n

/-- string of less than 32 bytes -/
def str (s : Bytes) : Bytes := UInt8.ofNat (0xa0 + s.length) :: s

/-- `serialize_u128`: `bin 8` of the 16 big-endian bytes -/
def u128 (n : Nat) : Bytes := 0xc4 :: 0x10 :: beBytes 16 n

/-- `Vec<u8>`: an array of integers (serde has no special case for bytes) -/
def bytes (k : Bytes) : Bytes := arr k.length ++ k.flatMap (fun b => uint b.toNat)

/-- enum struct variant: `{ name: [fields..] }` -/
def variant (name : Bytes) (nfields : Nat) (fields : Bytes) : Bytes :=
  0x81 :: str name ++ arr nfields ++ fields

/-! ### Reading (`rmp_serde::from_slice`): every integer width is accepted -/

def takeN (n : Nat) (l : Bytes) : Option (Bytes × Bytes) :=
  if n ≤ l.length then some (l.take n, l.drop n) else none

def getUint : Bytes → Option (Nat × Bytes)
  | [] => none
  | b :: r =>
    if b.toNat < 128 then some (b.toNat, r)
    else if b = 0xcc then (takeN 1 r).map (fun p => (beVal p.1, p.2))
    else if b = 0xcd then (takeN 2 r).map (fun p => (beVal p.1, p.2))
    else if b = 0xce then (takeN 4 r).map (fun p => (beVal p.1, p.2))
    else if b = 0xcf then (takeN 8 r).map (fun p => (beVal p.1, p.2))
    else none

def getArr : Bytes → Option (Nat × Bytes)
  | [] => none
  | b :: r =>
    if 0x90 ≤ b.toNat ∧ b.toNat < 0xa0 then some (b.toNat - 0x90, r)
    else if b = 0xdc then (takeN 2 r).map (fun p => (beVal p.1, p.2))
    else if b = 0xdd then (takeN 4 r).map (fun p => (beVal p.1, p.2))
    else none

def getStr : Bytes → Option (Bytes × Bytes)
  | [] => none
  | b :: r => if 0xa0 ≤ b.toNat ∧ b.toNat < 0xc0 then takeN (b.toNat - 0xa0) r else none

def getU128 : Bytes → Option (Nat × Bytes)
  | 0xc4 :: 0x10 :: r => (takeN 16 r).map (fun p => (beVal p.1, p.2))
  | _ => none

def getUints : Nat → Bytes → Option (Bytes × Bytes)
  | 0, r => some ([], r)
  | n + 1, r =>
    match getUint r with
    | none => none
    | some (v, r) =>
      match getUints n r with
      | none => none
      | some (vs, r) => some (UInt8.ofNat v :: vs, r)

def getBytes (r : Bytes) : Option (Bytes × Bytes) :=
  match getArr r with
  | none => none
  | some (n, r) => getUints n r

end MP
end Blobd
