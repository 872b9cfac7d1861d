import Verif.Model.Http
/-!
# Batch creation over HTTP

blobd/src/endpoint/batch_create_objects.rs:31-111 and the body built by blobd-client-rs/src/lib.rs:128-171.
The body is the concatenation of the chunks of the HTTP body (`into_async_read` + `read_exact`, by
contract); a connection error is the same as the end of the body here: `read_exact` fails. The store is
abstract: any state machine with the three operations, any of which may fail.
-/
namespace Blobd
namespace Http

open MP (Bytes takeN)

/-- the store operations used by the endpoint; `none` / `false` is `Err(_)` -/
structure Store (σ : Type) where
  create : σ → Bytes → Nat → σ × Option Tok
  write : σ → Tok → Nat → Bytes → σ × Bool
  commit : σ → Tok → σ × Bool

/-- blobd/src/endpoint/batch_create_objects.rs:75-92: `for offset in (0..size).step_by(lpage_size)`, from `offset` on.
`none`: the loop was left by `break 'outer`. The first argument bounds the number of iterations. -/
def batchWrites {σ : Type} (B : Store σ) (L : Nat) (tok : Tok) (size : Nat) : Nat → Nat → Bytes → σ → σ × Option Bytes
  | 0, _, body, s => (s, some body)
  | n + 1, offset, body, s =>
    if offset < size then
      match takeN (min L (size - offset)) body with
      | none => (s, none)
      | some (chunk, body) =>
        match B.write s tok offset chunk with
        | (s, false) => (s, none)
        | (s, true) => batchWrites B L tok size n (offset + L) body s
    else (s, some body)

/-- blobd/src/endpoint/batch_create_objects.rs:46-106, the `'outer` loop. The first argument bounds the iterations (each
consumes at least 7 bytes of the body). -/
def batchLoop {σ : Type} (B : Store σ) (L : Nat) : Nat → Bytes → σ → Nat → σ × Nat
  | 0, _, s, created => (s, created)
  | fuel + 1, body, s, created =>
    match takeN 2 body with
    | none => (s, created)
    | some (keyLenRaw, body) =>
      match takeN (beVal keyLenRaw) body with
      | none => (s, created)
      | some (key, body) =>
        match takeN 5 body with
        | none => (s, created)
        | some (sizeRaw, body) =>
          let size := beVal sizeRaw
          match B.create s key size with
          | (s, none) => (s, created)
          | (s, some tok) =>
            match batchWrites B L tok size size 0 body s with
            | (s, none) => (s, created)
            | (s, some body) =>
              match B.commit s tok with
              | (s, false) => (s, created)
              | (s, true) => batchLoop B L fuel body s (created + 1)

/-- the endpoint: final store state and `x-blobd-objects-created-count` -/
def batchCreate {σ : Type} (B : Store σ) (L : Nat) (body : Bytes) (s : σ) : σ × Nat :=
  batchLoop B L (body.length + 1) body s 0

/-- blobd-client-rs blobd-client-rs/src/lib.rs:137-150: one object in the body. `create_u40_be` keeps the low 40 bits of the
declared size; a key of 64 KiB or more panics (`try_into().unwrap()`). -/
def encodeEntry (e : Bytes × Bytes) : Bytes := beBytes 2 e.1.length ++ e.1 ++ beBytes 5 e.2.length ++ e.2

def encodeBatch (es : List (Bytes × Bytes)) : Bytes := es.flatMap encodeEntry

end Http
end Blobd
