import Verif.Spec.Mem
/-!
# `WriteMerger`: libblobd-lite/src/journal/merge.rs:8-85

A `BTreeMap<u64, Vec<u8>>` is an association list kept sorted by key (`btInsert`, `btRemove`), iterated in key
order.
-/
namespace Blobd
namespace Merge

/-- offset ↦ data, in increasing offset order (libblobd-lite/src/journal/merge.rs:8-12) -/
abbrev Writes := List (Nat × List Byte)

/-- `BTreeMap::insert`: replaces the value of an existing key. -/
def btInsert (k : Nat) (v : List Byte) : Writes → Writes
  | [] => [(k, v)]
  | (k', v') :: rest =>
    if k < k' then (k, v) :: (k', v') :: rest
    else if k = k' then (k, v) :: rest
    else (k', v') :: btInsert k v rest

/-- `BTreeMap::remove` -/
def btRemove (k : Nat) (w : Writes) : Writes := w.filter (fun e => e.1 ≠ k)

/-- libblobd-lite/src/journal/merge.rs:30-64: the scan over existing entries for a new write `[offset, stop)`. Returns
`(to_preserve, to_remove)`. -/
def scan (offset stop : Nat) : Writes → List (Nat × List Byte) × List Nat
  | [] => ([], [])
  | (eo, ed) :: rest =>
    let existingEnd := eo + ed.length
    if existingEnd ≤ offset then scan offset stop rest          -- continue
    else if eo ≥ stop then ([], [])                             -- break
    else
      let prefixPart := if eo < offset then [(eo, ed.take (offset - eo))] else []
      let suffixPart := if existingEnd > stop then [(stop, ed.drop (stop - eo))] else []
      let r := scan offset stop rest
      (prefixPart ++ suffixPart ++ r.1, eo :: r.2)

/-- libblobd-lite/src/journal/merge.rs:24-78 `insert` -/
def insert (w : Writes) (offset : Nat) (data : List Byte) : Writes :=
  if data.isEmpty then w
  else
    let stop := offset + data.length
    let r := scan offset stop w
    let w1 := r.2.foldl (fun w k => btRemove k w) w
    let w2 := r.1.foldl (fun w e => btInsert e.1 e.2 w) w1
    btInsert offset data w2

/-- A batch: `WriteMerger::new()` followed by inserts in order; `into_merged` (libblobd-lite/src/journal/merge.rs:82-84) is the
map itself. -/
def mergeAll (ws : List (Nat × List Byte)) : Writes :=
  ws.foldl (fun w e => insert w e.1 e.2) []

end Merge
end Blobd
