import Verif.Model.StoreAdapters
import Verif.Props.KvObject
/-!
# C60, C61: the `store` interface over its backends

C60: a ranged read returns exactly the bytes asked for. C61: an upload becomes visible at its commit, whole, and not
before.
-/
set_option autoImplicit false
namespace Blobd
namespace Props
open Adapter List

/-! ### C60: the specification -/

/-- bytes `start..stop` of an object -/
def bytesOf (obj : List Byte) (start stop : Nat) : List Byte := (obj.drop start).take (stop - start)

theorem bytesOf_length {obj : List Byte} {a b : Nat} (h : b ≤ obj.length) : (bytesOf obj a b).length = b - a := by
  simp [bytesOf]; omega

/-! ### File system -/

/-- reading to the end of the file: every schedule of short reads yields the rest of the file -/
theorem fsLoop_suffix (file : List Byte) (bufLen : Nat) (hb : 0 < bufLen) : ∀ (sched : List Nat) (pos : Nat), pos ≤ file.length →
    (∃ tl, (fsLoop file bufLen sched pos (file.length - pos)).1.flatten ++ tl = file.drop pos ∧
      ((fsLoop file bufLen sched pos (file.length - pos)).2 = .done → tl = [])) ∧
    (fsLoop file bufLen sched pos (file.length - pos)).2 ≠ .panicked ∧
    (file.length - pos ≤ sched.length → (fsLoop file bufLen sched pos (file.length - pos)).2 = .done) := by
  intro sched
  induction sched with
  | nil =>
    intro pos hp
    by_cases h0 : file.length - pos = 0
    · simp only [fsLoop, if_pos h0]
      refine ⟨⟨file.drop pos, by simp, fun _ => ?_⟩, by simp, by simp⟩
      exact drop_eq_nil_of_le (by omega)
    · simp only [fsLoop, if_neg h0]
      exact ⟨⟨file.drop pos, by simp, by simp⟩, by simp, fun h => by simp only [length_nil] at h; omega⟩
  | cons k sched ih =>
    intro pos hp
    by_cases h0 : file.length - pos = 0
    · simp only [fsLoop, if_pos h0]
      refine ⟨⟨file.drop pos, by simp, fun _ => drop_eq_nil_of_le (by omega)⟩, by simp, by simp⟩
    · have hn1 : 1 ≤ readCount (min bufLen (file.length - pos)) k := by unfold readCount; omega
      have hn2 : readCount (min bufLen (file.length - pos)) k ≤ file.length - pos := by unfold readCount; omega
      simp only [fsLoop, if_neg h0]
      rw [if_neg (by omega)]
      generalize readCount (min bufLen (file.length - pos)) k = n at hn1 hn2
      rw [show file.length - pos - n = file.length - (pos + n) by omega]
      obtain ⟨⟨tl, h1, h2⟩, h3, h4⟩ := ih (pos + n) (by omega)
      refine ⟨⟨tl, ?_, h2⟩, h3, fun hl => h4 (by simp only [length_cons] at hl; omega)⟩
      simp only [flatten_cons, append_assoc, h1]
      rw [← drop_drop, take_append_drop]

/-- **C60 (file system, to the end).** A read whose end is the object's size (given or not) returns exactly the rest of
the object, however the reads are cut short: what was sent is always a prefix of it, and it is all of it when the stream
ends, which it does after at most as many reads as there are bytes. -/
theorem C60_fs_read_to_end_partial (file : List Byte) (start : Nat) (h : start ≤ file.length) (stop : Option Nat)
    (hs : stop = none ∨ stop = some file.length) (sched : List Nat) :
    ∃ sent st, fsRead file sched start stop = some (sent, st) ∧ st ≠ .panicked ∧
      sent.flatten <+: bytesOf file start file.length ∧ (st = .done → sent.flatten = bytesOf file start file.length) ∧
      (file.length - start ≤ sched.length → st = .done) := by
  have he : stop.getD file.length = file.length := by rcases hs with rfl | rfl <;> rfl
  have hd : bytesOf file start file.length = file.drop start := by
    unfold bytesOf; exact take_of_length_le (by simp)
  refine ⟨_, _, by simp only [fsRead, he]; rw [if_neg (by omega)], ?_⟩
  rw [hd]
  by_cases hb : 0 < file.length - start
  · obtain ⟨⟨tl, h1, h2⟩, h3, h4⟩ := fsLoop_suffix file (file.length - start) hb sched start h
    refine ⟨h3, ⟨tl, h1⟩, fun hd => ?_, h4⟩
    have := h2 hd
    subst this
    simpa using h1
  · have h0 : file.length - start = 0 := by omega
    rw [h0]
    cases sched <;> simp [fsLoop] <;> omega

/-- … and a range that ends earlier is exact if the first `read` happens to fill the whole buffer. -/
theorem C60_fs_read_in_one_go_partial (file : List Byte) (start stop : Nat) (h : start ≤ stop) (h' : stop ≤ file.length)
    (k : Nat) (hk : stop - start ≤ k) (sched : List Nat) :
    ∃ sent, fsRead file (k :: sched) start (some stop) = some (sent, .done) ∧ sent.flatten = bytesOf file start stop := by
  simp only [fsRead, Option.getD_some]
  rw [if_neg (by omega)]
  by_cases h0 : stop - start = 0
  · refine ⟨[], by simp [fsLoop, h0], by simp [bytesOf, h0]⟩
  · have hn : readCount (min (stop - start) (file.length - start)) k = stop - start := by unfold readCount; omega
    refine ⟨[bytesOf file start stop], ?_, by simp⟩
    simp only [fsLoop, if_neg h0, hn]
    rw [if_neg (by omega), Nat.sub_self]
    cases sched <;> simp [fsLoop, bytesOf]

/-- **C60 is violated (file system, short read).** For every object and every range of two bytes or more that ends
before the object does, if the first `read` returns one byte and the next fills the buffer, the task panics after that
one byte: the buffer is not shortened to what is still wanted. -/
theorem C60_violated_fs_short_read (file : List Byte) (start stop : Nat) (h : start + 2 ≤ stop) (h' : stop < file.length)
    (k : Nat) (hk : stop - start ≤ k) (sched : List Nat) :
    fsRead file (1 :: k :: sched) start (some stop) = some ([bytesOf file start (start + 1)], .panicked) := by
  simp only [fsRead, Option.getD_some]
  rw [if_neg (by omega)]
  have h1 : readCount (min (stop - start) (file.length - start)) 1 = 1 := by unfold readCount; omega
  have h2 : readCount (min (stop - start) (file.length - (start + 1))) k = stop - start := by unfold readCount; omega
  simp only [fsLoop, if_neg (show ¬(stop - start = 0) by omega), h1]
  rw [if_neg (by omega), if_neg (show ¬(stop - start - 1 = 0) by omega)]
  simp only [h2]
  rw [if_pos (by omega)]
  simp [bytesOf]

theorem fsLoop_never (file : List Byte) (bufLen : Nat) : ∀ (sched : List Nat) (pos rem : Nat), file.length < pos + rem → 0 < rem →
    pos ≤ file.length → (fsLoop file bufLen sched pos rem).2 ≠ .done := by
  intro sched
  induction sched with
  | nil => intro pos rem h h0 _; simp [fsLoop]; omega
  | cons k sched ih =>
    intro pos rem h h0 hp
    have hn2 : readCount (min bufLen (file.length - pos)) k ≤ file.length - pos := by unfold readCount; omega
    simp only [fsLoop, if_neg (show ¬ rem = 0 by omega)]
    split
    · simp
    · exact ih _ _ (by omega) (by omega) (by omega)

/-- **C60 is violated (file system, range past the end).** A read whose end lies after the object's end never completes
(and is not refused either), whatever the reads return. -/
theorem C60_violated_fs_past_end (file : List Byte) (start stop : Nat) (h : start ≤ file.length) (h' : file.length < stop)
    (sched : List Nat) :
    ∃ sent st, fsRead file sched start (some stop) = some (sent, st) ∧ st ≠ .done := by
  refine ⟨_, _, by simp only [fsRead, Option.getD_some]; rw [if_neg (by omega)], ?_⟩
  exact fsLoop_never _ _ _ _ _ (by omega) (by omega) h

/-! ### RocksDB and KV -/

/-- **C60 (RocksDB).** Exact, for every range inside the object; anything else fails. -/
theorem C60_rocksdb_read_exact (db : Files) (key obj : List Byte) (h : db key = some obj) (start : Nat) (stop : Option Nat) :
    rocksRead db key start stop =
      if start ≤ stop.getD obj.length ∧ stop.getD obj.length ≤ obj.length then some (bytesOf obj start (stop.getD obj.length)) else none := by
  simp only [rocksRead, h, Option.bind_some, bytesOf, drop_take]

/-- **C60 (KV).** Exact, for inline and heap values, and `inspect` (a read of the range 0..0) reports the size. -/
theorem C60_kv_read_exact (spage : Nat) (dev : Mem) (d : Kv.Data) (start : Nat) (stop : Option Nat) :
    kvRead spage dev (some d) start stop =
      (if start ≤ stop.getD (Kv.valueOf dev d).length ∧ stop.getD (Kv.valueOf dev d).length ≤ (Kv.valueOf dev d).length
       then some (bytesOf (Kv.valueOf dev d) start (stop.getD (Kv.valueOf dev d).length)) else none) ∧
    kvInspect spage dev (some d) = some (Kv.valueOf dev d).length := by
  refine ⟨?_, ?_⟩
  · simp only [kvRead, C19_kv_range_exact]
    by_cases h : start ≤ stop.getD (Kv.valueOf dev d).length ∧ stop.getD (Kv.valueOf dev d).length ≤ (Kv.valueOf dev d).length
    · rw [if_pos h, if_pos h]; rfl
    · rw [if_neg h, if_neg h]
  · simp [kvInspect, C19_kv_range_exact]

/-! ### S3 -/

/-- **C60 (S3, to the end).** Without an end, or with one at or past the object's end, a non-empty rest is exact. -/
theorem C60_s3_read_to_end_partial (obj : List Byte) (hl : obj.length < 2 ^ 64) (start : Nat) (h : start < obj.length)
    (stop : Option Nat) (hs : ∀ e, stop = some e → obj.length ≤ e) :
    s3Read obj start stop = some (bytesOf obj start obj.length) := by
  have he : obj.length ≤ stop.getD (2 ^ 64 - 1) := by
    cases stop with
    | none => simp only [Option.getD_none]; omega
    | some e => exact hs e rfl
  unfold s3Read s3GetRange
  rw [if_pos ⟨h, by omega⟩]
  unfold bytesOf
  rw [take_of_length_le (by rw [length_drop]; omega), take_of_length_le (by simp)]

/-- **C60 is violated (S3).** For every object and every range that ends before the object does, one byte too many is
returned: the end is exclusive in this interface and inclusive in the request. -/
theorem C60_violated_s3_one_byte_too_many (obj : List Byte) (start stop : Nat) (h : start ≤ stop) (h' : stop < obj.length) :
    ∃ got, s3Read obj start (some stop) = some got ∧ got = bytesOf obj start (stop + 1) ∧
      got.length = (bytesOf obj start stop).length + 1 := by
  refine ⟨bytesOf obj start (stop + 1), ?_, rfl, ?_⟩
  · simp only [s3Read, Option.getD_some, s3GetRange]
    rw [if_pos ⟨by omega, h⟩, bytesOf]
  · rw [bytesOf_length (by omega), bytesOf_length (by omega)]; omega

/-- … and an empty object cannot be read at all. -/
theorem C60_violated_s3_empty_object (stop : Option Nat) : s3Read [] 0 stop = none := by
  simp [s3Read, s3GetRange]

example : fsRead [1, 2, 3, 4, 5] [1, 9, 9, 9] 1 none = some ([[2], [3, 4, 5]], .done) ∧
    fsRead [1, 2, 3, 4, 5] [1, 9] 1 (some 4) = some ([[2]], .panicked) ∧
    s3Read [1, 2, 3, 4, 5] 1 (some 3) = some [2, 3, 4] ∧
    rocksRead (fun _ => some [1, 2, 3, 4, 5]) [] 1 (some 3) = some [2, 3] := by decide

/-! ### C61: uploads -/

/-- the pieces of `data` written one after another are all of it -/
theorem chunks_flatten (chunk : Nat) (hc : 0 < chunk) (data : List Byte) :
    ((chunks data.length chunk data).flatMap (·.2)) = data := by
  have key : ∀ m, ((List.range m).map (fun i => (i * chunk, (data.drop (i * chunk)).take (min (data.length - i * chunk) chunk)))).flatMap (·.2)
      = data.take (m * chunk) := by
    intro m
    induction m with
    | zero => simp
    | succ m ih =>
      rw [range_succ, map_append, flatMap_append, ih]
      simp only [map_cons, map_nil, flatMap_cons, flatMap_nil, append_nil]
      rw [Nat.add_mul, Nat.one_mul, take_add]
      congr 1
      rcases Nat.le_total (data.length - m * chunk) chunk with h | h
      · rw [Nat.min_eq_left h, take_of_length_le (by simp), take_of_length_le (by simpa using h)]
      · rw [Nat.min_eq_right h]
  unfold chunks
  rw [key]
  apply take_of_length_le
  have := Nat.div_add_mod (data.length + chunk - 1) chunk
  have := Nat.mod_lt (data.length + chunk - 1) hc
  rw [Nat.mul_comm]
  omega

/-- run the writes in the given order -/
def s3Writes (partSize : Nat) : S3Upload → List (Nat × List Byte) → Option S3Upload
  | u, [] => some u
  | u, w :: ws => (s3Write partSize u w.1 w.2).bind (fun u => s3Writes partSize u ws)

theorem insertPart_perm (p : Nat × List Byte) : ∀ l, insertPart p l ~ p :: l := by
  intro l
  induction l with
  | nil => exact Perm.refl _
  | cons q l ih =>
    unfold insertPart
    split
    · exact Perm.refl _
    · exact (ih.cons q).trans (Perm.swap p q l)

theorem sortParts_perm : ∀ l, sortParts l ~ l := by
  intro l
  induction l with
  | nil => exact Perm.refl _
  | cons p l ih => exact (insertPart_perm p _).trans (ih.cons p)

theorem insertPart_sorted (p : Nat × List Byte) : ∀ l, l.Pairwise (fun a b => a.1 ≤ b.1) →
    (insertPart p l).Pairwise (fun a b => a.1 ≤ b.1) := by
  intro l
  induction l with
  | nil => intro _; simp [insertPart]
  | cons q l ih =>
    intro h
    unfold insertPart
    rw [pairwise_cons] at h
    split <;> rename_i hpq
    · rw [pairwise_cons, pairwise_cons]
      refine ⟨fun b hb => ?_, h⟩
      rcases mem_cons.1 hb with rfl | hb
      · exact hpq
      · exact Nat.le_trans hpq (h.1 b hb)
    · rw [pairwise_cons]
      refine ⟨fun b hb => ?_, ih h.2⟩
      rcases mem_cons.1 ((insertPart_perm p l).mem_iff.1 hb) with rfl | hb
      · omega
      · exact h.1 b hb

theorem sortParts_sorted : ∀ l, (sortParts l).Pairwise (fun a b => a.1 ≤ b.1) := by
  intro l
  induction l with
  | nil => exact Pairwise.nil
  | cons p l ih => exact insertPart_sorted p _ ih

theorem sorted_unique : ∀ {l l' : List (Nat × List Byte)}, l ~ l' → l.Pairwise (fun a b => a.1 ≤ b.1) → l'.Pairwise (fun a b => a.1 < b.1) → l = l' := by
  intro l l' hp h h'
  have hnd : (l'.map (·.1)).Nodup := by
    rw [Nodup, pairwise_map]
    exact h'.imp (fun hab => Nat.ne_of_lt hab)
  have hnd2 : (l.map (·.1)).Nodup := (hp.map _).nodup_iff.2 hnd
  have hl : l.Pairwise (fun a b => a.1 < b.1) := by
    rw [Nodup, pairwise_map] at hnd2
    exact (h.and hnd2).imp (fun hab => Nat.lt_of_le_of_ne hab.1 hab.2)
  exact hp.eq_of_pairwise (fun a b _ _ h1 h2 => absurd h1 (by omega)) hl h'

theorem s3Writes_parts (partSize : Nat) (hp : 0 < partSize) : ∀ (ws : List (Nat × List Byte)) (u : S3Upload),
    (∀ w ∈ ws, w.1 % partSize = 0 ∧ w.1 / partSize < 2 ^ 31 - 1) →
    (u.parts.map (·.1) ++ ws.map (fun w => w.1 / partSize + 1)).Nodup →
    s3Writes partSize u ws = some ⟨u.parts ++ ws.map (fun w => (w.1 / partSize + 1, w.2))⟩ := by
  intro ws
  induction ws with
  | nil => intro u _ _; simp [s3Writes]
  | cons w ws ih =>
    intro u hw hnd
    have h1 := hw w (by simp)
    have hany : u.parts.any (fun p => p.1 == w.1 / partSize + 1) = false := by
      rw [any_eq_false]
      intro p hpm he
      have he : p.1 = w.1 / partSize + 1 := by simpa using he
      rw [nodup_append] at hnd
      exact hnd.2.2 p.1 (mem_map.2 ⟨p, hpm, rfl⟩) _ (by simp) he
    have hs : s3Write partSize u w.1 w.2 = some ⟨u.parts ++ [(w.1 / partSize + 1, w.2)]⟩ := by
      unfold s3Write
      rw [if_neg (by simp [h1.1]), if_neg (by omega), if_neg (by simp [hany])]
    unfold s3Writes
    rw [hs, Option.bind_some, ih]
    · simp
    · exact fun x hx => hw x (by simp [hx])
    · simpa using hnd

/-- **C61 (S3).** Whatever the order in which the pieces of a non-empty object are written (they may be written
concurrently), the commit makes exactly the object, if it has fewer than 2^31 pieces. -/
theorem C61_s3_upload_exact_partial (partSize : Nat) (hp : 0 < partSize) (data : List Byte) (hd : data ≠ [])
    (hsz : (data.length + partSize - 1) / partSize < 2 ^ 31) (ws : List (Nat × List Byte))
    (hw : ws ~ chunks data.length partSize data) :
    ∃ u, s3Writes partSize ⟨[]⟩ ws = some u ∧ s3Commit u = some data := by
  have hmem : ∀ w ∈ ws, ∃ i, i < (data.length + partSize - 1) / partSize ∧ w.1 = i * partSize := by
    intro w hwm
    obtain ⟨i, hi, rfl⟩ := mem_map.1 (hw.mem_iff.1 hwm)
    exact ⟨i, by simpa using hi, rfl⟩
  have hpart : (chunks data.length partSize data).map (fun w => (w.1 / partSize + 1, w.2)) =
      (List.range ((data.length + partSize - 1) / partSize)).map
        (fun i => (i + 1, (data.drop (i * partSize)).take (min (data.length - i * partSize) partSize))) := by
    unfold chunks
    rw [map_map]
    refine map_congr_left (fun i _ => ?_)
    simp only [Function.comp, Nat.mul_div_cancel _ hp]
  have hnd : ((chunks data.length partSize data).map (fun w => w.1 / partSize + 1)).Nodup := by
    have : (chunks data.length partSize data).map (fun w => w.1 / partSize + 1) =
        (List.range ((data.length + partSize - 1) / partSize)).map (· + 1) := by
      unfold chunks
      rw [map_map]
      refine map_congr_left (fun i _ => ?_)
      simp only [Function.comp, Nat.mul_div_cancel _ hp]
    rw [this]
    exact Nodup.map_on (fun a _ b _ h => by simpa using h) nodup_range
  refine ⟨_, s3Writes_parts partSize hp ws ⟨[]⟩ ?_ ?_, ?_⟩
  · intro w hwm
    obtain ⟨i, hi, he⟩ := hmem w hwm
    rw [he, Nat.mul_mod_left, Nat.mul_div_cancel _ hp]
    exact ⟨rfl, by omega⟩
  · simp only [map_nil, nil_append]
    exact (hw.map _).nodup_iff.2 hnd
  · simp only [nil_append, s3Commit]
    rw [if_neg]
    · congr 1
      have hs : sortParts (ws.map (fun w => (w.1 / partSize + 1, w.2))) =
          (chunks data.length partSize data).map (fun w => (w.1 / partSize + 1, w.2)) := by
        refine sorted_unique ((sortParts_perm _).trans (hw.map _)) (sortParts_sorted _) ?_
        rw [hpart, pairwise_map]
        exact pairwise_lt_range.imp (fun h => by simpa using h)
      rw [hs, flatMap_map]
      exact chunks_flatten partSize hp data
    · intro hnil
      rw [map_eq_nil_iff] at hnil
      rw [hnil] at hw
      have := chunks_flatten partSize hp data
      rw [← hw.nil_eq] at this
      exact hd (by simpa using this.symm)

/-- **C61 is violated (S3, empty object).** The caller's loop writes nothing for an empty object, and then the commit
fails. -/
theorem C61_violated_s3_empty (partSize : Nat) (hp : 0 < partSize) :
    chunks 0 partSize [] = [] ∧ s3Commit ⟨[]⟩ = none := by
  refine ⟨?_, rfl⟩
  simp [chunks, Nat.div_eq_of_lt (show partSize - 1 < partSize by omega)]

/-- **C61 is violated (RocksDB).** An upload is visible (and has replaced the previous object) as soon as it is written,
before its commit; an empty upload is never visible, not even after its commit. -/
theorem C61_violated_rocksdb_visible_before_commit (db : Files) (key data : List Byte) :
    (∃ db', rocksWrite (rocksCreate db key) key 0 data = some db' ∧ db' key = some data) ∧
    (∀ chunk, 0 < chunk → chunks 0 chunk [] = [] ∧ rocksCommit (rocksCreate db key) key key = db key) := by
  refine ⟨⟨_, rfl, by simp⟩, fun chunk hc => ⟨?_, rfl⟩⟩
  simp [chunks, Nat.div_eq_of_lt (show chunk - 1 < chunk by omega)]

/-- **C61 is violated (file system).** Creating an upload for a key already destroys the object that was there: before
any write or commit, the key reads as an empty object, whatever it held. -/
theorem C61_violated_fs_create_truncates (fs : Files) (key : List Byte) (sched : List Nat) :
    fsInspect (fsCreate fs key) key = some 0 ∧
    ((fsCreate fs key) key).bind (fun f => fsRead f sched 0 none) = some ([], .done) := by
  refine ⟨by simp [fsInspect, fsCreate], ?_⟩
  simp only [fsCreate, if_true, Option.bind_some]
  cases sched <;> simp [fsRead, fsLoop]

/-! the file after the writes -/

theorem pwrite_get (file : List Byte) (off : Nat) (data : List Byte) (i : Nat) :
    (pwrite file off data)[i]? =
      if off ≤ i ∧ i < off + data.length then data[i - off]?
      else if i < file.length then file[i]?
      else if i < off ∧ data ≠ [] then some 0 else none := by
  unfold pwrite
  split
  · rename_i h; subst h
    simp only [length_nil, Nat.add_zero, ne_eq, not_true_eq_false, and_false, if_false]
    rw [if_neg (by omega)]
    split
    · rfl
    · exact getElem?_eq_none (by omega)
  · rename_i h
    have hlen : ((file ++ replicate (off - file.length) 0).take off).length = off := by simp; omega
    rw [append_assoc, getElem?_append, hlen]
    split <;> rename_i h1
    · rw [getElem?_take_of_lt h1, if_neg (by omega)]
      split <;> rename_i h2
      · rw [getElem?_append_left h2]
      · rw [getElem?_append_right (by omega), getElem?_replicate, if_pos (by omega), if_pos ⟨h1, h⟩]
    · rw [getElem?_append]
      split <;> rename_i h2
      · rw [if_pos (by omega)]
      · rw [if_neg (by omega), getElem?_drop, if_neg (show ¬ (i < off ∧ data ≠ []) by omega)]
        rw [show off + data.length + (i - off - data.length) = i by omega]
        split
        · rfl
        · exact getElem?_eq_none (by omega)

/-- run the writes of an upload on its file -/
def fsWrites (fs : Files) (key : List Byte) : List (Nat × List Byte) → Option Files
  | [] => some fs
  | w :: ws => (fsWrite fs key w.1 w.2).bind (fun fs => fsWrites fs key ws)

theorem fsWrites_eq (key : List Byte) : ∀ (ws : List (Nat × List Byte)) (fs : Files) (f : List Byte), fs key = some f →
    fsWrites fs key ws = some (fun k => if k = key then some (ws.foldl (fun f w => pwrite f w.1 w.2) f) else fs k) := by
  intro ws
  induction ws with
  | nil => intro fs f h; simp only [fsWrites, foldl_nil]; congr 1; funext k; split <;> simp_all
  | cons w ws ih =>
    intro fs f h
    simp only [fsWrites, fsWrite, h, Option.map_some, Option.bind_some, foldl_cons]
    rw [ih _ (pwrite f w.1 w.2) (by simp)]
    congr 1; funext k; split <;> rfl

/-- pieces of `data`, written in any order, cover what they cover and leave zeros elsewhere -/
theorem foldl_pwrite (data : List Byte) : ∀ (ws : List (Nat × List Byte)) (f : List Byte),
    (∀ w ∈ ws, w.1 + w.2.length ≤ data.length ∧ ∀ j, j < w.2.length → w.2[j]? = data[w.1 + j]?) →
    f.length ≤ data.length → 
    (ws.foldl (fun f w => pwrite f w.1 w.2) f).length ≤ data.length ∧
    ∀ i, i < data.length → ((∃ w ∈ ws, w.1 ≤ i ∧ i < w.1 + w.2.length) ∨ f[i]? = data[i]?) →
      (ws.foldl (fun f w => pwrite f w.1 w.2) f)[i]? = data[i]? := by
  intro ws
  induction ws with
  | nil =>
    intro f _ hl
    refine ⟨hl, fun i _ h => ?_⟩
    rcases h with ⟨w, hw, _⟩ | h
    · simp at hw
    · exact h
  | cons w ws ih =>
    intro f hw hl
    have h1 := hw w (by simp)
    have hl' : (pwrite f w.1 w.2).length ≤ data.length := by
      unfold pwrite; split
      · exact hl
      · simp; omega
    obtain ⟨h2, h3⟩ := ih (pwrite f w.1 w.2) (fun x hx => hw x (by simp [hx])) hl'
    simp only [foldl_cons]
    refine ⟨h2, fun i hi h => h3 i hi ?_⟩
    by_cases hc : w.1 ≤ i ∧ i < w.1 + w.2.length
    · right
      rw [pwrite_get, if_pos hc, h1.2 _ (by omega), show w.1 + (i - w.1) = i by omega]
    · rcases h with ⟨x, hx, hxi⟩ | h
      · rcases mem_cons.1 hx with rfl | hx
        · exact absurd hxi hc
        · exact Or.inl ⟨x, hx, hxi⟩
      · right
        rw [pwrite_get, if_neg hc]
        have : i < f.length := by
          by_contra hcc
          rw [getElem?_eq_none (by omega)] at h
          have := getElem?_eq_none_iff.1 h.symm
          omega
        rw [if_pos this]
        exact h

/-- **C61 (file system, contents).** Whatever the order in which the pieces of an object are written after its create,
the file then is exactly the object, and no other key is touched. -/
theorem C61_fs_upload_exact_partial (fs : Files) (key : List Byte) (chunk : Nat) (hc : 0 < chunk) (data : List Byte)
    (ws : List (Nat × List Byte)) (hw : ws ~ chunks data.length chunk data) :
    ∃ fs', fsWrites (fsCreate fs key) key ws = some fs' ∧ fsCommit fs' key key = some data ∧
      fsInspect (fsCommit fs' key) key = some data.length ∧ ∀ k, k ≠ key → fsCommit fs' key k = fs k := by
  suffices hmain : ws.foldl (fun f w => pwrite f w.1 w.2) [] = data from
    ⟨_, fsWrites_eq key ws _ [] (by simp [fsCreate]), by simp [fsCommit, hmain], by simp [fsInspect, fsCommit, hmain],
      fun k hk => by simp [hk, fsCreate, fsCommit]⟩
  have hmem : ∀ w ∈ ws, w.1 + w.2.length ≤ data.length ∧ ∀ j, j < w.2.length → w.2[j]? = data[w.1 + j]? := by
    intro w hwm
    obtain ⟨i, hi, rfl⟩ := mem_map.1 (hw.mem_iff.1 hwm)
    have hi : i < (data.length + chunk - 1) / chunk := by simpa using hi
    have hi2 : i * chunk < data.length := by
      have := Nat.mul_le_mul_right chunk (show i + 1 ≤ (data.length + chunk - 1) / chunk by omega)
      have h4 := Nat.div_mul_le_self (data.length + chunk - 1) chunk
      rw [Nat.add_mul] at this
      omega
    simp only
    refine ⟨by simp; omega, fun j hj => ?_⟩
    rw [getElem?_take_of_lt (by simp only [length_take] at hj; omega), getElem?_drop]
  obtain ⟨h1, h2⟩ := foldl_pwrite data ws [] hmem (by simp)
  refine List.ext_getElem? (fun i => ?_)
  by_cases hi : i < data.length
  · refine h2 i hi (Or.inl ?_)
    refine ⟨(i / chunk * chunk, (data.drop (i / chunk * chunk)).take (min (data.length - i / chunk * chunk) chunk)), ?_, ?_, ?_⟩
    · refine hw.mem_iff.2 (mem_map.2 ⟨i / chunk, ?_, rfl⟩)
      rw [mem_range]
      have h5 : (i / chunk + 1) * chunk ≤ data.length + chunk - 1 := by
        have := Nat.div_mul_le_self i chunk
        rw [Nat.add_mul]; omega
      exact (Nat.le_div_iff_mul_le hc).2 h5
    · exact Nat.div_mul_le_self i chunk
    · have h3 := Nat.div_add_mod i chunk
      have h4 := Nat.mod_lt i hc
      rw [Nat.mul_comm] at h3
      simp only [length_take, length_drop]
      omega
  · rw [getElem?_eq_none (by omega), getElem?_eq_none (by omega)]

/-- **C61 (RocksDB, contents).** An object that the caller writes in one piece is then stored exactly, with its size, and no
other key is touched. -/
theorem C61_rocksdb_upload_exact_partial (db : Files) (key : List Byte) (chunk : Nat) (data : List Byte) (hd : data ≠ [])
    (hc : data.length ≤ chunk) :
    ∃ off piece db', chunks data.length chunk data = [(off, piece)] ∧ rocksWrite (rocksCreate db key) key off piece = some db' ∧
      rocksRead (rocksCommit db' key) key 0 none = some data ∧ ∀ k, k ≠ key → rocksCommit db' key k = db k := by
  have hpos : 0 < data.length := length_pos_iff.2 hd
  have h1 : (data.length + chunk - 1) / chunk = 1 := Nat.div_eq_of_lt_le (by omega) (by omega)
  refine ⟨0, data, _, by simp [chunks, h1, range_succ, hc], rfl, ?_, fun k hk => by simp [rocksCommit, rocksCreate, hk]⟩
  simp [rocksRead, rocksCommit]

/-- three pieces written out of order -/
example : ∃ u, s3Writes 2 ⟨[]⟩ [(4, [5]), (0, [1, 2]), (2, [3, 4])] = some u ∧ s3Commit u = some [1, 2, 3, 4, 5] := by
  refine C61_s3_upload_exact_partial 2 (by decide) [1, 2, 3, 4, 5] (by decide) (by decide) _ ?_
  decide

end Props
end Blobd
