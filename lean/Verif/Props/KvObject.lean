import Verif.Proofs.KvObject
import Verif.Proofs.KvAlloc
import Verif.Proofs.Util
import Verif.Model.KvOps
import Verif.Spec.Kv
/-!
# C33 (KV tuples and bundles), C19 and C45 (KV parts)
-/
namespace Blobd
namespace Props
open Kv

theorem keyOk_fromRaw {H : List Byte → List Byte} (hH : ∀ x, (H x).length = 32) {raw : List Byte}
    (hne : raw ≠ []) : KeyOk (Key.fromRaw H raw) := by
  unfold Key.fromRaw
  split
  · refine ⟨?_, by omega⟩
    cases raw with
    | nil => exact absurd rfl hne
    | cons => simp
  · exact hH raw

theorem dataOk_of_storable {d : Data} (h : Storable d) : DataOk d := by
  cases d with
  | inline i => simp only [Storable, DataOk] at *; omega
  | heap s o => exact h

/-- **C33.** Any list of tuples with non-empty keys (short keys kept literally, long ones hashed) and
storable data, written to a bundle page, comes back identically, in order, whatever junk the rest of
the page contains; the page has exactly the page size. -/
theorem C33_bundle_roundtrip (H : List Byte → List Byte) (hH : ∀ x, (H x).length = 32)
    (spageSize : Nat) (junk : Nat → Byte) (objs : List (List Byte × Data))
    (hk : ∀ o ∈ objs, o.1 ≠ []) (hd : ∀ o ∈ objs, Storable o.2) (page : List Byte)
    (hp : serialiseBundle spageSize junk (objs.map fun o => (Key.fromRaw H o.1, o.2)) = some page) :
    page.length = spageSize ∧
    bundleDeserialise page = some (objs.map fun o => (Key.fromRaw H o.1, o.2)) := by
  apply bundle_roundtrip _ _ _ _ hp
  intro t ht
  obtain ⟨o, ho, rfl⟩ := List.mem_map.1 ht
  exact ⟨keyOk_fromRaw hH (hk o ho), dataOk_of_storable (hd o ho)⟩

/-- Concrete: an inline and a heap value in a 64-byte page full of junk. -/
example : ∃ page, serialiseBundle 64 (fun _ => 7)
    [(.literal [1, 2], .inline [9]), (.literal [3], .heap 600 1024)] = some page ∧
    bundleDeserialise page = some [(.literal [1, 2], .inline [9]), (.literal [3], .heap 600 1024)] := by
  refine ⟨_, rfl, ?_⟩
  decide

theorem serialiseTuples_length (l : List (Key × Data)) (hl : ∀ t ∈ l, KeyOk t.1 ∧ DataOk t.2)
    {s : List Byte} (hs : serialiseTuples l = some s) : s.length = (l.map tupleBytes).sum := by
  induction l generalizing s with
  | nil => simp [serialiseTuples] at hs; subst hs; rfl
  | cons t l ih =>
    obtain ⟨k, d⟩ := t
    obtain ⟨a, ha, _⟩ := key_roundtrip k (.inl (hl (k, d) (by simp)).1)
    obtain ⟨b, hb, _⟩ := data_roundtrip d (hl (k, d) (by simp)).2
    obtain ⟨c, hc⟩ := serialiseTuples_some l (fun t ht => hl t (by simp [ht]))
    simp only [serialiseTuples, ha, hb, hc, Option.some.injEq] at hs
    subst hs
    have ihc := ih (fun t ht => hl t (by simp [ht])) hc
    simp only [List.length_append, List.map_cons, List.sum_cons, ihc, tupleBytes]
    have h1 := (hl (k, d) (by simp)).1
    have h2 := (hl (k, d) (by simp)).2
    have ea : a.length = keyBytes k := by
      cases k with
      | hash h => simp only [Key.serialise, Option.some.injEq] at ha; subst ha; simp only [KeyOk] at h1; simp [h1, keyBytes]
      | literal l =>
        simp only [Key.serialise, KeyOk] at ha h1
        rw [if_pos (by omega)] at ha
        simp only [Option.some.injEq] at ha; subst ha; simp [keyBytes]; omega
    have eb : b.length = dataBytes d := by
      cases d with
      | inline i =>
        simp only [Data.serialise, DataOk] at hb h2
        split at hb
        · rename_i h; simp only [Option.some.injEq] at hb; subst hb; simp [h, dataBytes]; omega
        · rename_i h
          simp only [Option.some.injEq] at hb; subst hb; simp [h, dataBytes]; omega
      | heap s o =>
        simp only [Data.serialise] at hb
        split at hb
        · split at hb
          · simp only [Option.some.injEq] at hb; subst hb; simp [dataBytes]
          · cases hb
        · cases hb
    omega

/-- **C33, capacity.** A bundle page can be written exactly when the tuples' bytes fit in a page; one byte
more is fatal. -/
theorem C33_fits_iff (H : List Byte → List Byte) (hH : ∀ x, (H x).length = 32)
    (spageSize : Nat) (junk : Nat → Byte) (objs : List (List Byte × Data))
    (hk : ∀ o ∈ objs, o.1 ≠ []) (hd : ∀ o ∈ objs, Storable o.2) :
    (serialiseBundle spageSize junk (objs.map fun o => (Key.fromRaw H o.1, o.2))).isSome ↔
      ((objs.map fun o => (Key.fromRaw H o.1, o.2)).map tupleBytes).sum ≤ spageSize := by
  have hok : ∀ t ∈ (objs.map fun o => (Key.fromRaw H o.1, o.2)), KeyOk t.1 ∧ DataOk t.2 := by
    intro t ht
    obtain ⟨o, ho, rfl⟩ := List.mem_map.1 ht
    exact ⟨keyOk_fromRaw hH (hk o ho), dataOk_of_storable (hd o ho)⟩
  obtain ⟨s, hs⟩ := serialiseTuples_some _ hok
  rw [serialiseBundle_isSome_iff _ _ _ hs, serialiseTuples_length _ hok hs]

/-- **C33, what is stored is storable.** Every tuple produced by a successful write is representable:
values up to 16 MiB, and heap values at offsets that survive the 9-bit shift, provided the device is
below 2^48 bytes, small pages are at least 512 bytes and the heap starts on a large page. -/
theorem C33_written_data_storable {c : Spec.KvHeapCfg} {a : KvAlloc} {live : List (Nat × Nat)}
    (hsp : 9 ≤ c.pages.spage) (hl : c.pages.lpage = 24) (hbase : 2 ^ 24 ∣ c.base)
    (hdev : c.base + c.heap ≤ 2 ^ 48) (h : Spec.KvReach c a live)
    (threshold : Nat) (junk : Nat → Byte) (dev dev' : Mem) (data : List Byte) (d : Data) (a' : KvAlloc)
    (hw : writePrepare threshold junk a dev data = (.ok d, a', dev')) :
    Storable d := by
  unfold writePrepare at hw
  split at hw
  · simp at hw
  · rename_i hsz
    have hsz : data.length ≤ 2 ^ 24 := by simpa [objectSizeMax] using hsz
    split at hw
    · simp at hw
      obtain ⟨rfl, -, -⟩ := hw
      exact hsz
    · rename_i hth
      split at hw <;> try (simp at hw; done)
      rename_i off sod a1 ha
      simp only [Prod.mk.injEq, Outcome.ok.injEq] at hw
      obtain ⟨rfl, rfl, -⟩ := hw
      unfold allocateOnHeap at ha
      split at ha <;> try (simp at ha; done)
      rename_i off' a2 ha2
      simp only [Prod.mk.injEq, Outcome.ok.injEq] at ha
      obtain ⟨⟨rfl, -⟩, rfl⟩ := ha
      have hr := Spec.KvReach.alloc h ha2
      have inv := KvAlloc.reach_inv (by omega) (by omega) hr
      have hreg := inv.regs (off', data.length) (by simp)
      have hd9 : 2 ^ 9 ∣ off' - c.base :=
        Nat.dvd_trans (Nat.pow_dvd_pow 2 (Nat.le_trans hsp (Nat.le_max_left _ _))) hreg.dvd
      have hb9 : 2 ^ 9 ∣ c.base := Nat.dvd_trans (Nat.pow_dvd_pow 2 (by omega)) hbase
      have hge := hreg.ge
      have hoff : 2 ^ 9 ∣ off' := by
        have := Nat.dvd_add hd9 hb9
        simpa [Nat.sub_add_cancel hge] using this
      have hfit := hreg.fits
      unfold Spec.regionEnd at hfit
      have := le_ceilPow2 data.length c.pages.spage
      simp only at hge hfit
      refine ⟨by omega, hsz, Nat.mod_eq_zero_of_dvd hoff, by omega⟩

/-- non-vacuity: a 10-byte value goes to the heap of a fresh 32 MiB store -/
example : (KvAlloc.new (2 ^ 24) (2 ^ 24) ⟨9, 24⟩).isSome := by decide

/-- **C33 is false for the empty key**, which `write_object` accepts: its serialised length byte is the
end-of-bundle marker, so it and every tuple after it in the page are lost. -/
theorem C33_violated_empty_key (H : List Byte → List Byte) (hH : ∀ x, (H x).length = 32)
    (spageSize : Nat) (junk : Nat → Byte) (before after : List (List Byte × Data)) (d : Data)
    (hk : ∀ o ∈ before, o.1 ≠ []) (hd : ∀ o ∈ before, Storable o.2) (page : List Byte)
    (hp : serialiseBundle spageSize junk
      ((before ++ ([], d) :: after).map fun o => (Key.fromRaw H o.1, o.2)) = some page) :
    bundleDeserialise page = some (before.map fun o => (Key.fromRaw H o.1, o.2)) := by
  have hok : ∀ t ∈ (before.map fun o => (Key.fromRaw H o.1, o.2)), KeyOk t.1 ∧ DataOk t.2 := by
    intro t ht
    obtain ⟨o, ho, rfl⟩ := List.mem_map.1 ht
    exact ⟨keyOk_fromRaw hH (hk o ho), dataOk_of_storable (hd o ho)⟩
  have app : ∀ (l m : List (Key × Data)) (s : List Byte), serialiseTuples (l ++ m) = some s →
      ∃ x y, serialiseTuples l = some x ∧ serialiseTuples m = some y ∧ s = x ++ y := by
    intro l
    induction l with
    | nil => intro m s h; exact ⟨[], s, rfl, h, rfl⟩
    | cons t l ih =>
      intro m s h
      obtain ⟨k, d⟩ := t
      simp only [List.cons_append, serialiseTuples] at h
      split at h
      · rename_i a b c ha hb hc
        obtain ⟨x, y, hx, hy, rfl⟩ := ih m c hc
        cases h
        exact ⟨a ++ b ++ x, y, by simp [serialiseTuples, ha, hb, hx], hy, by simp⟩
      · cases h
  unfold serialiseBundle at hp
  split at hp
  · cases hp
  · rename_i buf hbuf
    rw [List.map_append] at hbuf
    obtain ⟨x, y, hx, hy, rfl⟩ := app _ _ _ hbuf
    have hy0 : ∃ t, y = 0 :: t := by
      simp only [List.map_cons, Key.fromRaw, serialiseTuples] at hy
      split at hy
      · rename_i a b c ha hb hc
        simp [Key.serialise] at ha
        subst ha
        cases hy
        exact ⟨_, rfl⟩
      · cases hy
    obtain ⟨t, rfl⟩ := hy0
    split at hp
    · cases hp
    · simp only [Option.some.injEq] at hp
      subst hp
      unfold bundleDeserialise
      split
      · simp only [List.append_assoc, List.cons_append]
        exact bundleAux_roundtrip _ hok hx _ (.inr ⟨_, rfl⟩) _ (by simp; omega)
      · simp only [List.append_assoc, List.cons_append]
        exact bundleAux_roundtrip _ hok hx _ (.inr ⟨_, rfl⟩) _ (by simp; omega)

/-- the empty key costs its neighbour its value -/
example : ∃ page, serialiseBundle 32 (fun _ => 0)
    [(.literal [], .inline [1]), (.literal [5], .inline [2])] = some page ∧
    bundleDeserialise page = some [] := ⟨_, rfl, by decide⟩

/-! ## C45 (kv) -/

/-- **C45 (kv).** With at least one bundle, the bundle read for a key (from the hash of the raw key) is
the bundle the background commit writes it to (from the stored tuple key), and it exists; and the key
looked up in it is the key stored. -/
theorem C45_kv_one_bundle (H : List Byte → List Byte) (n : Nat) (hn : 0 < n) (raw : List Byte) :
    bundleIndex (H raw) n < n ∧
    bundleIndex ((Key.fromRaw H raw).hash32 H) n = bundleIndex (H raw) n ∧
    Key.fromRawAndHash raw (H raw) = Key.fromRaw H raw := by
  refine ⟨Nat.mod_lt _ hn, ?_, rfl⟩
  congr 1
  unfold Key.fromRaw
  split <;> rfl

/-- **C45 (kv), different keys.** Two raw keys share a stored key only if they are equal or their hashes
collide. -/
theorem C45_kv_keys_distinct (H : List Byte → List Byte) (r s : List Byte)
    (h : Key.fromRaw H r = Key.fromRaw H s) : r = s ∨ (32 < r.length ∧ 32 < s.length ∧ H r = H s) := by
  unfold Key.fromRaw at h
  split at h <;> split at h <;> simp at h
  · exact .inl h
  · exact .inr ⟨by omega, by omega, h⟩

/-! ## C19 (kv) -/

theorem unalignedRead_eq (spage : Nat) (dev : Mem) (off len : Nat) :
    unalignedRead spage dev off len = some (dev.read off len) := by
  have h1 := floorPow2_le off spage
  have h2 := le_ceilPow2 (off + len) spage
  unfold unalignedRead unalignedSpan
  simp only [Mem.length_read]
  generalize hE : max (ceilPow2 (off + len) spage) (1 <<< spage) = E
  have h3 : off + len ≤ E := Nat.le_trans h2 (hE ▸ Nat.le_max_left _ _)
  rw [if_pos (by omega)]
  congr 1
  rw [Mem.read_drop, Mem.read_take _ _ _ _ (by omega)]
  rw [show floorPow2 off spage + (off - floorPow2 off spage) = off by omega]
  rw [List.take_append_of_le_length (by simp)]
  rw [List.take_of_length_le (by simp)]

/-- **C19 (kv).** A read of an existing value is refused with RangeOutOfBounds exactly when the range is
inverted or extends past the value (an empty range inside it is accepted); otherwise it returns exactly
the requested bytes of the value, its end and the value's size, never panicking. -/
theorem C19_kv_range_exact (spage : Nat) (dev : Mem) (d : Data) (start : Nat) (stop : Option Nat) :
    readObject spage dev (some d) start stop =
      if start ≤ stop.getD (valueOf dev d).length ∧ stop.getD (valueOf dev d).length ≤ (valueOf dev d).length
      then .ok ⟨((valueOf dev d).drop start).take (stop.getD (valueOf dev d).length - start),
        stop.getD (valueOf dev d).length, (valueOf dev d).length⟩
      else .err .rangeOutOfBounds := by
  cases d with
  | inline i =>
    simp only [readObject, valueOf]
    by_cases h : start ≤ stop.getD i.length ∧ stop.getD i.length ≤ i.length
    · simp only [h, and_self, if_true]; rw [if_neg (by omega), List.drop_take]
    · simp only [h, if_false]; rw [if_pos (by omega)]
  | heap size off =>
    simp only [readObject, valueOf, Mem.length_read]
    by_cases h : start ≤ stop.getD size ∧ stop.getD size ≤ size
    · simp only [h, and_self, if_true]; rw [if_neg (by omega)]
      split
      · rename_i h'
        congr 2
        rw [show stop.getD size - start = 0 by omega]; simp
      · rename_i h'
        rw [unalignedRead_eq]
        simp only
        rw [Mem.read_drop, Mem.read_take _ _ _ _ (by omega)]
    · simp only [h, if_false]; rw [if_pos (by omega)]

/-- a missing key is reported as not found, whatever the range -/
theorem C19_kv_missing (spage : Nat) (dev : Mem) (start : Nat) (stop : Option Nat) :
    readObject spage dev none start stop = .err .objectNotFound := rfl

/-- concrete: bytes 2..5 of a heap value at an unaligned place, and a refused range -/
example : readObject 9 (fun x => UInt8.ofNat x) (some (.heap 10 512)) 2 (some 5)
    = .ok ⟨[2, 3, 4], 5, 10⟩ ∧
    readObject 9 (fun x => UInt8.ofNat x) (some (.heap 10 512)) 2 (some 11) = .err .rangeOutOfBounds := by
  rw [C19_kv_range_exact, C19_kv_range_exact]
  decide

end Props
end Blobd
