import Verif.Spec.Regions
import Verif.Proofs.Util
/-!
# C38, C39, C40 (device regions) and C45 (routing in direct)
-/
namespace Blobd
namespace Props
open Regions Spec

/-! ## C39: lite -/

/-- **C39, the part that holds.** Whenever the lite store accepts its configuration: the buckets, the
journal and the heap share no byte; the buckets hold five bytes per bucket, the journal at least 32 MiB;
the heap is aligned to the large page size at both ends; buckets and journal are inside the device.
Missing for the full property: that the heap ends inside the device, see `C39_heap_inside_iff`. -/
theorem C39_lite_regions_partial (c : LiteCfg) (r : LiteRegions) (h : liteRegions c = some r) :
    RDisj r.buckets r.journal ∧ RDisj r.buckets r.heap ∧ RDisj r.journal r.heap ∧
    r.buckets.len = 5 * 2 ^ c.bucketCountLog2 ∧ 32 * 1024 * 1024 ≤ r.journal.len ∧
    2 ^ c.lpage ∣ r.heap.off ∧ 2 ^ c.lpage ∣ r.heap.len ∧
    RSub r.buckets ⟨0, c.deviceSize⟩ ∧ RSub r.journal ⟨0, c.deviceSize⟩ := by
  unfold liteRegions at h
  split at h
  · simp only at h
    split at h
    · rename_i _ hd
      simp only [Option.some.injEq] at h
      subst h
      have h1 := le_ceilPow2 (0 + 1 <<< c.bucketCountLog2 * 5 + 1024 * 1024 * 32) c.lpage
      have h2 := ceilPow2_dvd (0 + 1 <<< c.bucketCountLog2 * 5 + 1024 * 1024 * 32) c.lpage
      simp only [RDisj, RSub, RHas, Nat.shiftLeft_eq, Nat.one_mul] at *
      refine ⟨?_, ?_, ?_, ?_, ?_, h2, ceilPow2_dvd _ _, ?_, ?_⟩ <;> intros <;> omega
    · simp at h
  · simp at h

/-- **C39, exact condition.** The heap lies inside the device exactly when the device size is a multiple
of the large page size. -/
theorem C39_heap_inside_iff (c : LiteCfg) (r : LiteRegions) (h : liteRegions c = some r) :
    RSub r.heap ⟨0, c.deviceSize⟩ ↔ (2 ^ c.lpage ∣ c.deviceSize ∨ r.heap.len = 0) := by
  unfold liteRegions at h
  split at h
  · simp only at h
    split at h
    · rename_i _ hd
      simp only [Option.some.injEq] at h
      subst h
      have h1 := le_ceilPow2 (0 + 1 <<< c.bucketCountLog2 * 5 + 1024 * 1024 * 32) c.lpage
      have h2 := ceilPow2_dvd (0 + 1 <<< c.bucketCountLog2 * 5 + 1024 * 1024 * 32) c.lpage
      simp only
      generalize ceilPow2 (0 + 1 <<< c.bucketCountLog2 * 5 + 1024 * 1024 * 32) c.lpage = H at *
      have h3 := le_ceilPow2 (c.deviceSize - H) c.lpage
      have h4 := ceilPow2_dvd (c.deviceSize - H) c.lpage
      constructor
      · intro hs
        by_cases h0 : ceilPow2 (c.deviceSize - H) c.lpage = 0
        · exact .inr h0
        · left
          have := hs (H + ceilPow2 (c.deviceSize - H) c.lpage - 1) (by simp only [RHas]; omega)
          simp only [RHas] at this
          have he : c.deviceSize = H + ceilPow2 (c.deviceSize - H) c.lpage := by omega
          rw [he]
          exact Nat.dvd_add h2 h4
      · intro hs x hx
        simp only [RHas] at hx ⊢
        rcases hs with hs | hs
        · have := ceilPow2_eq_self_of_dvd (Nat.dvd_sub hs h2)
          omega
        · omega
    · simp at h
  · simp at h

/-- **C39 is false of the code.** A device one byte longer than the reserved space gives a heap of a
whole large page, nearly all of it beyond the end of the device. -/
theorem C39_violated_heap_past_device_end :
    ∃ c r, liteRegions c = some r ∧ ¬ RSub r.heap ⟨0, c.deviceSize⟩ := by
  refine ⟨⟨12, 24, 50331648 + 1⟩, ⟨⟨0, 20480⟩, ⟨20480, 50311168⟩, ⟨50331648, 16777216⟩⟩, by decide, ?_⟩
  intro h
  have := h 50331649 (by simp only [RHas]; omega)
  simp only [RHas] at this
  omega

example : liteRegions ⟨12, 24, 2 ^ 34⟩ =
    some ⟨⟨0, 20480⟩, ⟨20480, 50311168⟩, ⟨50331648, 17129537536⟩⟩ := by decide

/-! ## C38: KV -/

/-- **C38, the part that holds.** Every region is inside the device, and apart from the pair (heap, log
data) all pairs are disjoint, given that the bundle area does not reach into the log data (which the code
does not check: see `C38_bundles_may_overlap_log`). -/
theorem C38_kv_regions_partial (c : KvCfg) (r : KvRegions) (h : kvRegions c = some r) :
    RSub r.bundles ⟨0, c.deviceLen⟩ ∧ RSub r.heap ⟨0, c.deviceLen⟩ ∧
    RSub r.logData ⟨0, c.deviceLen⟩ ∧ RSub r.logState ⟨0, c.deviceLen⟩ ∧
    RDisj r.bundles r.heap ∧ RDisj r.bundles r.logState ∧ RDisj r.heap r.logState ∧
    RDisj r.logData r.logState ∧
    2 ^ 24 ∣ r.heap.off ∧ 2 ^ 24 ∣ r.heap.len ∧ 2 ^ c.spage ∣ r.logState.off ∧
    r.logState.len = 2 ^ c.spage := by
  unfold kvRegions at h
  split at h <;> simp at h
  obtain ⟨_, _, _, _, _, h⟩ := h
  subst h
  have e1 := floorPow2_le c.deviceLen c.spage
  have e2 := floorPow2_dvd c.deviceLen c.spage
  have e3 := ceilPow2_dvd c.tuplesReserved 24
  simp only [Nat.shiftLeft_eq, Nat.one_mul] at *
  generalize floorPow2 c.deviceLen c.spage = D at *
  generalize ceilPow2 c.tuplesReserved 24 = T at *
  have e4 := floorPow2_le (D - 2 ^ c.spage - T) 24
  have e5 := floorPow2_dvd (D - 2 ^ c.spage - T) 24
  generalize floorPow2 (D - 2 ^ c.spage - T) 24 = F at *
  simp only [RSub, RDisj, RHas]
  refine ⟨?_, ?_, ?_, ?_, ?_, ?_, ?_, ?_, e3, e5, Nat.dvd_sub e2 (Nat.dvd_refl _), trivial⟩ <;>
    intros <;> omega

/-- **C38 is false of the code, for every configuration.** In *every* configuration the KV store accepts,
the heap and the log data region share bytes: the heap is sized up to the log state, not up to the log
data. -/
theorem C38_violated_heap_always_overlaps_log (c : KvCfg) (r : KvRegions) (h : kvRegions c = some r) :
    ¬ RDisj r.heap r.logData := by
  unfold kvRegions at h
  split at h <;> simp at h
  obtain ⟨_, _, _, _, _, h⟩ := h
  subst h
  have e4 := floorPow2_le (floorPow2 c.deviceLen c.spage - 1 <<< c.spage - ceilPow2 c.tuplesReserved 24) 24
  have e5 := lt_floorPow2 (floorPow2 c.deviceLen c.spage - 1 <<< c.spage - ceilPow2 c.tuplesReserved 24) 24
  intro hd
  apply hd (ceilPow2 c.tuplesReserved 24 + floorPow2 (floorPow2 c.deviceLen c.spage -
    1 <<< c.spage - ceilPow2 c.tuplesReserved 24) 24 - 1)
  simp only [RHas]
  omega

/-- The overlap is never empty and can be the whole log: with a log of `L` bytes every log byte except
the last 16 MiB is also a heap byte (when the bundles end before the log). -/
theorem C38_violated_log_is_inside_heap (c : KvCfg) (r : KvRegions) (h : kvRegions c = some r)
    (hb : r.bundles.len ≤ r.logData.off) (x : Nat) (hx : RHas r.logData x)
    (hx2 : x + 2 ^ 24 ≤ r.logState.off) : RHas r.heap x := by
  unfold kvRegions at h
  split at h <;> simp at h
  obtain ⟨_, _, _, _, _, h⟩ := h
  subst h
  have e5 := lt_floorPow2 (floorPow2 c.deviceLen c.spage - 1 <<< c.spage - ceilPow2 c.tuplesReserved 24) 24
  simp only [RHas] at *
  omega

/-- The bundle area itself may overlap the log data: nothing compares them. -/
theorem C38_violated_bundles_may_overlap_log :
    ∃ c r, kvRegions c = some r ∧ ¬ RDisj r.bundles r.logData := by
  refine ⟨⟨9, 2 ^ 30, 2 ^ 29 + 2 ^ 28, 1, 7, 2 ^ 29⟩,
    ⟨⟨0, 536870912⟩, ⟨536870912, 520093696⟩, ⟨268434944, 805306368⟩, ⟨1073741312, 512⟩⟩, by decide, ?_⟩
  intro h
  exact h 300000000 (by simp only [RHas]; omega)

example : (kvRegions ⟨12, 2 ^ 34, 2 ^ 27, 2 ^ 26, 1024, 2 ^ 30⟩).isSome = true := by decide

/-! ## C40: direct -/

/-- **C40 (a).** In every accepted partition configuration the tuple area and the heap are disjoint, cover
the partition up to its last whole large page, and the heap is aligned. -/
theorem C40_direct_regions (tuplesReserved lpage partitionLen : Nat) (r : DirectRegions)
    (h : directRegions tuplesReserved lpage partitionLen = some r) :
    RDisj r.tuples r.heap ∧ RSub r.tuples ⟨0, partitionLen⟩ ∧ RSub r.heap ⟨0, partitionLen⟩ ∧
    tuplesReserved ≤ r.tuples.len ∧ r.tuples.off + r.tuples.len = r.heap.off ∧
    2 ^ lpage ∣ r.heap.off ∧ 2 ^ lpage ∣ r.heap.len ∧
    partitionLen < r.heap.off + r.heap.len + 2 ^ lpage := by
  unfold directRegions at h
  simp only at h
  split at h <;> try simp at h
  obtain ⟨h1, h2⟩ := h
  subst h2
  have e1 := floorPow2_le partitionLen lpage
  have e2 := floorPow2_dvd partitionLen lpage
  have e3 := ceilPow2_dvd tuplesReserved lpage
  have e4 := le_ceilPow2 tuplesReserved lpage
  have e5 := lt_floorPow2 partitionLen lpage
  simp only [RSub, RDisj, RHas]
  refine ⟨?_, ?_, ?_, ?_, ?_, e3, Nat.dvd_sub e2 e3, ?_⟩ <;> intros <;> omega

/-- **C40 (b).** Whatever offset and length a partition's store is asked to access, either the call
panics or only bytes of that partition are touched; so if two configured partitions do not overlap on the
device, no access through one touches the other. -/
theorem C40_partition_access_confined (p q : PartitionStore) (off len : Nat) (r : Region)
    (h : p.access off len = some r) :
    RSub r ⟨p.offset, p.len⟩ ∧
    (RDisj ⟨p.offset, p.len⟩ ⟨q.offset, q.len⟩ → RDisj r ⟨q.offset, q.len⟩) := by
  unfold PartitionStore.access at h
  split at h <;> simp at h
  subst h
  have hs : RSub ⟨p.offset + off, len⟩ ⟨p.offset, p.len⟩ := by
    intro x hx
    simp only [RHas] at *
    omega
  exact ⟨hs, fun hd x hx => hd x ⟨hs x hx.1, hx.2⟩⟩

/-- **C40 (c).** The tuple writer's store, bounded to the tuple area, can never touch a heap byte, and
every access inside the tuple area is allowed. -/
theorem C40_tuple_store_never_touches_heap (tuplesReserved lpage : Nat) (p : PartitionStore)
    (r : DirectRegions) (h : directRegions tuplesReserved lpage p.len = some r) :
    ∃ b, p.bounded 0 r.heap.off = some b ∧
      (∀ off len t, b.access off len = some t →
        RSub t ⟨p.offset, r.tuples.len⟩ ∧ RDisj t ⟨p.offset + r.heap.off, r.heap.len⟩) ∧
      (∀ off len, off + len ≤ r.tuples.len → b.access off len = some ⟨p.offset + off, len⟩) := by
  unfold directRegions at h
  simp only at h
  split at h <;> try simp at h
  obtain ⟨h1, h2⟩ := h
  subst h2
  have e1 := floorPow2_le p.len lpage
  refine ⟨⟨p, 0, ceilPow2 tuplesReserved lpage⟩, ?_, ?_, ?_⟩
  · unfold PartitionStore.bounded
    rw [if_pos (by simp only; omega)]
  · intro off len t ht
    unfold BoundedStore.access at ht
    simp only at ht
    split at ht <;> try simp at ht
    unfold PartitionStore.access at ht
    split at ht <;> simp at ht
    subst ht
    simp only [RSub, RDisj, RHas]
    constructor <;> intros <;> omega
  · intro off len hl
    simp only at hl
    unfold BoundedStore.access PartitionStore.access
    simp only
    rw [if_pos hl, if_pos (by omega)]
    simp

example : directRegions (2 ^ 20) 24 (2 ^ 30) = some ⟨⟨0, 2 ^ 24⟩, ⟨2 ^ 24, 2 ^ 30 - 2 ^ 24⟩⟩ := by decide

/-! ## C45: routing in direct -/

/-- **C45 (direct).** With at least one partition every operation on a key goes to the same in-range
partition: create, inspect, read and delete by the key, and write and commit by the token that create
returned for that key. -/
theorem C45_direct_one_partition (hash64 : List UInt8 → Nat) (n : Nat) (hn : 0 < n) (key : List UInt8)
    (id : Nat) :
    ∃ p, p < n ∧ route hash64 n (.create key) = some p ∧
      route hash64 n (.write (createToken p id)) = some p ∧
      route hash64 n (.commit (createToken p id)) = some p ∧
      route hash64 n (.inspect key) = some p ∧ route hash64 n (.read key) = some p ∧
      route hash64 n (.delete key) = some p := by
  have h := Nat.mod_lt (hash64 key) hn
  refine ⟨hash64 key % n, h, ?_⟩
  simp [route, partitionIndex, createToken, h, Nat.ne_of_gt hn]

example : route (fun k => k.length) 3 (.create [1, 2, 3, 4]) = some 1 := by decide

end Props
end Blobd
