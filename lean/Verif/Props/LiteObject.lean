import Verif.Proofs.LiteObject
import Verif.Proofs.Util
/-!
# C14 (lite object records), C17 (bucket pointers), C45 (lite bucket routing)
-/
namespace Blobd
namespace Props
open Lite

/-- **C14.** Whatever the device contained, after `create` writes a record at `d` every field is read
back exactly: all values for all keys, page lists and associated data within the field widths. -/
theorem C14_record_roundtrip (m : Mem) (d : Nat) (o : NewObject) (hf : Fits o) (pages : Pages)
    (lay : ObjectLayout) (hs : Shaped pages o lay) :
    let m' := m.write d o.encode
    rdState m' d = stIncomplete ∧ rdNext m' d = 0 ∧
    rdMetaPow2 m' d = o.metaSizePow2 ∧ rdCreatedMs m' d = o.createdMs ∧ rdSize m' d = o.size ∧ rdId m' d = o.id ∧
    rdKeyLen m' d = o.key.length ∧ rdKey m' d = o.key ∧
    rdLpageCount pages m' d = some o.lpages.length ∧ rdTailPageCount pages m' d = some o.tailPages.length ∧
    (∀ i (_ : i < o.lpages.length), rdLpage m' d i = o.lpages[i]) ∧
    (∀ i (_ : i < o.tailPages.length), rdTailPage pages m' d i = some o.tailPages[i]) ∧
    rdAssocLen pages m' d = some o.assocData.length ∧ rdAssoc pages m' d = some o.assocData := by
  intro m'
  refine ⟨?_, ?_, (at_encode o m d).decode hf hs⟩
  · have h := read_field o m d (0, leBytes 1 stIncomplete) (by simp [NewObject.fieldWrites, consts.1])
      (by rw [off_total]; simp; omega)
    unfold rdState
    rw [consts.1]
    simp only [length_leBytes] at h
    rw [h, leVal_leBytes_of_lt (by decide)]
  · obtain ⟨c1, c2, c3, c4, c5, c6, c7, c8⟩ := consts
    unfold rdNext rdBe
    have h : (m.write d o.encode).read (d + ObjectOffsets.nextNode) 6 = Mem.read (fun _ => 0) 2 6 := by
      unfold NewObject.encode
      rw [Mem.read_write_block _ _ _ _ _ _ (by rw [off_total, c3]; omega), c3, Mem.read_writeAll_disj]
      intro w hw
      by_cases h0 : w.1 = 0
      · right
        unfold NewObject.fieldWrites at hw
        rcases List.mem_append.1 hw with hw | hw
        · simp only [List.mem_cons, List.not_mem_nil, or_false] at hw
          rcases hw with rfl | rfl | rfl | rfl | rfl | rfl | rfl | rfl | rfl <;>
            simp only [c1, c2, c4, c5, c6, c7, c8, off_assocLen, off_assoc, length_leBytes] at * <;> omega
        · rcases List.mem_append.1 hw with hw | hw
          · have := pageWrites_range hw; rw [off_lpages] at this; omega
          · have := pageWrites_range hw; rw [off_tail] at this; omega
      · have := fieldWrites_range o w hw h0
        omega
    rw [h]; rfl

/-- **C14, afterwards.** After any sequence of state and next-pointer updates all other fields still
read back exactly, the state and the next pointer are the last ones set. -/
theorem C14_updates_preserve (m : Mem) (d : Nat) (o : NewObject) (hf : Fits o) (pages : Pages)
    (lay : ObjectLayout) (hs : Shaped pages o lay) (us : List HdrUpdate) :
    let m' := us.foldl (HdrUpdate.apply d) (m.write d o.encode)
    rdState m' d = lastState us stIncomplete ∧ rdNext m' d = lastNext us 0 ∧
    rdMetaPow2 m' d = o.metaSizePow2 ∧ rdCreatedMs m' d = o.createdMs ∧ rdSize m' d = o.size ∧ rdId m' d = o.id ∧
    rdKeyLen m' d = o.key.length ∧ rdKey m' d = o.key ∧
    rdLpageCount pages m' d = some o.lpages.length ∧ rdTailPageCount pages m' d = some o.tailPages.length ∧
    (∀ i (_ : i < o.lpages.length), rdLpage m' d i = o.lpages[i]) ∧
    (∀ i (_ : i < o.tailPages.length), rdTailPage pages m' d i = some o.tailPages[i]) ∧
    rdAssocLen pages m' d = some o.assocData.length ∧ rdAssoc pages m' d = some o.assocData := by
  intro m'
  have h0 := C14_record_roundtrip m d o hf pages lay hs
  have key : ∀ (us : List HdrUpdate) (m : Mem) (st nx : Nat), At o m d → rdState m d = st → rdNext m d = nx →
      At o (us.foldl (HdrUpdate.apply d) m) d ∧ rdState (us.foldl (HdrUpdate.apply d) m) d = lastState us st ∧
      rdNext (us.foldl (HdrUpdate.apply d) m) d = lastNext us nx := by
    intro us
    induction us with
    | nil => intro m st nx ha h1 h2; exact ⟨ha, h1, h2⟩
    | cons u us ih =>
      intro m st nx ha h1 h2
      cases u with
      | state st' hst =>
        refine ih _ st' nx (ha.write_state st') ?_ ?_
        · unfold rdState HdrUpdate.apply
          have := Mem.read_write_same m (d + ObjectOffsets.state) (leBytes 1 st')
          rw [length_leBytes] at this
          rw [this, leVal_leBytes_of_lt (by simpa using hst)]
        · rw [← h2]
          unfold rdNext rdBe HdrUpdate.apply
          rw [Mem.read_write_disj _ _ _ _ _ (by rw [consts.1, consts.2.2.1]; simp)]
      | next nx' hnx =>
        refine ih _ st nx' (ha.write_next nx') ?_ ?_
        · rw [← h1]
          unfold rdState HdrUpdate.apply
          rw [Mem.read_write_disj _ _ _ _ _ (by rw [consts.1, consts.2.2.1]; simp)]
        · unfold rdNext rdBe HdrUpdate.apply
          have := Mem.read_write_same m (d + ObjectOffsets.nextNode) (beBytes 6 nx')
          rw [length_beBytes] at this
          rw [this, beVal_beBytes_of_lt (by simpa using hnx)]
  obtain ⟨k1, k2, k3⟩ := key us _ _ _ (at_encode o m d) h0.1 h0.2.1
  exact ⟨k2, k3, k1.decode hf hs⟩

/-- A concrete record: 16 MiB + 5000 bytes, one large page, two tail pages. -/
def exampleObject : NewObject :=
  ⟨9, 2 ^ 127 + 5, 1700000000000, 2 ^ 24 + 5000, [104, 105], [2 ^ 25], [2 ^ 26, 2 ^ 26 + 4096], [1, 2, 3]⟩

example : Fits exampleObject ∧ ∃ lay, Shaped ⟨9, 24⟩ exampleObject lay := by
  refine ⟨⟨by decide, by decide, by decide, by decide, by decide, by decide, by decide, by decide⟩, ?_⟩
  obtain ⟨t, e, r⟩ := calcObjectLayout_eq ⟨9, 24⟩ exampleObject.size (by decide) (by decide) (by decide)
  refine ⟨_, e, ?_, ?_⟩
  · show 1 = exampleObject.size / 2 ^ 24; decide
  · simp only [r.len]; decide

/-- Records longer than the fields allow are not silently stored: a size that does not fit in 40 bits
would be read back as a different size. (Callers are responsible; `create` does not check.) -/
theorem C14_size_limit_is_sharp (m : Mem) (d : Nat) (o : NewObject) :
    rdSize (m.write d o.encode) d = o.size % 2 ^ 40 := by
  have h := read_field o m d (14, beBytes 5 o.size) (by simp [NewObject.fieldWrites, consts.2.2.2.2.1])
    (by rw [off_total]; simp; omega)
  unfold rdSize rdBe
  rw [consts.2.2.2.2.1]
  simp only [length_beBytes] at h
  rw [h, beVal_beBytes]

/-! ## C17 -/

/-- **C17, running store.** Storing any 256-byte-aligned offset below 2^48 as the head of a bucket and
reading it back gives the same offset, and no other bucket's head changes. -/
theorem C17_head_roundtrip_partial (m : Mem) (base bkt off : Nat) (ha : 256 ∣ off) (hb : off < 2 ^ 48) :
    rdHead (m.write (base + bucketOff bkt) (encHead off)) base bkt = off ∧
    ∀ other, other ≠ bkt → rdHead (m.write (base + bucketOff bkt) (encHead off)) base other = rdHead m base other := by
  constructor
  · unfold rdHead rdBe
    have := Mem.read_write_same m (base + bucketOff bkt) (encHead off)
    rw [show (encHead off).length = 5 from length_beBytes _ _] at this
    rw [this]
    unfold encHead minPageSizePow2
    rw [Nat.shiftRight_eq_div_pow, beVal_beBytes_of_lt (by
      have : off / 2 ^ 8 < 2 ^ 40 := by omega
      simpa using this), Nat.shiftLeft_eq]
    obtain ⟨k, rfl⟩ := ha
    omega
  · intro other hne
    unfold rdHead rdBe
    rw [Mem.read_write_disj]
    simp only [encHead, length_beBytes, bucketOff]
    rcases Nat.lt_or_gt_of_ne hne with h | h <;> omega

example : 256 ∣ (33554432 + 512) ∧ 33554432 + 512 < 2 ^ 48 := by decide

/-- **C17 is violated at startup**: the startup reader shifts the wrong way, so every non-empty bucket
is traversed from a wrong offset (the true offset divided by 65536). -/
theorem C17_violated_at_startup (m : Mem) (base bkt off : Nat) (hb : off < 2 ^ 48) (h0 : off ≠ 0) :
    rdHeadAtStartup (m.write (base + bucketOff bkt) (encHead off)) base bkt = off / 2 ^ 16 ∧
    rdHeadAtStartup (m.write (base + bucketOff bkt) (encHead off)) base bkt ≠ off := by
  have h : rdHeadAtStartup (m.write (base + bucketOff bkt) (encHead off)) base bkt = off / 2 ^ 16 := by
    unfold rdHeadAtStartup rdBe
    have := Mem.read_write_same m (base + bucketOff bkt) (encHead off)
    rw [show (encHead off).length = 5 from length_beBytes _ _] at this
    rw [this]
    unfold encHead minPageSizePow2
    rw [beVal_beBytes_of_lt (by
      have : off / 2 ^ 8 < 2 ^ 40 := by omega
      rw [Nat.shiftRight_eq_div_pow]
      simpa using this), Nat.shiftRight_eq_div_pow, Nat.shiftRight_eq_div_pow, Nat.div_div_eq_div_mul]
  exact ⟨h, by rw [h]; omega⟩

/-- The alignment premise is needed and not enforced by configuration: an offset that is not a
multiple of 256 (possible when `spage_size_pow2 < 8`) is not read back. -/
theorem C17_alignment_needed (m : Mem) (base bkt off : Nat) (ha : ¬ 256 ∣ off) :
    rdHead (m.write (base + bucketOff bkt) (encHead off)) base bkt ≠ off := by
  unfold rdHead
  generalize rdBe _ _ _ = x
  intro h
  apply ha
  rw [← h, minPageSizePow2, Nat.shiftLeft_eq]
  exact Nat.dvd_mul_left _ _

/-! ## C45 (lite) -/

/-- **C45 (lite).** Every key is routed to a bucket inside the bucket table (for the accepted bucket
counts 2^12 … 2^48, and any 64-bit hash). -/
theorem C45_lite_bucket_in_range (hash64 : List Byte → Nat) (hh : ∀ k, hash64 k < 2 ^ 64) (p : Nat)
    (_h1 : 12 ≤ p) (h2 : p ≤ 48) (key : List Byte) : bucketIdForKey hash64 p key < 2 ^ p := by
  unfold bucketIdForKey
  rw [Nat.shiftRight_eq_div_pow, Nat.div_lt_iff_lt_mul (Nat.two_pow_pos _), ← Nat.pow_add,
    show p + (64 - p) = 64 by omega]
  exact hh key

example : bucketIdForKey (fun _ => 2 ^ 64 - 1) 12 [1, 2] = 4095 := by decide

end Props
end Blobd
