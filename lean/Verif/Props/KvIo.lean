import Verif.Model.KvIo
import Verif.Props.KvObject
set_option autoImplicit false
/-! # C77: reported counters of data read and written (KV store) -/
namespace Blobd
namespace Props
open Kv

/-- The counted read answers as the read of C19, the counted write as the write of C34. -/
theorem C77_kv_same (spage : Nat) (dev : Mem) (tuple : Option Data) (start : Nat) (stop : Option Nat) (threshold : Nat) (junk : Nat → Byte)
    (a : KvAlloc) (data : List Byte) :
    (readObjectIo spage dev tuple start stop).1 = readObject spage dev tuple start stop ∧
      ((writePrepareIo threshold junk a dev data).1, (writePrepareIo threshold junk a dev data).2.1,
        (writePrepareIo threshold junk a dev data).2.2.1) = writePrepare threshold junk a dev data := by
  constructor
  · unfold readObjectIo
    dsimp only
    split
    · rename_i h; exact h.symm ▸ rfl
    · rfl
  · unfold writePrepareIo writePrepare
    split
    · rfl
    · split
      · rfl
      · cases allocateOnHeap a data.length with
        | mk o a' => cases o <;> rfl

/-- C77 (kv reads): a refused read counts nothing and reads nothing; a successful read counts as one, and the bytes reported as sent are exactly
the bytes returned. The bytes reported as discarded are exactly the bytes read from the device beyond those: for a value on the heap the bytes
sent and discarded are together the bytes read from the device; a value in the log or in its tuple reads nothing from the heap. -/
theorem C77_kv_read_counted (spage : Nat) (dev : Mem) (tuple : Option Data) (start : Nat) (stop : Option Nat) :
    (∀ e, (readObjectIo spage dev tuple start stop).1 = .err e → (readObjectIo spage dev tuple start stop).2 = ([], {})) ∧
    (readObjectIo spage dev tuple start stop).1 ≠ .panic ∧
    ∀ out, (readObjectIo spage dev tuple start stop).1 = .ok out →
      (readObjectIo spage dev tuple start stop).2.2.readOps = 1 ∧
      (readObjectIo spage dev tuple start stop).2.2.readSent = out.data.length ∧
      ((readObjectIo spage dev tuple start stop).2.1 = [] ∧ (readObjectIo spage dev tuple start stop).2.2.readDiscarded = 0 ∨
        ∃ off n, (readObjectIo spage dev tuple start stop).2.1 = [(off, n)] ∧
          n = out.data.length + (readObjectIo spage dev tuple start stop).2.2.readDiscarded ∧
          2 ^ spage ∣ off ∧ 2 ^ spage ∣ n) ∧
      (∀ i, tuple = some (.inline i) → (readObjectIo spage dev tuple start stop).2.1 = []) ∧
      (∀ size off, tuple = some (.heap size off) → out.data ≠ [] → (readObjectIo spage dev tuple start stop).2.1 ≠ []) := by
  cases tuple with
  | none =>
    refine ⟨fun e _ => rfl, by simp [readObjectIo, readObject], fun out h => by simp [readObjectIo, readObject] at h⟩
  | some d =>
    cases d with
    | inline i =>
      unfold readObjectIo readObject
      dsimp only
      by_cases hr : start > stop.getD i.length ∨ start > i.length ∨ stop.getD i.length > i.length
      · rw [if_pos hr]
        exact ⟨fun e _ => rfl, (by simp), fun out h => by simp at h⟩
      · rw [if_neg hr]
        refine ⟨(fun e h => by cases h), (by simp), fun out h => ?_⟩
        cases h
        exact ⟨rfl, rfl, .inl ⟨rfl, rfl⟩, fun _ _ => rfl, (fun _ _ h => by simp at h)⟩
    | heap size off =>
      unfold readObjectIo readObject
      dsimp only
      by_cases hr : start > stop.getD size ∨ start > size ∨ stop.getD size > size
      · rw [if_pos hr, if_pos hr]
        exact ⟨fun e _ => rfl, (by simp), fun out h => by simp at h⟩
      · rw [if_neg hr, if_neg hr]
        by_cases he : start = stop.getD size ∨ start = size
        · rw [if_pos he, if_pos he]
          refine ⟨(fun e h => by cases h), (by simp), fun out h => ?_⟩
          cases h
          exact ⟨rfl, rfl, .inl ⟨rfl, rfl⟩, fun _ _ => rfl, fun _ _ _ h => absurd rfl h⟩
        · rw [if_neg he, if_neg he, Props.unalignedRead_eq]
          refine ⟨(fun e h => by cases h), (by simp), fun out h => ?_⟩
          cases h
          have h1 := floorPow2_le (off + start) spage
          have h2 := le_ceilPow2 (off + start + (stop.getD size - start)) spage
          refine ⟨rfl, rfl, .inr ⟨_, _, rfl, ?_, ?_, ?_⟩, (fun _ h => by cases h), (fun _ _ _ _ h => by cases h)⟩
          · rw [Mem.length_read]
            unfold unalignedSpan
            dsimp only
            omega
          · exact floorPow2_dvd _ _
          · unfold unalignedSpan
            dsimp only
            refine Nat.dvd_sub ?_ (floorPow2_dvd _ _)
            rw [Nat.one_shiftLeft]
            rcases Nat.le_total (ceilPow2 (off + start + (stop.getD size - start)) spage) (2 ^ spage) with h | h
            · rw [Nat.max_eq_right h]
            · rw [Nat.max_eq_left h]; exact ceilPow2_dvd _ _

/-- C77 (kv writes): a write that is refused before its tuple reaches the log counts nothing and writes nothing; otherwise it counts as one, for
exactly the length of its value; a value that goes to the heap is padded to a multiple of the small page size, and the padding reported is
exactly the bytes written beyond the value. -/
theorem C77_kv_write_counted (threshold : Nat) (junk : Nat → Byte) (a : KvAlloc) (dev : Mem) (data : List Byte)
    (r : Outcome OpErr Data) (a' : KvAlloc) (dev' : Mem) (ws : List (Nat × List Byte)) (c : IoCount)
    (h : writePrepareIo threshold junk a dev data = (r, a', dev', ws, c)) :
    dev' = dev.writeAll ws ∧ (∀ e, r = .err e → ws = [] ∧ c = {}) ∧
    ∀ t, r = .ok t → c.writeOps = 1 ∧ c.writePersisted = data.length ∧
      (ws = [] ∧ c.writePadding = 0 ∧ t = .inline data ∨
        ∃ off buf, ws = [(off, buf)] ∧ t = .heap data.length off ∧ buf.length = c.writePersisted + c.writePadding ∧ data <+: buf ∧
          2 ^ a.pages.spage ∣ buf.length ∧ (0 < data.length → c.writePadding < 2 ^ a.pages.spage)) := by
  unfold writePrepareIo at h
  split at h
  · cases h
    exact ⟨rfl, fun _ _ => ⟨rfl, rfl⟩, (fun t ht => by cases ht)⟩
  · split at h
    · cases h
      exact ⟨rfl, (fun _ he => by cases he), fun t ht => ⟨rfl, rfl, .inl ⟨rfl, rfl, by cases ht; rfl⟩⟩⟩
    · cases hal : allocateOnHeap a data.length with
      | mk o a2 =>
        rw [hal] at h
        cases o with
        | err e => cases h; exact ⟨rfl, fun _ _ => ⟨rfl, rfl⟩, (fun t ht => by cases ht)⟩
        | panic => cases h; exact ⟨rfl, fun _ _ => ⟨rfl, rfl⟩, (fun t ht => by cases ht)⟩
        | ok v =>
          obtain ⟨off, n⟩ := v
          cases h
          refine ⟨rfl, (fun _ he => by cases he), fun t ht => ⟨rfl, rfl, .inr ⟨off, _, rfl, by cases ht; rfl, ?_⟩⟩⟩
          have hn : n = max (1 <<< a.pages.spage) (ceilPow2 data.length a.pages.spage) := by
            unfold allocateOnHeap at hal
            split at hal
            · cases hal
            · cases hal
            · cases hal; rfl
          have h1 := le_ceilPow2 data.length a.pages.spage
          have h2 := ceilPow2_lt data.length a.pages.spage
          have hl : (paddedBuf junk data n).length = n := by
            unfold paddedBuf
            simp only [List.length_append, List.length_map, List.length_range]
            omega
          rw [Nat.one_shiftLeft] at hn
          refine ⟨?_, ⟨_, rfl⟩, ?_, ?_⟩
          · rw [hl]; dsimp only; omega
          · rw [hl, hn]
            rcases Nat.le_total (ceilPow2 data.length a.pages.spage) (2 ^ a.pages.spage) with h | h
            · rw [Nat.max_eq_left h]
            · rw [Nat.max_eq_right h]; exact ceilPow2_dvd _ _
          · intro hp
            dsimp only
            have h3 := Nat.le_of_dvd (by omega) (ceilPow2_dvd data.length a.pages.spage)
            omega

-- non-vacuity: 5 bytes out of a 20-byte heap value at 64, small pages of 8 bytes
example : (readObjectIo 3 (fun n => n.toUInt8) (some (.heap 20 64)) 6 (some 11)).2 =
    ([(64, 16)], { readOps := 1, readSent := 5, readDiscarded := 11 }) := by decide +kernel
example : (readObjectIo 3 (fun n => n.toUInt8) (some (.heap 20 64)) 12 (some 11)).2 = ([], {}) := by decide +kernel
-- 11 bytes above the threshold go to the heap as 16, with 5 bytes of padding; 2 bytes go into the log
example : ∃ a, KvAlloc.new 64 64 ⟨3, 5⟩ = some a ∧
    (writePrepareIo 4 (fun _ => 0) a (fun _ => 0) (List.replicate 11 7)).2.2.2.2 =
      { writeOps := 1, writePersisted := 11, writePadding := 5 } ∧
    (writePrepareIo 4 (fun _ => 0) a (fun _ => 0) [1, 2]).2.2.2.2 = { writeOps := 1, writePersisted := 2 } :=
  ⟨_, rfl, by decide +kernel, by decide +kernel⟩

end Props
end Blobd
