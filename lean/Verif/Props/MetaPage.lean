import Verif.Model.MetaPage
import Verif.Proofs.Util
import Mathlib.Tactic.ByContra
/-!
# C30: the metadata page is released with the size it was allocated with
-/
namespace Blobd
namespace Props
open MetaPage

/-- **C30 (lite).** The exponent the lite store records for a metadata page is the exponent of the page
the allocator handed out, and that page holds the whole record. -/
theorem C30_lite_recorded_is_allocated (pages : Pages) (metaSize : Nat) :
    liteRecorded pages metaSize = allocated pages metaSize ∧ metaSize ≤ 2 ^ liteRecorded pages metaSize := by
  refine ⟨rfl, ?_⟩
  unfold liteRecorded
  have := le_nextPow2 metaSize
  have h2 : 2 ^ nextPow2Exp metaSize ≤ 2 ^ max pages.spage (nextPow2Exp metaSize) :=
    Nat.pow_le_pow_right (by omega) (by omega)
  omega

private theorem ceil_ge (pages : Pages) (m : Nat) (hm : 0 < m) :
    2 ^ pages.spage ≤ ceilPow2 m pages.spage := by
  have h1 := le_ceilPow2 m pages.spage
  exact Nat.le_of_dvd (by omega) (ceilPow2_dvd m pages.spage)

private theorem pageSize_eq (pages : Pages) (m : Nat) (hm : 0 < m) :
    directPageSize pages m = ceilPow2 m pages.spage := by
  have := ceil_ge pages m hm
  simp only [directPageSize, Nat.shiftLeft_eq, Nat.one_mul]
  omega

private theorem next_le {m k : Nat} (h : m ≤ 2 ^ k) : nextPow2Exp m ≤ k := by
  unfold nextPow2Exp
  split
  · omega
  · have : Nat.log2 (m - 1) < k := (Nat.log2_lt (by omega)).2 (by have := Nat.two_pow_pos k; omega)
    omega

/-- **C30 (direct), exact condition.** For metadata of `m ≥ 1` bytes the recorded size equals the size
allocated exactly when `m` rounded up to the small page size is a power of two; exactly then does the
start-up read of the recorded size cover the whole metadata. The bytes written at creation always fit in
the allocated page. -/
theorem C30_direct_condition (pages : Pages) (m : Nat) (hm : 0 < m) :
    (directRecorded pages m = allocated pages m ↔ ∃ k, ceilPow2 m pages.spage = 2 ^ k) ∧
    (m ≤ 2 ^ directRecorded pages m ↔ ∃ k, ceilPow2 m pages.spage = 2 ^ k) ∧
    m ≤ directWritten pages m ∧ directWritten pages m ≤ 2 ^ allocated pages m := by
  have hc := ceil_ge pages m hm
  have hc1 := le_ceilPow2 m pages.spage
  have hc2 := ceilPow2_dvd m pages.spage
  have hp := pageSize_eq pages m hm
  have hn := le_nextPow2 m
  have hsp := Nat.two_pow_pos pages.spage
  -- the allocated page is a multiple of the small page and holds m, hence holds the rounded size
  have ha : m ≤ 2 ^ allocated pages m := (C30_lite_recorded_is_allocated pages m).2
  have ha2 : ceilPow2 m pages.spage ≤ 2 ^ allocated pages m :=
    ceilPow2_le_of_dvd (Nat.pow_dvd_pow 2 (by unfold allocated Buddy.requestPow2; omega)) ha
  have hr : directRecorded pages m = Nat.log2 (ceilPow2 m pages.spage) := by
    unfold directRecorded; rw [hp]
  have hlog := Nat.log2_self_le (n := ceilPow2 m pages.spage) (by omega)
  have hlt := Nat.lt_log2_self (n := ceilPow2 m pages.spage)
  have hs : pages.spage ≤ Nat.log2 (ceilPow2 m pages.spage) := (Nat.le_log2 (by omega)).2 hc
  have key : m ≤ 2 ^ directRecorded pages m ↔ ∃ k, ceilPow2 m pages.spage = 2 ^ k := by
    constructor
    · intro h
      rw [hr] at h
      exact ⟨_, Nat.le_antisymm (ceilPow2_le_of_dvd (Nat.pow_dvd_pow 2 hs) h) hlog⟩
    · rintro ⟨k, hk⟩
      rw [hr, hk, Nat.log2_two_pow]
      omega
  refine ⟨⟨?_, ?_⟩, key, ?_, ?_⟩
  · intro h
    rw [← key, h]
    exact ha
  · rintro ⟨k, hk⟩
    rw [hr, hk, Nat.log2_two_pow]
    unfold allocated Buddy.requestPow2
    have h1 : pages.spage ≤ k := by rw [hk, Nat.log2_two_pow] at hs; exact hs
    have h2 : nextPow2Exp m ≤ k := next_le (by omega)
    by_contra hne
    have h3 : max pages.spage (nextPow2Exp m) < k := by omega
    have h4 : 2 ^ allocated pages m < 2 ^ k := Nat.pow_lt_pow_right (by omega) h3
    omega
  · unfold directWritten; omega
  · unfold directWritten; omega

/-- **C30 (direct), the part that holds.** Metadata of up to two small pages is recorded with the size of
its page, so deletion returns exactly that page and start-up reads all of it. Missing: larger metadata,
where `C30_violated_*` show the property false. -/
theorem C30_small_metadata_partial (pages : Pages) (m : Nat) (hm : 0 < m) (h2 : m ≤ 2 * 2 ^ pages.spage) :
    directRecorded pages m = allocated pages m ∧ m ≤ 2 ^ directRecorded pages m := by
  have hc := C30_direct_condition pages m hm
  have hk : ∃ k, ceilPow2 m pages.spage = 2 ^ k := by
    by_cases h : m ≤ 2 ^ pages.spage
    · exact ⟨pages.spage, Nat.le_antisymm (ceilPow2_le_of_dvd (Nat.dvd_refl _) h) (ceil_ge pages m hm)⟩
    · refine ⟨pages.spage + 1, ?_⟩
      have h1 : ceilPow2 m pages.spage ≤ 2 ^ (pages.spage + 1) :=
        ceilPow2_le_of_dvd (Nat.pow_dvd_pow 2 (by omega)) (by rw [Nat.pow_succ]; omega)
      obtain ⟨j, hj⟩ := ceilPow2_dvd m pages.spage
      have h3 := le_ceilPow2 m pages.spage
      have : 1 < j := by
        by_contra hc
        have : 2 ^ pages.spage * j ≤ 2 ^ pages.spage * 1 := Nat.mul_le_mul_left _ (by omega)
        omega
      have : 2 ^ pages.spage * 2 ≤ 2 ^ pages.spage * j := Nat.mul_le_mul_left _ this
      rw [Nat.pow_succ] at *
      omega
  exact ⟨hc.1.2 hk, hc.2.1.2 hk⟩

/-- **C30 is false of the direct store.** Whenever the rounded size is not a power of two, the recorded
page is strictly smaller than the allocated one: deletion returns only the first part and the rest is
never returned, and the start-up read is too short to contain the metadata. -/
theorem C30_violated_large_metadata (pages : Pages) (m : Nat) (hm : 0 < m)
    (h : ¬ ∃ k, ceilPow2 m pages.spage = 2 ^ k) :
    directRecorded pages m < allocated pages m ∧ 2 ^ directRecorded pages m < m := by
  have hc := C30_direct_condition pages m hm
  have h2 : 2 ^ directRecorded pages m < m := by
    have := (not_congr hc.2.1).2 h
    omega
  refine ⟨?_, h2⟩
  by_contra hlt
  have : 2 ^ allocated pages m ≤ 2 ^ directRecorded pages m := Nat.pow_le_pow_right (by omega) (by omega)
  omega

/-- The smallest realistic instance: 512-byte small pages and 1100 bytes of metadata (a 1 KiB key). The
tuple says 1024 bytes, the page has 2048; at start-up 76 bytes of the metadata are missing. -/
theorem C30_violated_concrete : ∃ (pages : Pages) (m : Nat), pages.spage = 9 ∧ pages.lpage = 24 ∧ m = 1100 ∧
    directRecorded pages m = 10 ∧ allocated pages m = 11 :=
  ⟨⟨9, 24⟩, 1100, rfl, rfl, rfl, by decide, by decide⟩

example : directRecorded ⟨9, 24⟩ 700 = allocated ⟨9, 24⟩ 700 := by decide

end Props
end Blobd
