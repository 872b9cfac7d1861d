import Verif.Proofs.KvAlloc
/-!
# Properties C09, C10: the heap allocator of the KV store

`0 < spage` and `lpage < 64` hold for every accepted configuration (`spage ≥ 9`, `lpage = 24`,
libblobd-kv/src/object.rs:51-52, libblobd-kv/src/lib.rs:110-111).
-/
namespace Blobd
namespace Props
open Spec KvAlloc

/-- **C09.** In every history: live value regions share no byte, each is inside the heap, and each is
at least as long as the size it was requested with. -/
theorem C09_regions_disjoint_in_heap {c : KvHeapCfg} {a : KvAlloc} {live : List (Nat × Nat)}
    (hsp : 0 < c.pages.spage) (hl : c.pages.lpage < 64) (h : KvReach c a live) :
    live.Pairwise (RegionDisj c.pages) ∧
    ∀ r ∈ live, c.base ≤ r.1 ∧ regionEnd c.pages r ≤ c.base + c.heap ∧
      r.1 + r.2 ≤ regionEnd c.pages r := by
  have inv := KvAlloc.reach_inv hsp hl h
  refine ⟨inv.disj, fun r hr => ?_⟩
  have := inv.regs r hr
  exact ⟨this.ge, this.fits, Nat.add_le_add_left (le_ceilPow2 _ _) _⟩

/-- **C09, out of space.** A request of at most a large page fails with out-of-space exactly when the
heap has no free aligned run of the size rounded up to a power of two; it never panics, and failure
changes nothing. -/
theorem C09_out_of_space_iff {c : KvHeapCfg} {a : KvAlloc} {live : List (Nat × Nat)}
    (hsp : 0 < c.pages.spage) (hl : c.pages.lpage < 64) (h : KvReach c a live) (size : Nat)
    (hsl : c.pages.spage ≤ c.pages.lpage) (hsz : size ≤ 2 ^ c.pages.lpage) :
    ((a.allocate size).1 = .err .outOfSpace ↔
      ¬ ∃ n, n * 2 ^ contPow2 c.pages size + 2 ^ contPow2 c.pages size ≤ c.heap ∧
        ∀ x, c.base + n * 2 ^ contPow2 c.pages size ≤ x →
          x < c.base + n * 2 ^ contPow2 c.pages size + 2 ^ contPow2 c.pages size →
          ∀ r ∈ live, ¬ InRegion c.pages r x) ∧
    ((a.allocate size).1 = .err .outOfSpace → (a.allocate size).2 = a) ∧
    (a.allocate size).1 ≠ .panic := by
  have inv := KvAlloc.reach_inv hsp hl h
  have hk : contPow2 c.pages size ≤ c.pages.lpage := Nat.max_le.2 ⟨hsl, nextPow2Exp_le hsz⟩
  rcases inv.alloc hsp hl size hk with ⟨off, a', e, _, ⟨n, hv, _⟩, _⟩ | ⟨e, hv⟩
  · rw [e]
    refine ⟨?_, by simp, by simp⟩
    simp only [reduceCtorEq, false_iff, not_not]
    exact ⟨n, (vac_avail_iff _ _ _ _).1 hv⟩
  · rw [e]
    refine ⟨?_, fun _ => rfl, by simp⟩
    simp only [true_iff]
    rintro ⟨n, hn⟩
    exact hv n ((vac_avail_iff _ _ _ _).2 hn)

/-- **C10, release.** Releasing a live region never panics, and the region's bytes stop being live. -/
theorem C10_release_succeeds {c : KvHeapCfg} {a : KvAlloc} {live : List (Nat × Nat)}
    (hsp : 0 < c.pages.spage) (hl : c.pages.lpage < 64) (h : KvReach c a live)
    (r : Nat × Nat) (hm : r ∈ live) :
    ∃ a', a.release r.1 r.2 = some a' ∧ KvReach c a' (live.erase r) := by
  have inv := (KvAlloc.reach_inv hsp hl h).perm (List.perm_cons_erase hm)
  obtain ⟨a', e, _⟩ := inv.rel hsp hl
  exact ⟨a', e, .release h hm e⟩

/-- **C10, reuse.** After any history, releasing all live regions in any order succeeds and leaves
exactly the free-space map of a fresh heap. -/
theorem C10_release_all_restores {c : KvHeapCfg} {a a0 : KvAlloc} {live order : List (Nat × Nat)}
    (hsp : 0 < c.pages.spage) (hl : c.pages.lpage < 64) (h : KvReach c a live)
    (hp : order.Perm live) (h0 : KvAlloc.new c.base c.heap c.pages = some a0) :
    ∃ a', kvReleaseAll a order = some a' ∧ KvReach c a' [] ∧ KvSameFree a' a0 := by
  have key : ∀ (order : List (Nat × Nat)) (a : KvAlloc) (live : List (Nat × Nat)), KvReach c a live →
      order.Perm live → ∃ a', kvReleaseAll a order = some a' ∧ KvReach c a' [] := by
    intro order
    induction order with
    | nil =>
      intro a live h hp
      rw [List.nil_perm] at hp; subst hp
      exact ⟨a, rfl, h⟩
    | cons r rest ih =>
      intro a live h hp
      have hm : r ∈ live := hp.mem_iff.1 (by simp)
      obtain ⟨a1, e, hr⟩ := C10_release_succeeds hsp hl h r hm
      obtain ⟨a', e', hr'⟩ := ih a1 _ hr (List.Perm.cons_inv (hp.trans (List.perm_cons_erase hm)))
      refine ⟨a', ?_, hr'⟩
      obtain ⟨o, q⟩ := r
      simp only [kvReleaseAll]
      simp only at e
      rw [e]; exact e'
  obtain ⟨a', e, hr⟩ := key order a live h hp
  refine ⟨a', e, hr, ?_⟩
  have i1 := KvAlloc.reach_inv hsp hl hr
  have i2 := KvAlloc.new_inv h0
  intro p hs hl'
  rw [i1.hpages] at hs hl'
  exact Buddy.canon_unique i1.canon i2.canon hs hl'

/-- **C10, restart.** Marking exactly the live regions, in any order, on a fresh allocator never panics
and yields exactly the free-space map of the running system. -/
theorem C10_restart_rebuilds {c : KvHeapCfg} {a a0 : KvAlloc} {live order : List (Nat × Nat)}
    (hsp : 0 < c.pages.spage) (hl : c.pages.lpage < 64) (h : KvReach c a live)
    (hp : order.Perm live) (h0 : KvAlloc.new c.base c.heap c.pages = some a0) :
    ∃ a', kvMarkAll a0 order = some a' ∧ KvSameFree a a' ∧
      a'.allocatedBytes = kvLiveBytes c.pages live := by
  have inv := KvAlloc.reach_inv hsp hl h
  have key : ∀ (order done : List (Nat × Nat)) (a1 : KvAlloc), KvAlloc.Inv c a1 done →
      (∀ r ∈ order, RegionOk c r) → (order ++ done).Pairwise (RegionDisj c.pages) →
      ∃ a', kvMarkAll a1 order = some a' ∧ KvAlloc.Inv c a' (order.reverse ++ done) ∧
        a'.allocatedBytes = a1.allocatedBytes + kvLiveBytes c.pages order := by
    intro order
    induction order with
    | nil => intro done a1 i _ _; exact ⟨a1, rfl, by simpa using i, by simp [kvLiveBytes]⟩
    | cons r rest ih =>
      intro done a1 i hv hd
      have hd' := List.pairwise_cons.1 hd
      obtain ⟨a2, e2, i2, m2⟩ := i.mark hsp hl r (hv r (by simp)) (fun x hx => hd'.1 x (by simp [hx]))
      obtain ⟨a', e', i', m'⟩ := ih (r :: done) a2 i2 (fun x hx => hv x (by simp [hx])) (by
        refine (List.Perm.pairwise_iff
          (fun {a b} (h : RegionDisj c.pages a b) => RegionDisj.symm h) ?_).1 hd
        simpa using (List.perm_middle (a := r) (l₁ := rest) (l₂ := done)).symm)
      refine ⟨a', ?_, by simpa using i', ?_⟩
      · obtain ⟨o, q⟩ := r
        simp only [kvMarkAll]
        simp only at e2
        rw [e2]; exact e'
      · rw [m', m2]; simp [kvLiveBytes]; omega
  obtain ⟨a', e, i', m⟩ := key order [] a0 (KvAlloc.new_inv h0)
    (fun r hr => inv.regs r (hp.mem_iff.1 hr))
    (by simpa using
      (hp.pairwise_iff (fun {a b} (h : RegionDisj c.pages a b) => RegionDisj.symm h)).2 inv.disj)
  refine ⟨a', e, ?_, ?_⟩
  · intro p hs hl'
    rw [inv.hpages] at hs hl'
    have i2 : KvAlloc.Inv c a' live := i'.perm (by simpa using (List.reverse_perm order).trans hp)
    exact Buddy.canon_unique inv.canon i2.canon hs hl'
  · have h00 : a0.allocatedBytes = 0 := by
      unfold KvAlloc.new at h0; split at h0 <;> cases h0; rfl
    rw [m, h00]
    unfold kvLiveBytes
    rw [(hp.map _).sum_eq]; simp

/-- The metric part of C10 is FALSE of the code: `release` subtracts the loop variable after it has
been counted down to zero (libblobd-kv/src/allocator.rs:164-184), so releasing any live region leaves the used-bytes
metric unchanged; it only ever grows. -/
theorem C10_metric_never_decreases {c : KvHeapCfg} {a : KvAlloc} {live : List (Nat × Nat)}
    (hsp : 0 < c.pages.spage) (hl : c.pages.lpage < 64) (h : KvReach c a live)
    (r : Nat × Nat) (hm : r ∈ live) :
    ∃ a', a.release r.1 r.2 = some a' ∧ a'.allocatedBytes = a.allocatedBytes := by
  have inv := (KvAlloc.reach_inv hsp hl h).perm (List.perm_cons_erase hm)
  obtain ⟨a', e, _, hmet⟩ := inv.rel hsp hl
  exact ⟨a', e, hmet⟩

/-! ## Non-vacuity: a concrete history (16-byte large pages, 4-byte small pages) -/

def kvEx : List Nat → Option (KvAlloc × List (Nat × Nat))
  | [] => (KvAlloc.new 32 64 ⟨2, 4⟩).map (fun b => (b, []))
  | size :: rest =>
    match kvEx rest with
    | some (a, live) =>
      match a.allocate size with
      | (.ok off, a') => some (a', (off, size) :: live)
      | _ => none
    | none => none

theorem kvEx_reach (sizes : List Nat) (r : KvAlloc × List (Nat × Nat)) (h : kvEx sizes = some r) :
    KvReach ⟨32, 64, ⟨2, 4⟩⟩ r.1 r.2 := by
  induction sizes generalizing r with
  | nil =>
    simp only [kvEx, Option.map_eq_some_iff] at h
    obtain ⟨b, hb, rfl⟩ := h
    exact .init hb
  | cons s rest ih =>
    simp only [kvEx] at h
    split at h
    · rename_i b live he
      split at h
      · rename_i off b' ha
        cases h
        exact .alloc (ih _ he) ha
      · cases h
    · cases h

/-- 11 bytes take 12 (8 + 4); the remaining 4 of that large page serve the 3-byte request -/
example : (kvEx [3, 16, 11]).map (·.2) = some [(44, 3), (48, 16), (32, 11)] := by decide

end Props
end Blobd
