import Verif.Proofs.BuddyBytes
/-!
# Properties C03–C08: the buddy allocator of the lite and direct stores

All theorems quantify over every history (`Reach`), every heap configuration and both placement
directions (lite uses `Left`, direct uses `Right`).
-/
namespace Blobd
namespace Props
open Spec Buddy

/-- **C03.** In every history, pages that are live at the same time share no byte. -/
theorem C03_live_pages_disjoint {c : HeapCfg} {b : Buddy} {live : List (Nat × Nat)}
    (h : Reach c b live) : live.Pairwise PageDisj := (reach_inv h).disj

/-- **C03, allocation step.** A newly allocated page shares no byte with any live page. -/
theorem C03_alloc_disjoint {c : HeapCfg} {b b' : Buddy} {live : List (Nat × Nat)} {size off : Nat}
    (h : Reach c b live) (ha : b.allocate size = (.ok off, b')) :
    ∀ a ∈ live, PageDisj (off, requestPow2 c.pages size) a := by
  have := (reach_inv (Reach.alloc h ha)).disj
  exact (List.pairwise_cons.1 this).1

theorem request_le_of_ok {c : HeapCfg} {b b' : Buddy} {live : List (Nat × Nat)} {size off : Nat}
    (h : Reach c b live) (ha : b.allocate size = (.ok off, b')) :
    requestPow2 c.pages size ≤ c.pages.lpage := by
  have inv := reach_inv h
  apply Classical.byContradiction
  intro hc
  unfold Buddy.allocate at ha
  rw [inv.hpages] at ha
  simp [hc] at ha

theorem reach_bits {c : HeapCfg} {b : Buddy} {live : List (Nat × Nat)} (h : Reach c b live) (p : Nat)
    (hs : c.pages.spage ≤ p) (hl : p ≤ c.pages.lpage) : c.heap / 2 ^ p < 2 ^ c.pageNumBits := by
  induction h with
  | init h =>
    unfold Buddy.new at h
    split at h
    · rename_i hc
      have := List.all_eq_true.1 hc.2.2 (p - c.pages.spage) (List.mem_range.2 (by omega))
      simp only [divPow2_eq, decide_eq_true_eq] at this
      rwa [Nat.add_sub_cancel' hs] at this
    · cases h
  | alloc _ _ ih => exact ih
  | full _ _ ih => exact ih
  | release _ _ _ ih => exact ih
  | mark _ _ _ ih => exact ih

/-- **C04.** A successful allocation of `size` bytes returns a page of `2^p` bytes where `p` is the
least exponent, at least the small page's, with `size ≤ 2^p`; the page is aligned to its size, lies
inside the heap, and its page number fits the page-number type. -/
theorem C04_alloc_fits {c : HeapCfg} {b b' : Buddy} {live : List (Nat × Nat)} {size off : Nat}
    (h : Reach c b live) (ha : b.allocate size = (.ok off, b')) :
    ∃ p, Reach c b' ((off, p) :: live) ∧
      size ≤ 2 ^ p ∧ c.pages.spage ≤ p ∧ p ≤ c.pages.lpage ∧
      (∀ q, c.pages.spage ≤ q → size ≤ 2 ^ q → p ≤ q) ∧
      PageIn c.base c.heap (off, p) ∧ (off - c.base) / 2 ^ p < 2 ^ c.pageNumBits := by
  have inv' := reach_inv (Reach.alloc h ha)
  obtain ⟨hin, hs, hl⟩ := inv'.pgs _ (List.mem_cons_self ..)
  refine ⟨requestPow2 c.pages size, Reach.alloc h ha, ?_, hs, hl, ?_, hin, ?_⟩
  · exact Nat.le_trans (le_nextPow2 size) (Nat.pow_le_pow_right (by decide) (Nat.le_max_right _ _))
  · intro q h1 h2
    exact Nat.max_le.2 ⟨h1, nextPow2Exp_le h2⟩
  · refine Nat.lt_of_le_of_lt (Nat.div_le_div_right ?_) (reach_bits h _ hs hl)
    have := hin.2.2
    have hpos := Nat.two_pow_pos (requestPow2 c.pages size)
    simp only at this
    omega

/-- **C06.** For a request no larger than a large page: the allocation fails with out-of-space if and
only if there is no aligned place of the required size in the heap that is disjoint from all live
pages. It never panics, and a failure leaves the free-space map unchanged. -/
theorem C06_out_of_space_iff {c : HeapCfg} {b : Buddy} {live : List (Nat × Nat)}
    (h : Reach c b live) (size : Nat) (hsz : requestPow2 c.pages size ≤ c.pages.lpage) :
    ((b.allocate size).1 = .err .outOfSpace ↔
      ¬ Room c.base c.heap live (requestPow2 c.pages size)) ∧
    ((b.allocate size).1 = .err .outOfSpace → (b.allocate size).2.free = b.free) ∧
    (b.allocate size).1 ≠ .panic := by
  have inv := reach_inv h
  rcases inv.alloc size hsz with ⟨n, b', e, hv, _⟩ | ⟨b', e, _, hfree, _, hv⟩
  · rw [e]
    refine ⟨?_, by simp, by simp⟩
    simp only [reduceCtorEq, false_iff, not_not]
    have hv' := (vac_iff _ _ _ _ _).1 hv
    have hpos := Nat.two_pow_pos (requestPow2 c.pages size)
    exact ⟨c.base + n * 2 ^ requestPow2 c.pages size, ⟨dvd_page inv n hsz, by simp, by simp only; omega⟩, hv'.2⟩
  · rw [e]
    refine ⟨?_, fun _ => hfree, by simp⟩
    simp only [true_iff]
    rintro ⟨off, ⟨h1, h2, h3⟩, h4⟩
    simp only at h1 h2 h3
    have hdvd : 2 ^ requestPow2 c.pages size ∣ off - c.base :=
      Nat.dvd_sub h1 (Nat.dvd_trans (Nat.pow_dvd_pow 2 hsz) inv.abase)
    apply hv ((off - c.base) / 2 ^ requestPow2 c.pages size)
    rw [vac_iff, Nat.div_mul_cancel hdvd, show c.base + (off - c.base) = off by omega]
    exact ⟨by omega, h4⟩

/-- the request is small enough exactly when it is at most the large page size -/
theorem request_small (pages : Pages) (size : Nat) (hsl : pages.spage ≤ pages.lpage)
    (h : size ≤ 2 ^ pages.lpage) : requestPow2 pages size ≤ pages.lpage :=
  Nat.max_le.2 ⟨hsl, nextPow2Exp_le h⟩

/-- **C04/C03 progress.** Releasing any live page never panics and the page stops being live. -/
theorem C05_release_succeeds {c : HeapCfg} {b : Buddy} {live : List (Nat × Nat)}
    (h : Reach c b live) (pg : Nat × Nat) (hm : pg ∈ live) :
    ∃ b', b.release pg.1 pg.2 = some b' ∧ Reach c b' (live.erase pg) ∧ pg ∉ live.erase pg := by
  have inv := (reach_inv h).perm (List.perm_cons_erase hm)
  obtain ⟨b', e, _⟩ := Inv.rel (off := pg.1) (p := pg.2) inv
  refine ⟨b', e, Reach.release h hm e, ?_⟩
  intro hc
  exact not_disj_self pg ((List.pairwise_cons.1 inv.disj).1 pg hc)

/-- **C05.** When no page is live the free-space map is exactly that of a fresh allocator: every
large page is available and there is no fragmentation. -/
theorem C05_empty_is_initial {c : HeapCfg} {b b0 : Buddy} (h : Reach c b [])
    (h0 : Buddy.new c.pageNumBits c.base c.heap c.pages c.dir = some b0) : SameFree b b0 := by
  have i1 := reach_inv h
  have i2 := new_inv h0
  intro p hs hl
  rw [i1.hpages] at hs hl
  exact canon_unique i1.canon i2.canon hs hl

/-- **C05, any order.** After any history, releasing all live pages in any order (lite's
`release_all` over any permutation of the live pages) succeeds and restores the initial map. -/
theorem C05_release_all_restores {c : HeapCfg} {b b0 : Buddy} {live order : List (Nat × Nat)}
    (h : Reach c b live) (hp : order.Perm live)
    (h0 : Buddy.new c.pageNumBits c.base c.heap c.pages c.dir = some b0) :
    ∃ b', b.releaseAll order = some b' ∧ Reach c b' [] ∧ SameFree b' b0 := by
  have key : ∀ (order : List (Nat × Nat)) (b : Buddy) (live : List (Nat × Nat)), Reach c b live →
      order.Perm live → ∃ b', b.releaseAll order = some b' ∧ Reach c b' [] := by
    intro order
    induction order with
    | nil =>
      intro b live h hp
      rw [List.nil_perm] at hp
      subst hp
      exact ⟨b, rfl, h⟩
    | cons pg rest ih =>
      intro b live h hp
      have hm : pg ∈ live := hp.mem_iff.1 (by simp)
      obtain ⟨b1, e, hr, _⟩ := C05_release_succeeds h pg hm
      have hp' : rest.Perm (live.erase pg) :=
        List.Perm.cons_inv (hp.trans (List.perm_cons_erase hm))
      obtain ⟨b', e', hr'⟩ := ih b1 _ hr hp'
      exact ⟨b', by obtain ⟨o, q⟩ := pg; simp only [Buddy.releaseAll]; simp only at e; rw [e]; exact e',
        hr'⟩
  obtain ⟨b', e, hr⟩ := key order b live h hp
  exact ⟨b', e, hr, C05_empty_is_initial hr h0⟩

/-- **C07.** Rebuilding at startup: for every history with live pages `live`, marking exactly those
pages, in any order, on a fresh allocator never panics and yields exactly the free-space map the
running system had; the used-bytes metric is the live bytes. -/
theorem C07_restart_rebuilds {c : HeapCfg} {b b0 : Buddy} {live order : List (Nat × Nat)}
    (h : Reach c b live) (hp : order.Perm live)
    (h0 : Buddy.new c.pageNumBits c.base c.heap c.pages c.dir = some b0) :
    ∃ b', markAll b0 order = some b' ∧ SameFree b b' ∧ b'.allocatedBytes = liveBytes live := by
  have inv := reach_inv h
  have key : ∀ (order done : List (Nat × Nat)) (b1 : Buddy), Inv c b1 done →
      (∀ a ∈ order, PageIn c.base c.heap a ∧ c.pages.spage ≤ a.2 ∧ a.2 ≤ c.pages.lpage) →
      (order ++ done).Pairwise PageDisj →
      ∃ b', markAll b1 order = some b' ∧ Inv c b' (order.reverse ++ done) ∧
        b'.allocatedBytes = b1.allocatedBytes + liveBytes order := by
    intro order
    induction order with
    | nil => intro done b1 i _ _; exact ⟨b1, rfl, by simpa using i, by simp [liveBytes]⟩
    | cons pg rest ih =>
      intro done b1 i hv hd
      have hpg := hv pg (by simp)
      have hd' := List.pairwise_cons.1 hd
      obtain ⟨b2, e2, i2, m2⟩ := i.mark pg.1 pg.2 hpg.1 hpg.2.1 hpg.2.2
        (fun a ha => hd'.1 a (by simp [ha]))
      obtain ⟨b', e', i', m'⟩ := ih (pg :: done) b2 i2 (fun a ha => hv a (by simp [ha])) (by
        refine (List.Perm.pairwise_iff (fun {a b} (h : PageDisj a b) => PageDisj.symm h) ?_).1 hd
        simpa using (List.perm_middle (a := pg) (l₁ := rest) (l₂ := done)).symm)
      refine ⟨b', ?_, by simpa using i', ?_⟩
      · obtain ⟨o, q⟩ := pg
        simp only [markAll]
        simp only at e2
        rw [e2]
        exact e'
      · rw [m', m2]; simp [liveBytes]; omega
  obtain ⟨b', e, i', m⟩ := key order [] b0 (new_inv h0)
    (fun a ha => inv.pgs a (hp.mem_iff.1 ha))
    (by simpa using (hp.pairwise_iff (fun {a b} (h : PageDisj a b) => PageDisj.symm h)).2 inv.disj)
  refine ⟨b', e, ?_, ?_⟩
  · intro p hs hl
    rw [inv.hpages] at hs hl
    have i2 : Inv c b' live := by
      refine i'.perm ?_
      simpa using (List.reverse_perm order).trans hp
    exact canon_unique inv.canon i2.canon hs hl
  · have : b0.allocatedBytes = 0 := by
      unfold Buddy.new at h0; split at h0 <;> cases h0; rfl
    rw [m, this, liveBytes_perm hp]; simp

/-- **C07, exactness.** Marking a page panics exactly when the page is not a free aligned page of the
heap: so a corrupt tuple (overlapping or out-of-heap page) is never silently accepted. -/
theorem C07_mark_iff {c : HeapCfg} {b : Buddy} {live : List (Nat × Nat)} (h : Reach c b live)
    (off p : Nat) (hb : c.base ≤ off) :
    (∃ b', b.markAsAllocated off p = some b') ↔
      (PageIn c.base c.heap (off, p) ∧ c.pages.spage ≤ p ∧ p ≤ c.pages.lpage ∧
        ∀ a ∈ live, PageDisj (off, p) a) := by
  have inv := reach_inv h
  constructor
  · rintro ⟨b', e⟩; exact inv.mark_conv off p hb e
  · rintro ⟨h1, h2, h3, h4⟩
    obtain ⟨b', e, _⟩ := inv.mark off p h1 h2 h3 h4
    exact ⟨b', e⟩

/-- **C08.** Free bytes plus live bytes always equal the heap size. -/
theorem C08_bytes_conserved {c : HeapCfg} {b : Buddy} {live : List (Nat × Nat)}
    (hsl : c.pages.spage ≤ c.pages.lpage) (h : Reach c b live) :
    freeBytes b + liveBytes live = c.heap := reach_bytes hsl h

/-- Histories in which no allocation failed. -/
inductive ReachNoFail (c : HeapCfg) : Buddy → List (Nat × Nat) → Prop
  | init {b} : Buddy.new c.pageNumBits c.base c.heap c.pages c.dir = some b → ReachNoFail c b []
  | alloc {b live size off b'} : ReachNoFail c b live → b.allocate size = (.ok off, b') →
      ReachNoFail c b' ((off, Buddy.requestPow2 c.pages size) :: live)
  | release {b live pg b'} : ReachNoFail c b live → pg ∈ live → b.release pg.1 pg.2 = some b' →
      ReachNoFail c b' (live.erase pg)
  | mark {b live off p b'} : ReachNoFail c b live → c.base ≤ off →
      b.markAsAllocated off p = some b' → ReachNoFail c b' ((off, p) :: live)

theorem ReachNoFail.reach {c : HeapCfg} {b : Buddy} {live} (h : ReachNoFail c b live) :
    Reach c b live := by
  induction h with
  | init h => exact .init h
  | alloc _ h ih => exact .alloc ih h
  | release _ hm h ih => exact .release ih hm h
  | mark _ hb h ih => exact .mark ih hb h

/-- **C08, metric (partial).** In histories without a failed allocation the used-bytes metric equals
the bytes of live pages. The full claim (all histories) is false: see
`C08_metric_wrong_after_failure`. -/
theorem C08_metric_partial {c : HeapCfg} {b : Buddy} {live : List (Nat × Nat)}
    (h : ReachNoFail c b live) : b.allocatedBytes = (liveBytes live : Int) := by
  induction h with
  | init h =>
    unfold Buddy.new at h; split at h <;> cases h; simp [liveBytes]
  | @alloc b live size off b' hr ha ih =>
    have inv := reach_inv hr.reach
    rcases inv.alloc size (request_le_of_ok hr.reach ha) with ⟨n, b'', e, _, _, hm⟩ | ⟨b'', e, _⟩
    · rw [ha] at e; simp only [Prod.mk.injEq] at e; obtain ⟨_, rfl⟩ := e
      rw [hm, ih]; simp [liveBytes]; omega
    · rw [ha] at e; simp at e
  | @release b live pg b' hr hm hrel ih =>
    have inv := (reach_inv hr.reach).perm (List.perm_cons_erase hm)
    obtain ⟨b'', e, _, hmet⟩ := Inv.rel (off := pg.1) (p := pg.2) inv
    rw [hrel] at e; cases e
    rw [hmet, ih, liveBytes_perm (List.perm_cons_erase hm)]; simp [liveBytes]
  | @mark b live off p b' hr hb hm ih =>
    have inv := reach_inv hr.reach
    obtain ⟨h1, h2, h3, h4⟩ := inv.mark_conv off p hb hm
    obtain ⟨b'', e, _, hmet⟩ := inv.mark off p h1 h2 h3 h4
    rw [hm] at e; cases e
    rw [hmet, ih]; simp [liveBytes]; omega

/-- The full metric claim of C08 fails: a failed allocation changes nothing on the heap but raises the
used-bytes metric by the size of the page that was not allocated (libblobd-lite/src/allocator/mod.rs:181 adds before
`_allocate`). -/
theorem C08_metric_wrong_after_failure {c : HeapCfg} {b b' : Buddy} {live : List (Nat × Nat)}
    {size : Nat} (h : ReachNoFail c b live) (ha : b.allocate size = (.err .outOfSpace, b')) :
    Reach c b' live ∧ b'.allocatedBytes ≠ (liveBytes live : Int) := by
  have hr := Reach.full h.reach ha
  refine ⟨hr, ?_⟩
  have inv := reach_inv h.reach
  have hm := C08_metric_partial h
  have hsz : requestPow2 c.pages size ≤ c.pages.lpage := by
    apply Classical.byContradiction
    intro hc
    unfold Buddy.allocate at ha
    rw [inv.hpages] at ha
    simp [hc] at ha
  rcases inv.alloc size hsz with ⟨n, b'', e, _, _, _⟩ | ⟨b'', e, _, _, hmet, _⟩
  · rw [ha] at e; simp at e
  · rw [ha] at e; simp only [Prod.mk.injEq, true_and] at e; subst e
    rw [hmet, hm]
    have : (0 : Int) < 2 ^ requestPow2 c.pages size := Int.pow_pos (by decide)
    omega

/-! ## Non-vacuity: a concrete history -/

/-- heap of 4 large pages of 16 bytes, small pages of 4 bytes, base 32 -/
def exCfg (dir : AllocDir) : HeapCfg :=
  { pageNumBits := 32, base := 32, heap := 64, pages := ⟨2, 4⟩, dir := dir }

/-- a run: allocate 3, 5, 16 bytes -/
def exRun (dir : AllocDir) : List Nat → Option (Buddy × List (Nat × Nat))
  | [] => (Buddy.new 32 32 64 ⟨2, 4⟩ dir).map (fun b => (b, []))
  | size :: rest =>
    match exRun dir rest with
    | some (b, live) =>
      match b.allocate size with
      | (.ok off, b') => some (b', (off, Buddy.requestPow2 ⟨2, 4⟩ size) :: live)
      | _ => none
    | none => none

theorem exRun_reach (dir : AllocDir) (sizes : List Nat) (r : Buddy × List (Nat × Nat))
    (h : exRun dir sizes = some r) : ReachNoFail (exCfg dir) r.1 r.2 := by
  induction sizes generalizing r with
  | nil =>
    simp only [exRun, Option.map_eq_some_iff] at h
    obtain ⟨b, hb, rfl⟩ := h
    exact .init hb
  | cons s rest ih =>
    simp only [exRun] at h
    split at h
    · rename_i b live he
      split at h
      · rename_i off b' ha
        cases h
        exact .alloc (ih _ he) ha
      · cases h
    · cases h

/-- left and right placement give different concrete histories, both reachable -/
example : (exRun .left [16, 5, 3]).map (·.2) = some [(48, 4), (40, 3), (32, 2)] := by decide
example : (exRun .right [16, 5, 3]).map (·.2) = some [(64, 4), (80, 3), (92, 2)] := by decide
/-- a full heap: the fifth large page fails -/
example : ((exRun .left [16, 16, 16, 16]).map (fun r => (r.1.allocate 1).1)) =
    some (.err .outOfSpace) := by decide

end Props
end Blobd
