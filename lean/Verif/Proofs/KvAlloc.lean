import Verif.Proofs.BuddyInv
import Verif.Proofs.Layout
import Verif.Spec.KvAlloc
/-! Invariant of the KV heap allocator. -/
namespace Blobd
namespace KvAlloc
open Spec Buddy

theorem vac_lt_heap {A : Nat → Prop} {heap p n : Nat} (hA : ∀ x, A x → x < heap) (hv : Vac A p n) :
    n < heap / 2 ^ p := by
  have hpos := Nat.two_pow_pos p
  have := hA _ (hv (n * 2 ^ p + (2 ^ p - 1)) ((mem_blk p n _).2 ⟨by omega, by omega⟩))
  rw [Nat.lt_div_iff_mul_lt hpos]
  omega

theorem bmAllocate_eq (heap : Nat) (pages : Pages) (fuel p n : Nat) (free : Nat → Finset Nat)
    (A : Nat → Prop) (hA : ∀ x, A x → x < heap) (h : Canon pages.spage pages.lpage free A)
    (hv : Vac A p n) : bmAllocate heap pages fuel free n p = markAux pages fuel free n p := by
  induction fuel generalizing p n with
  | zero => rfl
  | succ f ih =>
    unfold bmAllocate markAux
    by_cases hb : p ≥ pages.spage ∧ p ≤ pages.lpage
    · have hlt : n < divPow2 heap p := by rw [divPow2_eq]; exact vac_lt_heap hA hv
      rw [if_pos ⟨hb, hlt⟩, if_pos hb]
      by_cases hn : n ∈ free p
      · rw [if_pos hn, if_pos hn]
      · rw [if_neg hn, if_neg hn]
        by_cases hv' : Vac A (p + 1) (n / 2)
        · rw [ih _ _ hv']
          cases markAux pages f free (n / 2) (p + 1) <;> rfl
        · have hpl : p = pages.lpage := by
            apply Classical.byContradiction
            intro e
            exact hn ((h p hb.1 hb.2 n).2 ⟨hv, .inr hv'⟩)
          exact absurd ((h p hb.1 hb.2 n).2 ⟨hv, .inl hpl⟩) hn
    · rw [if_neg (fun hc => hb hc.1), if_neg hb]

theorem bmRelease_eq (heap : Nat) (pages : Pages) (fuel p n : Nat) (free : Nat → Finset Nat)
    (A : Nat → Prop) (hA : ∀ x, A x → x < heap) (h : Canon pages.spage pages.lpage free A)
    (hs : pages.spage ≤ p) (hl : p ≤ pages.lpage) (hin : ∀ x, x / 2 ^ p = n → x < heap) :
    bmRelease heap pages fuel free n p = releaseAux pages fuel free n p := by
  induction fuel generalizing p n free A with
  | zero => rfl
  | succ f ih =>
    unfold bmRelease releaseAux
    have hlt : n < divPow2 heap p := by
      rw [divPow2_eq]; exact vac_lt_heap (A := fun x => x < heap) (fun x h => h) hin
    rw [if_pos ⟨⟨hs, hl⟩, hlt⟩]
    by_cases hb : p < pages.lpage ∧ n ^^^ 1 ∈ free p
    · rw [if_pos hb, if_pos hb]
      have hvb := ((h p hs hl _).1 hb.2).1
      have := ih (p + 1) (n / 2) _ (minus A p (n ^^^ 1)) (fun x hx => hA x hx.1)
        (h.remove hs hl hb.2) (by omega) (by omega) (by
          intro x hx
          rw [div_succ] at hx
          rcases xor_one_cases n _ hx with h' | h'
          · exact hin x h'
          · exact hA x (hvb x h'))
      simp only [this]
    · rw [if_neg hb, if_neg hb]

/-- interval `[a, a+len)` removed -/
def minusI (A : Nat → Prop) (a len : Nat) : Nat → Prop := fun x => A x ∧ ¬ (a ≤ x ∧ x < a + len)
/-- interval `[a, a+len)` added -/
def plusI (A : Nat → Prop) (a len : Nat) : Nat → Prop := fun x => A x ∨ (a ≤ x ∧ x < a + len)

theorem log2_le_of_le {rem l : Nat} (h0 : rem ≠ 0) (h : rem ≤ 2 ^ l) : Nat.log2 rem ≤ l := by
  have h1 := Nat.log2_self_le h0
  exact (Nat.pow_le_pow_iff_right (a := 2) (by decide)).1 (Nat.le_trans h1 h)

/-- arithmetic shared by both loops -/
theorem step_facts {rem rel s : Nat} (h0 : rem ≠ 0) (hs : 2 ^ s ∣ rem)
    (hal : 2 ^ Nat.log2 rem ∣ rel) :
    s ≤ Nat.log2 rem ∧ 2 ^ Nat.log2 rem ≤ rem ∧ 2 ^ s ∣ rem - 2 ^ Nat.log2 rem ∧
      rem - 2 ^ Nat.log2 rem < 2 ^ Nat.log2 rem ∧
      rel / 2 ^ Nat.log2 rem * 2 ^ Nat.log2 rem = rel ∧
      (rem - 2 ^ Nat.log2 rem ≠ 0 →
        2 ^ Nat.log2 (rem - 2 ^ Nat.log2 rem) ∣ rel + 2 ^ Nat.log2 rem) := by
  have hle := Nat.log2_self_le h0
  have hlt := Nat.lt_log2_self (n := rem)
  have hsl : s ≤ Nat.log2 rem := (Nat.le_log2 h0).2 (Nat.le_of_dvd (by omega) hs)
  rw [Nat.pow_succ] at hlt
  refine ⟨hsl, hle, Nat.dvd_sub hs (Nat.pow_dvd_pow 2 hsl), by omega, Nat.div_mul_cancel hal, ?_⟩
  intro h1
  have : Nat.log2 (rem - 2 ^ Nat.log2 rem) ≤ Nat.log2 rem :=
    log2_le_of_le h1 (by omega)
  exact Nat.dvd_add (Nat.dvd_trans (Nat.pow_dvd_pow 2 this) hal) (Nat.pow_dvd_pow 2 this)

theorem markLoop_spec (base heap : Nat) (pages : Pages) (hsp : 0 < pages.spage) (fuel rem rel : Nat)
    (free : Nat → Finset Nat) (A : Nat → Prop) (hA : ∀ x, A x → x < heap)
    (h : Canon pages.spage pages.lpage free A) (hf : rem < 2 ^ fuel) (h64 : rem < 2 ^ 64)
    (hs : 2 ^ pages.spage ∣ rem) (hl : rem ≤ 2 ^ pages.lpage)
    (hal : rem ≠ 0 → 2 ^ Nat.log2 rem ∣ rel) (hv : ∀ x, rel ≤ x → x < rel + rem → A x) :
    ∃ free', markLoop base heap pages fuel free (base + rel) rem = some free' ∧
      Canon pages.spage pages.lpage free' (minusI A rel rem) := by
  induction fuel generalizing rem rel free A with
  | zero =>
    have : rem = 0 := by simpa using hf
    subst this
    refine ⟨free, by simp [markLoop], h.congr ?_⟩
    intro x; unfold minusI; constructor
    · intro hx; exact ⟨hx, by omega⟩
    · exact fun hx => hx.1
  | succ f ih =>
    unfold markLoop
    by_cases h0 : rem = 0
    · subst h0
      refine ⟨free, by simp, h.congr ?_⟩
      intro x; unfold minusI; constructor
      · intro hx; exact ⟨hx, by omega⟩
      · exact fun hx => hx.1
    · obtain ⟨f1, f2, f3, f4, f5, f6⟩ := step_facts h0 hs (hal h0)
      have hpl := log2_le_of_le h0 hl
      have hvac : Vac A (Nat.log2 rem) (rel / 2 ^ Nat.log2 rem) := by
        intro x hx
        rw [mem_blk, f5] at hx
        exact hv x hx.1 (by omega)
      obtain ⟨free1, e1, c1⟩ := markAux_spec pages (pages.lpage + 2 - Nat.log2 rem) (Nat.log2 rem)
        (rel / 2 ^ Nat.log2 rem) free A h f1 hpl (by omega) hvac
      rw [if_neg h0]
      simp only [show Nat.log2 rem > 0 by omega, if_true]
      rw [toPageNum, divPow2_eq, Nat.add_sub_cancel_left, bmAllocate_eq _ _ _ _ _ _ A hA h hvac, e1]
      simp only
      rw [clear_top rem h0 h64, Nat.one_shiftLeft, Nat.add_assoc]
      obtain ⟨free', e', c'⟩ := ih (rem - 2 ^ Nat.log2 rem) (rel + 2 ^ Nat.log2 rem) free1
        (minus A (Nat.log2 rem) (rel / 2 ^ Nat.log2 rem)) (fun x hx => hA x hx.1) c1
        (by
          have : Nat.log2 rem ≤ f := by
            have := (Nat.log2_lt h0).2 hf; omega
          have := Nat.pow_le_pow_right (n := 2) (by decide) this
          omega)
        (by omega) f3 (by omega) f6
        (by
          intro x hx1 hx2
          refine ⟨hv x (by omega) (by omega), ?_⟩
          rw [Ne, mem_blk, f5]
          omega)
      refine ⟨free', e', c'.congr ?_⟩
      intro x
      unfold minusI minus
      rw [Ne, mem_blk, f5]
      constructor
      · rintro ⟨⟨h1, h2⟩, h3⟩; exact ⟨h1, by omega⟩
      · rintro ⟨h1, h2⟩; exact ⟨⟨h1, by omega⟩, by omega⟩

theorem releaseLoop_spec (base heap : Nat) (pages : Pages) (hsp : 0 < pages.spage) (fuel rem rel : Nat)
    (free : Nat → Finset Nat) (A : Nat → Prop) (hA : ∀ x, A x → x < heap)
    (h : Canon pages.spage pages.lpage free A) (hf : rem < 2 ^ fuel) (h64 : rem < 2 ^ 64)
    (hs : 2 ^ pages.spage ∣ rem) (hl : rem ≤ 2 ^ pages.lpage)
    (hal : rem ≠ 0 → 2 ^ Nat.log2 rem ∣ rel) (hv : ∀ x, rel ≤ x → x < rel + rem → ¬ A x)
    (hin : rel + rem ≤ heap) :
    ∃ free', releaseLoop base heap pages fuel free (base + rel) rem = some (free', 0) ∧
      Canon pages.spage pages.lpage free' (plusI A rel rem) := by
  induction fuel generalizing rem rel free A with
  | zero =>
    have : rem = 0 := by simpa using hf
    subst this
    refine ⟨free, by simp [releaseLoop], h.congr ?_⟩
    intro x; unfold plusI; constructor
    · exact .inl
    · rintro (h | h)
      · exact h
      · omega
  | succ f ih =>
    unfold releaseLoop
    by_cases h0 : rem = 0
    · subst h0
      refine ⟨free, by simp, h.congr ?_⟩
      intro x; unfold plusI; constructor
      · exact .inl
      · rintro (h | h)
        · exact h
        · omega
    · obtain ⟨f1, f2, f3, f4, f5, f6⟩ := step_facts h0 hs (hal h0)
      have hpl := log2_le_of_le h0 hl
      have hnv : ∀ x, x / 2 ^ Nat.log2 rem = rel / 2 ^ Nat.log2 rem → ¬ A x := by
        intro x hx
        rw [mem_blk, f5] at hx
        exact hv x hx.1 (by omega)
      obtain ⟨free1, e1, c1⟩ := releaseAux_spec pages (pages.lpage + 2 - Nat.log2 rem)
        (Nat.log2 rem) (rel / 2 ^ Nat.log2 rem) free A h f1 hpl (by omega) hnv
      rw [if_neg h0]
      simp only [show Nat.log2 rem > 0 by omega, if_true]
      rw [toPageNum, divPow2_eq, Nat.add_sub_cancel_left, bmRelease_eq _ _ _ _ _ _ A hA h f1 hpl
        (by intro x hx; rw [mem_blk, f5] at hx; omega), e1]
      simp only
      rw [clear_top rem h0 h64, Nat.one_shiftLeft, Nat.add_assoc]
      obtain ⟨free', e', c'⟩ := ih (rem - 2 ^ Nat.log2 rem) (rel + 2 ^ Nat.log2 rem) free1
        (plus A (Nat.log2 rem) (rel / 2 ^ Nat.log2 rem))
        (by
          rintro x (hx | hx)
          · exact hA x hx
          · rw [mem_blk, f5] at hx; omega) c1
        (by
          have : Nat.log2 rem ≤ f := by
            have := (Nat.log2_lt h0).2 hf; omega
          have := Nat.pow_le_pow_right (n := 2) (by decide) this
          omega)
        (by omega) f3 (by omega) f6
        (by
          rintro x hx1 hx2 (hx | hx)
          · exact hv x (by omega) (by omega) hx
          · rw [mem_blk, f5] at hx; omega)
        (by omega)
      refine ⟨free', e', c'.congr ?_⟩
      intro x
      unfold plusI plus
      rw [mem_blk, f5]
      constructor
      · rintro ((h1 | h2) | h3)
        · exact .inl h1
        · exact .inr (by omega)
        · exact .inr (by omega)
      · rintro (h1 | h2)
        · exact .inl (.inl h1)
        · by_cases hx : x < rel + 2 ^ rem.log2
          · exact .inl (.inr (by omega))
          · exact .inr (by omega)

theorem getFreePage_spec (base : Nat) (pages : Pages) (free : Nat → Finset Nat) (fuel p : Nat)
    (hf : pages.lpage < p + fuel) :
    (∃ off q n, getFreePage base pages free fuel p = some off ∧ p ≤ q ∧ q ≤ pages.lpage ∧
      n ∈ free q ∧ off = base + n * 2 ^ q) ∨
    (getFreePage base pages free fuel p = none ∧ ∀ q, p ≤ q → q ≤ pages.lpage → free q = ∅) := by
  induction fuel generalizing p with
  | zero => right; exact ⟨rfl, fun q h1 h2 => by omega⟩
  | succ f ih =>
    unfold getFreePage
    by_cases hp : p ≤ pages.lpage
    · rw [if_pos hp]
      by_cases hne : (free p).Nonempty
      · left
        refine ⟨_, p, (free p).min' hne, by rw [dif_pos hne], Nat.le_refl _, hp,
          Finset.min'_mem _ _, ?_⟩
        simp [toPageDevOffset, Nat.add_comm]
      · rw [dif_neg hne]
        rcases ih (p + 1) (by omega) with ⟨off, q, n, e, h1, h2, h3, h4⟩ | ⟨e, hq⟩
        · exact .inl ⟨off, q, n, e, by omega, h2, h3, h4⟩
        · right
          refine ⟨e, fun q h1 h2 => ?_⟩
          by_cases hqp : q = p
          · subst hqp; exact Finset.not_nonempty_iff_eq_empty.1 hne
          · exact hq q (by omega) h2
    · rw [if_neg hp]
      right
      exact ⟨rfl, fun q h1 h2 => by omega⟩

/-- a vacant block sits inside some free page of at least its size -/
theorem vac_in_free {s l : Nat} {free : Nat → Finset Nat} {A : Nat → Prop} (h : Canon s l free A)
    (k p n : Nat) (hk : l = p + k) (hs : s ≤ p) (hv : Vac A p n) :
    ∃ q m, p ≤ q ∧ q ≤ l ∧ m ∈ free q := by
  induction k generalizing p n with
  | zero => exact ⟨p, n, Nat.le_refl _, by omega, (h p hs (by omega) n).2 ⟨hv, .inl (by omega)⟩⟩
  | succ k ih =>
    by_cases hv' : Vac A (p + 1) (n / 2)
    · obtain ⟨q, m, h1, h2, h3⟩ := ih (p + 1) (n / 2) (by omega) (by omega) hv'
      exact ⟨q, m, by omega, h2, h3⟩
    · exact ⟨p, n, Nat.le_refl _, by omega, (h p hs (by omega) n).2 ⟨hv, .inr hv'⟩⟩

/-- heap-relative bytes not covered by live regions -/
def Avail (c : KvHeapCfg) (live : List (Nat × Nat)) (x : Nat) : Prop :=
  x < c.heap ∧ ∀ r ∈ live, ¬ InRegion c.pages r (c.base + x)

/-- a region as produced by `allocate` -/
structure RegionOk (c : KvHeapCfg) (r : Nat × Nat) : Prop where
  ge : c.base ≤ r.1
  dvd : 2 ^ contPow2 c.pages r.2 ∣ r.1 - c.base
  fits : regionEnd c.pages r ≤ c.base + c.heap
  small : contPow2 c.pages r.2 ≤ c.pages.lpage

structure Inv (c : KvHeapCfg) (a : KvAlloc) (live : List (Nat × Nat)) : Prop where
  hbase : a.base = c.base
  hheap : a.heap = c.heap
  hpages : a.pages = c.pages
  aheap : 2 ^ c.pages.lpage ∣ c.heap
  canon : Canon c.pages.spage c.pages.lpage a.free (Avail c live)
  regs : ∀ r ∈ live, RegionOk c r
  disj : live.Pairwise (RegionDisj c.pages)

theorem allocSize_le (pages : Pages) (size : Nat) :
    ceilPow2 size pages.spage ≤ 2 ^ contPow2 pages size := by
  apply ceilPow2_le_of_dvd
  · exact Nat.pow_dvd_pow 2 (Nat.le_max_left _ _)
  · exact Nat.le_trans (le_nextPow2 size) (Nat.pow_le_pow_right (by decide) (Nat.le_max_right _ _))

theorem avail_lt {c : KvHeapCfg} {live} : ∀ x, Avail c live x → x < c.heap := fun _ h => h.1

theorem new_inv {c : KvHeapCfg} {a : KvAlloc} (h : KvAlloc.new c.base c.heap c.pages = some a) :
    Inv c a [] := by
  have hb : Buddy.new (c.heap + 1) c.base c.heap c.pages .left = some
      { base := c.base, dir := .left, pages := c.pages,
        free := fun p => if p = c.pages.lpage then Finset.range (divPow2 c.heap p) else ∅,
        allocatedBytes := 0 } := by
    unfold Buddy.new
    unfold KvAlloc.new at h
    split at h
    · rename_i hc
      rw [if_pos]
      refine ⟨hc.1, hc.2, ?_⟩
      rw [List.all_eq_true]
      intro i _
      simp only [divPow2_eq, decide_eq_true_eq]
      exact Nat.lt_of_le_of_lt (Nat.div_le_self _ _) (Nat.lt_trans (Nat.lt_succ_self _) Nat.lt_two_pow_self)
    · cases h
  have hi := Buddy.new_inv (c := ⟨c.heap + 1, c.base, c.heap, c.pages, .left⟩) hb
  unfold KvAlloc.new at h
  split at h
  · cases h
    refine ⟨rfl, rfl, rfl, hi.aheap, ?_, by simp, by simp⟩
    have hc := hi.canon
    simp only at hc ⊢
    refine hc.congr ?_
    intro x
    simp [Buddy.Avail, Avail]
  · cases h

/-- marking a region that is available keeps the invariant -/
theorem Inv.mark {c : KvHeapCfg} {a : KvAlloc} {live} (h : Inv c a live) (hsp : 0 < c.pages.spage)
    (hl64 : c.pages.lpage < 64) (r : Nat × Nat)
    (hr : RegionOk c r) (hd : ∀ r' ∈ live, RegionDisj c.pages r r') :
    ∃ a', a.markAsAllocated r.1 r.2 = some a' ∧ Inv c a' (r :: live) ∧
      a'.allocatedBytes = a.allocatedBytes + ceilPow2 r.2 c.pages.spage := by
  have hsz := allocSize_le c.pages r.2
  have hlp : 2 ^ contPow2 c.pages r.2 ≤ 2 ^ c.pages.lpage :=
    Nat.pow_le_pow_right (by decide) hr.small
  have h63 : 2 ^ c.pages.lpage ≤ 2 ^ 63 := Nat.pow_le_pow_right (by decide) (by omega)
  have hge := hr.ge
  have hfit := hr.fits
  unfold regionEnd at hfit
  obtain ⟨free', e, hc⟩ := markLoop_spec c.base c.heap c.pages hsp 64
    (ceilPow2 r.2 c.pages.spage) (r.1 - c.base) a.free _ avail_lt h.canon (by omega) (by omega)
    (ceilPow2_dvd _ _) (by omega)
    (fun h0 => Nat.dvd_trans (Nat.pow_dvd_pow 2 (log2_le_of_le h0 hsz)) hr.dvd)
    (by
      intro x h1 h2
      refine ⟨by omega, ?_⟩
      intro r' hr' hin
      refine hd r' hr' (c.base + x) ⟨⟨by omega, ?_⟩, hin⟩
      unfold regionEnd; omega)
  rw [show c.base + (r.1 - c.base) = r.1 by omega] at e
  refine ⟨{ a with free := free', allocatedBytes := a.allocatedBytes + ceilPow2 r.2 c.pages.spage }, ?_, ?_, rfl⟩
  · unfold KvAlloc.markAsAllocated
    simp only [h.hbase, h.hheap, h.hpages, allocSize, e]
  · refine ⟨h.hbase, h.hheap, h.hpages, h.aheap, hc.congr ?_, ?_, List.pairwise_cons.2 ⟨hd, h.disj⟩⟩
    · intro x
      unfold minusI Avail
      simp only [List.mem_cons, forall_eq_or_imp]
      constructor
      · rintro ⟨⟨h1, h2⟩, h3⟩
        refine ⟨h1, ?_, h2⟩
        rintro ⟨h4, h5⟩
        unfold regionEnd at h5
        omega
      · rintro ⟨h1, h2, h3⟩
        refine ⟨⟨h1, h3⟩, ?_⟩
        rintro ⟨h4, h5⟩
        apply h2
        refine ⟨by omega, ?_⟩
        unfold regionEnd
        omega
    · intro r' hr'
      simp only [List.mem_cons] at hr'
      rcases hr' with rfl | hr'
      · exact hr
      · exact h.regs r' hr'

theorem RegionDisj.symm {pages : Pages} {a b : Nat × Nat} (h : RegionDisj pages a b) :
    RegionDisj pages b a := fun x hx => h x ⟨hx.2, hx.1⟩

theorem Inv.perm {c : KvHeapCfg} {a : KvAlloc} {live live'} (h : Inv c a live)
    (hp : live.Perm live') : Inv c a live' := by
  refine ⟨h.hbase, h.hheap, h.hpages, h.aheap, h.canon.congr ?_, ?_, ?_⟩
  · intro x; unfold Avail; simp only [hp.mem_iff]
  · intro r hr; exact h.regs r (hp.mem_iff.2 hr)
  · exact (hp.pairwise_iff (fun {a b} (h : RegionDisj c.pages a b) => RegionDisj.symm h)).1 h.disj

theorem Inv.rel {c : KvHeapCfg} {a : KvAlloc} {r live} (h : Inv c a (r :: live))
    (hsp : 0 < c.pages.spage) (hl64 : c.pages.lpage < 64) :
    ∃ a', a.release r.1 r.2 = some a' ∧ Inv c a' live ∧ a'.allocatedBytes = a.allocatedBytes := by
  have hr := h.regs r (by simp)
  have hd := List.pairwise_cons.1 h.disj
  have hsz := allocSize_le c.pages r.2
  have hlp : 2 ^ contPow2 c.pages r.2 ≤ 2 ^ c.pages.lpage :=
    Nat.pow_le_pow_right (by decide) hr.small
  have h63 : 2 ^ c.pages.lpage ≤ 2 ^ 63 := Nat.pow_le_pow_right (by decide) (by omega)
  have hge := hr.ge
  have hfit := hr.fits
  unfold regionEnd at hfit
  obtain ⟨free', e, hc⟩ := releaseLoop_spec c.base c.heap c.pages hsp 64
    (ceilPow2 r.2 c.pages.spage) (r.1 - c.base) a.free _ avail_lt h.canon (by omega) (by omega)
    (ceilPow2_dvd _ _) (by omega)
    (fun h0 => Nat.dvd_trans (Nat.pow_dvd_pow 2 (log2_le_of_le h0 hsz)) hr.dvd)
    (by
      intro x h1 h2 ha
      apply ha.2 r (by simp)
      refine ⟨by omega, ?_⟩
      unfold regionEnd; omega)
    (by omega)
  rw [show c.base + (r.1 - c.base) = r.1 by omega] at e
  refine ⟨{ a with free := free', allocatedBytes := a.allocatedBytes - (0 : Nat) }, ?_, ?_, by simp⟩
  · unfold KvAlloc.release
    simp only [h.hbase, h.hheap, h.hpages, allocSize, e]
  · refine ⟨h.hbase, h.hheap, h.hpages, h.aheap, hc.congr ?_,
      fun r' hr' => h.regs r' (by simp [hr']), hd.2⟩
    intro x
    unfold plusI Avail
    simp only [List.mem_cons, forall_eq_or_imp]
    constructor
    · rintro (⟨h1, h2, h3⟩ | ⟨h1, h2⟩)
      · exact ⟨h1, h3⟩
      · refine ⟨by omega, ?_⟩
        intro r' hr' hin
        refine hd.1 r' hr' (c.base + x) ⟨⟨by omega, ?_⟩, hin⟩
        unfold regionEnd; omega
    · rintro ⟨h1, h3⟩
      by_cases hin : r.1 - c.base ≤ x ∧ x < r.1 - c.base + ceilPow2 r.2 c.pages.spage
      · exact .inr hin
      · left
        refine ⟨h1, ?_, h3⟩
        rintro ⟨h4, h5⟩
        unfold regionEnd at h5
        omega

/-- room for an aligned block of the size needed -/
theorem vac_avail_iff (c : KvHeapCfg) (live : List (Nat × Nat)) (p n : Nat) :
    Vac (Avail c live) p n ↔ n * 2 ^ p + 2 ^ p ≤ c.heap ∧
      ∀ x, c.base + n * 2 ^ p ≤ x → x < c.base + n * 2 ^ p + 2 ^ p →
        ∀ r ∈ live, ¬ InRegion c.pages r x := by
  have hpos := Nat.two_pow_pos p
  constructor
  · intro h
    constructor
    · have := (h (n * 2 ^ p + (2 ^ p - 1)) ((mem_blk p n _).2 ⟨by omega, by omega⟩)).1
      omega
    · intro x h1 h2 r hr
      have := (h (x - c.base) ((mem_blk p n _).2 ⟨by omega, by omega⟩)).2 r hr
      rwa [show c.base + (x - c.base) = x by omega] at this
  · rintro ⟨h1, h2⟩ x hx
    rw [mem_blk] at hx
    exact ⟨by omega, fun r hr => h2 _ (by omega) (by omega) r hr⟩

theorem Inv.alloc {c : KvHeapCfg} {a : KvAlloc} {live} (h : Inv c a live) (hsp : 0 < c.pages.spage)
    (hl64 : c.pages.lpage < 64) (size : Nat) (hk : contPow2 c.pages size ≤ c.pages.lpage) :
    (∃ off a', a.allocate size = (.ok off, a') ∧ Inv c a' ((off, size) :: live) ∧
      (∃ n, Vac (Avail c live) (contPow2 c.pages size) n ∧ off = c.base + n * 2 ^ contPow2 c.pages size) ∧
      a'.allocatedBytes = a.allocatedBytes + ceilPow2 size c.pages.spage) ∨
    (a.allocate size = (.err .outOfSpace, a) ∧
      ∀ n, ¬ Vac (Avail c live) (contPow2 c.pages size) n) := by
  have hsk : c.pages.spage ≤ contPow2 c.pages size := Nat.le_max_left _ _
  have hsz := allocSize_le c.pages size
  unfold KvAlloc.allocate
  rw [h.hpages, h.hbase]
  simp only [hk, if_true]
  rcases getFreePage_spec c.base c.pages a.free (c.pages.lpage + 1 - contPow2 c.pages size)
    (contPow2 c.pages size) (by omega) with ⟨off, q, n, e, h1, h2, h3, h4⟩ | ⟨e, hq⟩
  · left
    rw [e]
    have hvq := ((h.canon q (by omega) h2 n).1 h3).1
    have hq2 : 2 ^ contPow2 c.pages size * 2 ^ (q - contPow2 c.pages size) = 2 ^ q := by
      rw [← Nat.pow_add]; congr 1; omega
    have hvk : Vac (Avail c live) (contPow2 c.pages size) (n * 2 ^ (q - contPow2 c.pages size)) := by
      intro x hx
      apply hvq
      rw [div_chain h1, hx, Nat.mul_div_cancel _ (Nat.two_pow_pos _)]
    have hoff : off = c.base + n * 2 ^ (q - contPow2 c.pages size) * 2 ^ contPow2 c.pages size := by
      rw [h4, Nat.mul_assoc, Nat.mul_comm (2 ^ (q - contPow2 c.pages size)), hq2]
    have hva := (vac_avail_iff _ _ _ _).1 hvk
    have hreg : RegionOk c (off, size) := by
      refine ⟨by simp only; omega, ?_, ?_, hk⟩
      · simp only [hoff, Nat.add_sub_cancel_left]; exact Nat.dvd_mul_left _ _
      · simp only [regionEnd, hoff]; omega
    obtain ⟨a', e', hi, hm⟩ := h.mark hsp hl64 (off, size) hreg (by
      intro r hr x hx
      refine hva.2 x ?_ ?_ r hr hx.2
      · have := hx.1.1; simp only at this; omega
      · have := hx.1.2; simp only [regionEnd] at this; omega)
    simp only at e'
    refine ⟨off, a', by simp only [e'], hi, ⟨_, hvk, hoff⟩, hm⟩
  · right
    rw [e]
    refine ⟨rfl, ?_⟩
    intro n hv
    obtain ⟨q, m, h1, h2, h3⟩ := vac_in_free h.canon (c.pages.lpage - contPow2 c.pages size) _ n
      (by omega) hsk hv
    rw [hq q h1 h2] at h3
    simp at h3

theorem reach_inv {c : KvHeapCfg} {a : KvAlloc} {live} (hsp : 0 < c.pages.spage)
    (hl64 : c.pages.lpage < 64) (h : KvReach c a live) : Inv c a live := by
  induction h with
  | init h => exact new_inv h
  | @alloc a live size off a' _ ha ih =>
    by_cases hk : contPow2 c.pages size ≤ c.pages.lpage
    · rcases ih.alloc hsp hl64 size hk with ⟨off', a'', e, hi, _⟩ | ⟨e, _⟩
      · rw [ha] at e; simp only [Prod.mk.injEq, Outcome.ok.injEq] at e
        obtain ⟨rfl, rfl⟩ := e; exact hi
      · rw [ha] at e; simp at e
    · unfold KvAlloc.allocate at ha
      rw [ih.hpages] at ha
      simp [hk] at ha
  | @full a live size a' _ ha ih =>
    by_cases hk : contPow2 c.pages size ≤ c.pages.lpage
    · rcases ih.alloc hsp hl64 size hk with ⟨off', a'', e, hi, _⟩ | ⟨e, _⟩
      · rw [ha] at e; simp at e
      · rw [ha] at e; simp only [Prod.mk.injEq, true_and] at e; subst e; exact ih
    · unfold KvAlloc.allocate at ha
      rw [ih.hpages] at ha
      simp [hk] at ha
  | @release a live r a' _ hm hr ih =>
    obtain ⟨a'', e, hi, _⟩ := (ih.perm (List.perm_cons_erase hm)).rel hsp hl64
    rw [hr] at e; cases e; exact hi

end KvAlloc
end Blobd
