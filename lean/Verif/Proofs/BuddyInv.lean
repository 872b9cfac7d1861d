import Verif.Proofs.Buddy
import Verif.Spec.Alloc
/-! The allocator invariant over all histories. -/
namespace Blobd
namespace Buddy
open Spec

/-- heap-relative bytes not covered by live pages -/
def Avail (base heap : Nat) (live : List (Nat × Nat)) (x : Nat) : Prop :=
  x < heap ∧ ∀ a ∈ live, ¬ (a.1 ≤ base + x ∧ base + x < a.1 + 2 ^ a.2)

structure Inv (c : HeapCfg) (b : Buddy) (live : List (Nat × Nat)) : Prop where
  hbase : b.base = c.base
  hpages : b.pages = c.pages
  hdir : b.dir = c.dir
  abase : 2 ^ c.pages.lpage ∣ c.base
  aheap : 2 ^ c.pages.lpage ∣ c.heap
  canon : Canon c.pages.spage c.pages.lpage b.free (Avail c.base c.heap live)
  pgs : ∀ a ∈ live, PageIn c.base c.heap a ∧ c.pages.spage ≤ a.2 ∧ a.2 ≤ c.pages.lpage
  disj : live.Pairwise PageDisj

theorem mem_blk (p n x : Nat) : x / 2 ^ p = n ↔ n * 2 ^ p ≤ x ∧ x < n * 2 ^ p + 2 ^ p := by
  have hpos := Nat.two_pow_pos p
  rw [Nat.div_eq_iff hpos]
  constructor
  · rintro ⟨h1, h2⟩; rw [Nat.mul_comm] at *; omega
  · rintro ⟨h1, h2⟩; rw [Nat.mul_comm] at *; omega

/-- vacant block = room at that place -/
theorem vac_iff (base heap : Nat) (live : List (Nat × Nat)) (p n : Nat) :
    Vac (Avail base heap live) p n ↔
      n * 2 ^ p + 2 ^ p ≤ heap ∧ ∀ a ∈ live, PageDisj (base + n * 2 ^ p, p) a := by
  have hpos := Nat.two_pow_pos p
  constructor
  · intro h
    constructor
    · have := (h (n * 2 ^ p + (2 ^ p - 1)) ((mem_blk p n _).2 ⟨by omega, by omega⟩)).1
      omega
    · intro a ha
      unfold PageDisj
      apply Classical.byContradiction
      intro hc
      have hapos := Nat.two_pow_pos a.2
      simp only [not_or, Nat.not_le] at hc
      -- a common byte
      have := (h (max (n * 2 ^ p) (a.1 - base)) ((mem_blk p n _).2 ⟨by omega, by omega⟩)).2 a ha
      apply this
      constructor <;> omega
  · rintro ⟨h1, h2⟩ x hx
    rw [mem_blk] at hx
    refine ⟨by omega, ?_⟩
    intro a ha hax
    have := h2 a ha
    unfold PageDisj at this
    simp only at this
    omega

theorem canon_unique {s l : Nat} {f g : Nat → Finset Nat} {A : Nat → Prop} (hf : Canon s l f A)
    (hg : Canon s l g A) {p : Nat} (hs : s ≤ p) (hl : p ≤ l) : f p = g p := by
  ext n
  rw [hf p hs hl n, hg p hs hl n]

theorem new_inv {c : HeapCfg} {b : Buddy}
    (h : Buddy.new c.pageNumBits c.base c.heap c.pages c.dir = some b) : Inv c b [] := by
  unfold Buddy.new at h
  split at h
  · rename_i hc
    cases h
    simp only [modPow2_eq] at hc
    have ab : 2 ^ c.pages.lpage ∣ c.base := Nat.dvd_of_mod_eq_zero hc.1
    have ah : 2 ^ c.pages.lpage ∣ c.heap := Nat.dvd_of_mod_eq_zero hc.2.1
    refine ⟨rfl, rfl, rfl, ab, ah, ?_, by simp, by simp⟩
    intro p hs hl n
    have key : ∀ q m, Vac (Avail c.base c.heap []) q m ↔ m * 2 ^ q + 2 ^ q ≤ c.heap := by
      intro q m; rw [vac_iff]; simp
    rw [key, key]
    by_cases e : p = c.pages.lpage
    · subst e
      simp only [if_true, divPow2_eq, Finset.mem_range, true_or, and_true]
      obtain ⟨k, hk⟩ := ah
      rw [hk, Nat.mul_div_cancel_left _ (Nat.two_pow_pos _)]
      constructor
      · intro h
        have := Nat.mul_le_mul_left (2 ^ c.pages.lpage) (show n + 1 ≤ k from h)
        rw [Nat.mul_add, Nat.mul_comm _ n] at this; omega
      · intro h
        have : 2 ^ c.pages.lpage * n < 2 ^ c.pages.lpage * k := by
          have := Nat.two_pow_pos c.pages.lpage
          rw [Nat.mul_comm _ n]; omega
        exact Nat.lt_of_mul_lt_mul_left this
    · simp only [e, if_false, false_or]
      simp only [Finset.notMem_empty, false_iff, not_and, not_not]
      intro h
      -- the heap is a multiple of the parent size
      obtain ⟨k, hk⟩ := Nat.dvd_trans (Nat.pow_dvd_pow 2 (show p + 1 ≤ c.pages.lpage by omega)) ah
      have h2 : 2 ^ (p + 1) = 2 * 2 ^ p := by rw [Nat.pow_succ, Nat.mul_comm]
      have hn := Nat.div_add_mod n 2
      have hlt : n / 2 < k := by
        apply Classical.byContradiction
        intro hc
        have hk' : k ≤ n / 2 := by omega
        have := Nat.mul_le_mul_left (2 ^ (p + 1)) hk'
        have h3 : 2 ^ (p + 1) * (n / 2) ≤ n * 2 ^ p := by
          rw [h2, Nat.mul_comm 2, Nat.mul_assoc, Nat.mul_comm]
          exact Nat.mul_le_mul_right _ (by omega)
        have := Nat.two_pow_pos p
        omega
      have := Nat.mul_le_mul_left (2 ^ (p + 1)) (show n / 2 + 1 ≤ k from hlt)
      rw [Nat.mul_add, Nat.mul_comm _ (n / 2)] at this
      omega
  · cases h

theorem dvd_page {c : HeapCfg} {b : Buddy} {live} (h : Inv c b live) {p : Nat} (n : Nat)
    (hp : p ≤ c.pages.lpage) : 2 ^ p ∣ c.base + n * 2 ^ p :=
  Nat.dvd_add (Nat.dvd_trans (Nat.pow_dvd_pow 2 hp) h.abase) (Nat.dvd_mul_left _ _)

/-- taking a vacant block keeps the invariant -/
theorem Inv.take {c : HeapCfg} {b b' : Buddy} {live} (h : Inv c b live) {p n : Nat}
    (hs : c.pages.spage ≤ p) (hl : p ≤ c.pages.lpage) (hv : Vac (Avail c.base c.heap live) p n)
    (hb : b'.base = b.base) (hpg : b'.pages = b.pages) (hd : b'.dir = b.dir)
    (hc : Canon c.pages.spage c.pages.lpage b'.free (minus (Avail c.base c.heap live) p n)) :
    Inv c b' ((c.base + n * 2 ^ p, p) :: live) := by
  have hv' := (vac_iff _ _ _ _ _).1 hv
  refine ⟨hb.trans h.hbase, hpg.trans h.hpages, hd.trans h.hdir, h.abase, h.aheap, ?_, ?_, ?_⟩
  · refine hc.congr ?_
    intro x
    unfold minus Avail
    rw [Ne, mem_blk]
    simp only [List.mem_cons, forall_eq_or_imp]
    constructor
    · rintro ⟨⟨h1, h2⟩, h3⟩
      refine ⟨h1, ?_, h2⟩
      omega
    · rintro ⟨h1, h3, h2⟩
      refine ⟨⟨h1, h2⟩, ?_⟩
      omega
  · intro a ha
    simp only [List.mem_cons] at ha
    rcases ha with rfl | ha
    · exact ⟨⟨dvd_page h n hl, by simp, by simp only; omega⟩, hs, hl⟩
    · exact h.pgs a ha
  · exact List.pairwise_cons.2 ⟨hv'.2, h.disj⟩

theorem requestPow2_ge (pages : Pages) (size : Nat) : pages.spage ≤ requestPow2 pages size :=
  Nat.le_max_left _ _

theorem Inv.alloc {c : HeapCfg} {b : Buddy} {live} (h : Inv c b live) (size : Nat)
    (hsz : requestPow2 c.pages size ≤ c.pages.lpage) :
    (∃ n b', b.allocate size = (.ok (c.base + n * 2 ^ requestPow2 c.pages size), b') ∧
      Vac (Avail c.base c.heap live) (requestPow2 c.pages size) n ∧
      Inv c b' ((c.base + n * 2 ^ requestPow2 c.pages size, requestPow2 c.pages size) :: live) ∧
      b'.allocatedBytes = b.allocatedBytes + 2 ^ requestPow2 c.pages size) ∨
    (∃ b', b.allocate size = (.err .outOfSpace, b') ∧ Inv c b' live ∧ b'.free = b.free ∧
      b'.allocatedBytes = b.allocatedBytes + 2 ^ requestPow2 c.pages size ∧
      ∀ n, ¬ Vac (Avail c.base c.heap live) (requestPow2 c.pages size) n) := by
  unfold Buddy.allocate
  rw [h.hpages]
  simp only [hsz, if_true]
  rcases allocAux_spec b.dir c.pages (c.pages.lpage + 1 - requestPow2 c.pages size)
    (requestPow2 c.pages size) b.free _ h.canon (requestPow2_ge _ _) hsz (by omega) with
    ⟨free', n, hr, hv, hc⟩ | ⟨hr, hv⟩
  · left
    simp only [hr]
    refine ⟨n, { b with
        pages := c.pages
        free := free'
        allocatedBytes := b.allocatedBytes + 2 ^ requestPow2 c.pages size }, ?_, hv,
      h.take (requestPow2_ge _ _) hsz hv rfl h.hpages.symm rfl hc, rfl⟩
    simp only [toPageDevOffset, mulPow2_eq, h.hbase]
    rw [Nat.add_comm]
  · right
    simp only [hr]
    exact ⟨_, rfl, ⟨h.hbase, rfl, h.hdir, h.abase, h.aheap, h.canon, h.pgs, h.disj⟩, rfl, rfl, hv⟩

theorem Inv.mark {c : HeapCfg} {b : Buddy} {live} (h : Inv c b live) (off p : Nat)
    (hin : PageIn c.base c.heap (off, p)) (hs : c.pages.spage ≤ p) (hl : p ≤ c.pages.lpage)
    (hd : ∀ a ∈ live, PageDisj (off, p) a) :
    ∃ b', b.markAsAllocated off p = some b' ∧ Inv c b' ((off, p) :: live) ∧
      b'.allocatedBytes = b.allocatedBytes + 2 ^ p := by
  obtain ⟨h1, h2, h3⟩ := hin
  simp only at h1 h2 h3
  have hdvd : 2 ^ p ∣ off - c.base :=
    Nat.dvd_sub h1 (Nat.dvd_trans (Nat.pow_dvd_pow 2 hl) h.abase)
  have hn : (off - c.base) / 2 ^ p * 2 ^ p = off - c.base := Nat.div_mul_cancel hdvd
  have hoff : c.base + (off - c.base) / 2 ^ p * 2 ^ p = off := by omega
  have hv : Vac (Avail c.base c.heap live) p ((off - c.base) / 2 ^ p) := by
    rw [vac_iff, hoff, hn]
    exact ⟨by omega, hd⟩
  obtain ⟨free', hr, hc⟩ := markAux_spec c.pages (c.pages.lpage + 2 - p) p _ b.free _ h.canon hs hl
    (by omega) hv
  refine ⟨{ b with free := free', allocatedBytes := b.allocatedBytes + 2 ^ p }, ?_, ?_, rfl⟩
  · unfold Buddy.markAsAllocated
    simp only [modPow2_eq, Nat.mod_eq_zero_of_dvd h1, if_true, toPageNum, divPow2_eq, h.hbase,
      h.hpages, hr]
  · have := h.take hs hl hv (b' := { b with free := free', allocatedBytes := b.allocatedBytes + 2 ^ p })
      rfl rfl rfl hc
    rwa [hoff] at this

/-- marking succeeds only for a page inside the heap that overlaps nothing -/
theorem Inv.mark_conv {c : HeapCfg} {b b' : Buddy} {live} (h : Inv c b live) (off p : Nat)
    (hb : c.base ≤ off) (hm : b.markAsAllocated off p = some b') :
    PageIn c.base c.heap (off, p) ∧ c.pages.spage ≤ p ∧ p ≤ c.pages.lpage ∧
      ∀ a ∈ live, PageDisj (off, p) a := by
  unfold Buddy.markAsAllocated at hm
  simp only [modPow2_eq] at hm
  split at hm
  · rename_i hmod
    have h1 : 2 ^ p ∣ off := Nat.dvd_of_mod_eq_zero hmod
    simp only [toPageNum, divPow2_eq, h.hbase, h.hpages] at hm
    have hrange : c.pages.spage ≤ p ∧ p ≤ c.pages.lpage := by
      apply Classical.byContradiction
      intro hc
      have : markAux c.pages (c.pages.lpage + 2 - p) b.free ((off - c.base) / 2 ^ p) p = none := by
        cases c.pages.lpage + 2 - p with
        | zero => rfl
        | succ f => unfold markAux; rw [if_neg hc]
      rw [this] at hm
      cases hm
    have hv : Vac (Avail c.base c.heap live) p ((off - c.base) / 2 ^ p) := by
      apply Classical.byContradiction
      intro hc
      rw [markAux_none c.pages _ p _ b.free _ h.canon hc] at hm
      cases hm
    have hdvd : 2 ^ p ∣ off - c.base :=
      Nat.dvd_sub h1 (Nat.dvd_trans (Nat.pow_dvd_pow 2 hrange.2) h.abase)
    have hn : (off - c.base) / 2 ^ p * 2 ^ p = off - c.base := Nat.div_mul_cancel hdvd
    have hoff : c.base + (off - c.base) / 2 ^ p * 2 ^ p = off := by omega
    rw [vac_iff, hoff, hn] at hv
    exact ⟨⟨h1, hb, by simp only; omega⟩, hrange.1, hrange.2, hv.2⟩
  · cases hm

theorem PageDisj.symm {a b : Nat × Nat} (h : PageDisj a b) : PageDisj b a := Or.symm h

theorem not_disj_self (a : Nat × Nat) : ¬ PageDisj a a := by
  have := Nat.two_pow_pos a.2
  unfold PageDisj; omega

theorem Inv.perm {c : HeapCfg} {b : Buddy} {live live'} (h : Inv c b live) (hp : live.Perm live') :
    Inv c b live' := by
  refine ⟨h.hbase, h.hpages, h.hdir, h.abase, h.aheap, h.canon.congr ?_, ?_, ?_⟩
  · intro x
    unfold Avail
    simp only [hp.mem_iff]
  · intro a ha; exact h.pgs a (hp.mem_iff.2 ha)
  · exact (hp.pairwise_iff (fun {a b} (h : PageDisj a b) => PageDisj.symm h)).1 h.disj

theorem Inv.rel {c : HeapCfg} {b : Buddy} {off p live} (h : Inv c b ((off, p) :: live)) :
    ∃ b', b.release off p = some b' ∧ Inv c b' live ∧
      b'.allocatedBytes = b.allocatedBytes - 2 ^ p := by
  obtain ⟨⟨h1, h2, h3⟩, hs, hl⟩ := h.pgs (off, p) (by simp)
  simp only at h1 h2 h3 hs hl
  have hdvd : 2 ^ p ∣ off - c.base :=
    Nat.dvd_sub h1 (Nat.dvd_trans (Nat.pow_dvd_pow 2 hl) h.abase)
  have hn : (off - c.base) / 2 ^ p * 2 ^ p = off - c.base := Nat.div_mul_cancel hdvd
  have hd := (List.pairwise_cons.1 h.disj)
  obtain ⟨free', hr, hc⟩ := releaseAux_spec c.pages (c.pages.lpage + 1 - p) p
    ((off - c.base) / 2 ^ p) b.free _ h.canon hs hl (by omega) (by
      intro x hx ha
      rw [mem_blk, hn] at hx
      apply ha.2 (off, p) (by simp)
      simp only
      omega)
  refine ⟨{ b with free := free', allocatedBytes := b.allocatedBytes - 2 ^ p }, ?_, ?_, rfl⟩
  · unfold Buddy.release
    simp only [toPageNum, divPow2_eq, h.hbase, h.hpages, hr]
  · refine ⟨h.hbase, h.hpages, h.hdir, h.abase, h.aheap, hc.congr ?_, ?_, hd.2⟩
    · intro x
      unfold plus
      rw [mem_blk, hn]
      unfold Avail
      simp only [List.mem_cons, forall_eq_or_imp]
      constructor
      · rintro (⟨hx, _, ho⟩ | hx)
        · exact ⟨hx, ho⟩
        · refine ⟨by omega, ?_⟩
          intro a ha hax
          have := hd.1 a ha
          unfold PageDisj at this
          simp only at this
          omega
      · rintro ⟨hx, ho⟩
        by_cases hin : off - c.base ≤ x ∧ x < off - c.base + 2 ^ p
        · exact .inr hin
        · left
          refine ⟨hx, by omega, ho⟩
    · intro a ha; exact h.pgs a (by simp [ha])

theorem reach_inv {c : HeapCfg} {b : Buddy} {live} (h : Reach c b live) : Inv c b live := by
  induction h with
  | init h => exact new_inv h
  | @alloc b live size off b' _ ha ih =>
    by_cases hsz : requestPow2 c.pages size ≤ c.pages.lpage
    · rcases ih.alloc size hsz with ⟨n, b'', e, _, hi, _⟩ | ⟨b'', e, _⟩
      · rw [ha] at e; simp only [Prod.mk.injEq, Outcome.ok.injEq] at e
        obtain ⟨e1, e2⟩ := e
        subst e1; subst e2; exact hi
      · rw [ha] at e; simp at e
    · unfold Buddy.allocate at ha
      rw [ih.hpages] at ha
      simp [hsz] at ha
  | @full b live size b' _ ha ih =>
    by_cases hsz : requestPow2 c.pages size ≤ c.pages.lpage
    · rcases ih.alloc size hsz with ⟨n, b'', e, _, hi, _⟩ | ⟨b'', e, hi, _⟩
      · rw [ha] at e; simp at e
      · rw [ha] at e; simp only [Prod.mk.injEq, true_and] at e; subst e; exact hi
    · unfold Buddy.allocate at ha
      rw [ih.hpages] at ha
      simp [hsz] at ha
  | @release b live pg b' _ hm hr ih =>
    have := ih.perm (List.perm_cons_erase hm)
    obtain ⟨b'', e, hi, _⟩ := Inv.rel (off := pg.1) (p := pg.2) this
    rw [hr] at e; cases e; exact hi
  | @mark b live off p b' _ hb hm ih =>
    obtain ⟨h1, h2, h3, h4⟩ := ih.mark_conv off p hb hm
    obtain ⟨b'', e, hi, _⟩ := ih.mark off p h1 h2 h3 h4
    rw [hm] at e; cases e; exact hi

end Buddy
end Blobd
