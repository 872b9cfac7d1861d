import Verif.Proofs.BuddyInv
/-! Conservation of bytes in the buddy allocator. -/
namespace Blobd
namespace Buddy
open Spec

theorem fb_setFree (pages : Pages) (free : Nat → Finset Nat) (p : Nat) (S : Finset Nat)
    (hs : pages.spage ≤ p) (hl : p ≤ pages.lpage) :
    freeBytesOf pages (setFree free p S) + (free p).card * 2 ^ p =
      freeBytesOf pages free + S.card * 2 ^ p := by
  unfold freeBytesOf
  have hp : p ∈ Finset.Icc pages.spage pages.lpage := Finset.mem_Icc.2 ⟨hs, hl⟩
  rw [← Finset.add_sum_erase _ _ hp, ← Finset.add_sum_erase _ (fun p => (free p).card * 2 ^ p) hp]
  have : ∑ x ∈ (Finset.Icc pages.spage pages.lpage).erase p, (setFree free p S x).card * 2 ^ x =
      ∑ x ∈ (Finset.Icc pages.spage pages.lpage).erase p, (free x).card * 2 ^ x := by
    apply Finset.sum_congr rfl
    intro x hx
    rw [setFree_ne _ _ (Finset.ne_of_mem_erase hx)]
  rw [this, setFree_same]
  omega

theorem fb_erase (pages : Pages) (free : Nat → Finset Nat) (p n : Nat)
    (hs : pages.spage ≤ p) (hl : p ≤ pages.lpage) (hn : n ∈ free p) :
    freeBytesOf pages (setFree free p ((free p).erase n)) + 2 ^ p = freeBytesOf pages free := by
  have h := fb_setFree pages free p ((free p).erase n) hs hl
  have hc := Finset.card_erase_add_one hn
  rw [← hc, Nat.add_mul] at h
  omega

theorem fb_insert (pages : Pages) (free : Nat → Finset Nat) (p n : Nat)
    (hs : pages.spage ≤ p) (hl : p ≤ pages.lpage) (hn : n ∉ free p) :
    freeBytesOf pages (setFree free p (insert n (free p))) = freeBytesOf pages free + 2 ^ p := by
  have h := fb_setFree pages free p (insert n (free p)) hs hl
  rw [Finset.card_insert_of_notMem hn, Nat.add_mul] at h
  omega

theorem allocAux_fb (dir : AllocDir) (pages : Pages) (fuel p : Nat) (free free' : Nat → Finset Nat)
    (n : Nat) (h : allocAux dir pages fuel free p = .ok (free', n)) :
    freeBytesOf pages free' + 2 ^ p = freeBytesOf pages free := by
  induction fuel generalizing p free' n with
  | zero => simp [allocAux] at h
  | succ f ih =>
    unfold allocAux at h
    split at h
    · rename_i hb
      split at h
      · split at h
        · rename_i hn
          cases h
          exact fb_erase pages free p _ hb.1 hb.2 hn
        · cases h
      · split at h
        · cases h
        · split at h
          · cases h
          · cases h
          · rename_i free1 larger he
            have hi := ih (p + 1) free1 larger he
            have hp2 : 2 ^ (p + 1) = 2 * 2 ^ p := by rw [Nat.pow_succ, Nat.mul_comm]
            split at h <;> split at h
            · cases h
            · rename_i hn
              cases h
              rw [fb_insert pages free1 p _ hb.1 hb.2 hn]; omega
            · cases h
            · rename_i hn
              cases h
              rw [fb_insert pages free1 p _ hb.1 hb.2 hn]; omega
    · cases h

theorem releaseAux_fb (pages : Pages) (fuel p n : Nat) (free free' : Nat → Finset Nat)
    (hs : pages.spage ≤ p) (hl : p ≤ pages.lpage) (h : releaseAux pages fuel free n p = some free') :
    freeBytesOf pages free' = freeBytesOf pages free + 2 ^ p := by
  induction fuel generalizing p n free with
  | zero => simp [releaseAux] at h
  | succ f ih =>
    unfold releaseAux at h
    split at h
    · rename_i hb
      simp only at h
      split at h
      · cases h
      · have hi := ih (p + 1) (n / 2) _ (by omega) (by omega) h
        have he := fb_erase pages free p _ hs hl hb.2
        have hp2 : 2 ^ (p + 1) = 2 * 2 ^ p := by rw [Nat.pow_succ, Nat.mul_comm]
        omega
    · split at h
      · cases h
      · rename_i hn
        cases h
        exact fb_insert pages free p n hs hl hn

theorem markAux_fb (pages : Pages) (fuel p n : Nat) (free free' : Nat → Finset Nat)
    (A : Nat → Prop) (hc : Canon pages.spage pages.lpage free A) (hfu : pages.lpage < p + fuel)
    (h : markAux pages fuel free n p = some free') :
    freeBytesOf pages free' + 2 ^ p = freeBytesOf pages free := by
  induction fuel generalizing p n free' with
  | zero => simp [markAux] at h
  | succ f ih =>
    have h0 := h
    unfold markAux at h
    split at h
    · rename_i hb
      split at h
      · rename_i hn
        cases h
        exact fb_erase pages free p n hb.1 hb.2 hn
      · split at h
        · cases h
        · rename_i hn free1 he
          cases h
          have hi := ih (p + 1) (n / 2) free1 (by omega) he
          have hp2 : 2 ^ (p + 1) = 2 * 2 ^ p := by rw [Nat.pow_succ, Nat.mul_comm]
          -- parent is vacant, so the recursive result is canonical and the sibling is new
          have hvp : Vac A (p + 1) (n / 2) := by
            apply Classical.byContradiction
            intro hv
            rw [markAux_none pages f (p + 1) (n / 2) free A hc hv] at he
            cases he
          have hpl : p < pages.lpage := by
            apply Classical.byContradiction
            intro hpl
            have : markAux pages f free (n / 2) (p + 1) = none := by
              cases f with
              | zero => rfl
              | succ f => unfold markAux; rw [if_neg (by omega)]
            rw [this] at he
            cases he
          have hf : pages.lpage < p + 1 + f := by omega
          obtain ⟨free2, e2, c2⟩ := markAux_spec pages f (p + 1) (n / 2) free A hc (by omega)
            (by omega) hf hvp
          rw [he] at e2
          cases e2
          have := (c2.split (n := n) hb.1 hpl hvp rfl).1
          rw [fb_insert pages free1 p _ hb.1 hb.2 this]; omega
    · cases h

theorem new_fb {c : HeapCfg} {b : Buddy} (hsl : c.pages.spage ≤ c.pages.lpage)
    (h : Buddy.new c.pageNumBits c.base c.heap c.pages c.dir = some b) :
    freeBytes b = c.heap ∧ b.allocatedBytes = 0 := by
  have hi := new_inv h
  obtain ⟨k, hk⟩ := hi.aheap
  unfold Buddy.new at h
  split at h
  · cases h
    refine ⟨?_, rfl⟩
    unfold freeBytes freeBytesOf
    simp only
    rw [Finset.sum_eq_single c.pages.lpage]
    · simp only [if_true, divPow2_eq, Finset.card_range]
      rw [hk, Nat.mul_div_cancel_left _ (Nat.two_pow_pos _), Nat.mul_comm]
    · intro p _ hne; simp [hne]
    · intro hne; exact absurd (Finset.mem_Icc.2 ⟨hsl, Nat.le_refl _⟩) hne
  · cases h

theorem liveBytes_perm {l l' : List (Nat × Nat)} (h : l.Perm l') : liveBytes l = liveBytes l' := by
  unfold liveBytes
  exact (h.map _).sum_eq

theorem reach_bytes {c : HeapCfg} {b : Buddy} {live} (hsl : c.pages.spage ≤ c.pages.lpage)
    (h : Reach c b live) : freeBytes b + liveBytes live = c.heap := by
  induction h with
  | init h => simp [liveBytes, (new_fb hsl h).1]
  | @alloc b live size off b' hr ha ih =>
    have inv := reach_inv hr
    unfold Buddy.allocate at ha
    simp only [inv.hpages] at ha
    split at ha
    · split at ha
      · rename_i free' n he
        simp only [Prod.mk.injEq, Outcome.ok.injEq] at ha
        obtain ⟨_, rfl⟩ := ha
        have := allocAux_fb _ _ _ _ _ _ _ he
        simp only [freeBytes, inv.hpages, liveBytes, List.map_cons, List.sum_cons] at ih ⊢
        omega
      · simp at ha
      · simp at ha
    · simp at ha
  | @full b live size b' hr ha ih =>
    have inv := reach_inv hr
    unfold Buddy.allocate at ha
    simp only [inv.hpages] at ha
    split at ha
    · split at ha
      · simp at ha
      · simp only [Prod.mk.injEq] at ha
        obtain ⟨_, rfl⟩ := ha
        simpa [freeBytes, inv.hpages] using ih
      · simp at ha
    · simp at ha
  | @release b live pg b' hr hm hrel ih =>
    have inv := reach_inv hr
    have hpg := inv.pgs pg hm
    unfold Buddy.release at hrel
    simp only [inv.hpages] at hrel
    split at hrel
    · cases hrel
    · rename_i free' he
      cases hrel
      have := releaseAux_fb _ _ _ _ _ _ hpg.2.1 hpg.2.2 he
      rw [liveBytes_perm (List.perm_cons_erase hm)] at ih
      simp only [freeBytes, inv.hpages, liveBytes, List.map_cons, List.sum_cons] at ih ⊢
      omega
  | @mark b live off p b' hr hb hm ih =>
    have inv := reach_inv hr
    have hpl := (inv.mark_conv off p hb hm).2.2.1
    unfold Buddy.markAsAllocated at hm
    simp only [inv.hpages] at hm
    split at hm
    · split at hm
      · cases hm
      · rename_i free' he
        cases hm
        have := markAux_fb _ _ _ _ _ _ _ inv.canon (by omega) he
        simp only [freeBytes, inv.hpages, liveBytes, List.map_cons, List.sum_cons] at ih ⊢
        omega
    · cases hm

end Buddy
end Blobd
