import Verif.Proofs.DirectPages
import Verif.Proofs.BuddyInv
set_option autoImplicit false
/-! How many large pages an allocation can use up. -/
namespace Blobd
namespace Buddy
open Spec

/-- free large pages -/
def wholeFree (b : Buddy) : Finset Nat := b.free b.pages.lpage

theorem mem_whole {c : HeapCfg} {b : Buddy} {live} (h : Inv c b live) (hsl : c.pages.spage ≤ c.pages.lpage) (n : Nat) :
    n ∈ wholeFree b ↔ Vac (Avail c.base c.heap live) c.pages.lpage n := by
  unfold wholeFree
  rw [h.hpages, h.canon _ hsl (Nat.le_refl _) n]
  simp

/-- one allocation uses up at most one large page -/
theorem whole_take {c : HeapCfg} {b b' : Buddy} {live} {p m : Nat} (h : Inv c b live) (hsl : c.pages.spage ≤ c.pages.lpage)
    (hp : p ≤ c.pages.lpage) (h' : Inv c b' ((c.base + m * 2 ^ p, p) :: live)) :
    (wholeFree b).card ≤ (wholeFree b').card + 1 := by
  have : (wholeFree b).erase (m * 2 ^ p / 2 ^ c.pages.lpage) ⊆ wholeFree b' := by
    intro n hn
    rw [Finset.mem_erase] at hn
    obtain ⟨hne, hn⟩ := hn
    rw [mem_whole h hsl] at hn
    rw [mem_whole h' hsl]
    intro x hx
    have hx' := hn x hx
    refine ⟨hx'.1, ?_⟩
    intro a ha
    rcases List.mem_cons.1 ha with rfl | ha
    · rintro ⟨h1, h2⟩
      refine hne ?_
      have e : x / 2 ^ p = m := (mem_blk p m x).2 ⟨by simp only at h1; omega, by simp only at h2; omega⟩
      have e2 : x / 2 ^ p = (m * 2 ^ p) / 2 ^ p := by rw [e, blk_base]
      rw [← nested hp e2]
      exact hx.symm
    · exact hx'.2 a ha
  have h1 := Finset.card_le_card this
  have h2 := Finset.pred_card_le_card_erase (s := wholeFree b) (a := m * 2 ^ p / 2 ^ c.pages.lpage)
  omega

/-- giving back pages takes no large page away -/
theorem whole_mono {c : HeapCfg} {b b' : Buddy} {live live' : List (Nat × Nat)} (h : Inv c b live) (hsl : c.pages.spage ≤ c.pages.lpage)
    (h' : Inv c b' live') (hsub : ∀ a ∈ live', a ∈ live) : (wholeFree b).card ≤ (wholeFree b').card := by
  refine Finset.card_le_card ?_
  intro n hn
  rw [mem_whole h hsl] at hn
  rw [mem_whole h' hsl]
  intro x hx
  exact ⟨(hn x hx).1, fun a ha => (hn x hx).2 a (hsub a ha)⟩

theorem whole_alloc {c : HeapCfg} {b : Buddy} {live} (h : Inv c b live) (hsl : c.pages.spage ≤ c.pages.lpage) {size : Nat}
    (hsz : requestPow2 c.pages size ≤ c.pages.lpage) (hw : 0 < (wholeFree b).card) :
    ∃ n b', b.allocate size = (.ok (c.base + n * 2 ^ requestPow2 c.pages size), b') ∧
      Inv c b' ((c.base + n * 2 ^ requestPow2 c.pages size, requestPow2 c.pages size) :: live) ∧
      (wholeFree b).card ≤ (wholeFree b').card + 1 := by
  rcases h.alloc size hsz with ⟨n, b', e, _, h1, _⟩ | ⟨b', e, _, _, _, hv⟩
  · exact ⟨n, b', e, h1, whole_take h hsl hsz h1⟩
  · exfalso
    obtain ⟨k, hk⟩ := Finset.card_pos.1 hw
    rw [mem_whole h hsl] at hk
    refine hv (k * 2 ^ (c.pages.lpage - requestPow2 c.pages size)) ?_
    intro x hx
    refine hk x ?_
    rw [div_chain hsz, hx, Nat.mul_div_cancel _ (Nat.two_pow_pos _)]

/-- if there are as many free large pages as pages are asked for, all are given -/
theorem allocPages_whole {c : HeapCfg} {sizes : List Nat} (hsl : c.pages.spage ≤ c.pages.lpage)
    (hsz : ∀ s ∈ sizes, requestPow2 c.pages s ≤ c.pages.lpage) : ∀ {b : Buddy} {live : List (Nat × Nat)}, Inv c b live →
    sizes.length ≤ (wholeFree b).card → ∃ offs b', Direct.allocPages b sizes = (some offs, b') ∧
      (wholeFree b).card ≤ (wholeFree b').card + sizes.length := by
  induction sizes with
  | nil => intro b live _ _; exact ⟨[], b, rfl, by simp⟩
  | cons z zs ih =>
    intro b live h hl
    simp only [List.length_cons] at hl
    obtain ⟨n, b1, e, h1, hw⟩ := whole_alloc h hsl (hsz z (by simp)) (by omega)
    obtain ⟨offs, b2, e2, hw2⟩ := ih (fun s hs => hsz s (by simp [hs])) h1 (by omega)
    refine ⟨(c.base + n * 2 ^ requestPow2 c.pages z) :: offs, b2, ?_, ?_⟩
    · simp only [Direct.allocPages, e, e2]
    · simp only [List.length_cons]; omega

end Buddy
end Blobd
