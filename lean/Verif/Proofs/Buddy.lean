import Verif.Model.Buddy
import Verif.Proofs.Util
/-!
Helper lemmas for the buddy allocator. The free-space map is always in canonical form for the set
`A` of available (free) heap bytes: the free pages are exactly the maximal aligned blocks inside `A`.
-/
namespace Blobd
namespace Buddy

/-- block `(p, n)` (bytes `x` with `x / 2^p = n`) lies inside `A` -/
def Vac (A : Nat → Prop) (p n : Nat) : Prop := ∀ x, x / 2 ^ p = n → A x

/-- the free map is canonical for the available bytes `A` -/
def Canon (s l : Nat) (free : Nat → Finset Nat) (A : Nat → Prop) : Prop :=
  ∀ p, s ≤ p → p ≤ l → ∀ n, n ∈ free p ↔ Vac A p n ∧ (p = l ∨ ¬ Vac A (p + 1) (n / 2))

theorem div_chain {q p : Nat} (h : q ≤ p) (x : Nat) : x / 2 ^ p = x / 2 ^ q / 2 ^ (p - q) := by
  rw [Nat.div_div_eq_div_mul, ← Nat.pow_add]; congr 2; omega

theorem div_succ (x p : Nat) : x / 2 ^ (p + 1) = x / 2 ^ p / 2 := by
  rw [div_chain (Nat.le_succ p) x]; simp

/-- blocks are nested or disjoint -/
theorem nested {q p x y : Nat} (h : q ≤ p) (hy : y / 2 ^ q = x / 2 ^ q) : y / 2 ^ p = x / 2 ^ p := by
  rw [div_chain h, hy, ← div_chain h]

theorem blk_base (p n : Nat) : (n * 2 ^ p) / 2 ^ p = n := Nat.mul_div_cancel _ (Nat.two_pow_pos p)

theorem xor_one_div (n : Nat) : (n ^^^ 1) / 2 = n / 2 := by
  apply Nat.eq_of_testBit_eq
  intro i
  simp only [Nat.testBit_div_two, Nat.testBit_xor]
  have : Nat.testBit 1 (i + 1) = false := by simp [Nat.testBit_succ]
  simp [this]

theorem xor_one_ne (n : Nat) : n ^^^ 1 ≠ n := by
  intro h
  have := congrArg (fun m => m ^^^ n) h
  simp [Nat.xor_comm n 1, Nat.xor_assoc] at this

theorem xor_one_xor (n : Nat) : (n ^^^ 1) ^^^ 1 = n := by simp [Nat.xor_assoc]

theorem xor_one_cases (n m : Nat) (h : m / 2 = n / 2) : m = n ∨ m = n ^^^ 1 := by
  have h1 : (n ^^^ 1) / 2 = n / 2 := xor_one_div n
  have h2 := xor_one_ne n
  omega

theorem two_mul_xor (k : Nat) : (k * 2) ^^^ 1 = k * 2 + 1 := by
  have h1 : ((k * 2) ^^^ 1) / 2 = (k * 2) / 2 := xor_one_div (k * 2)
  have h2 := xor_one_ne (k * 2)
  omega

theorem two_mul_succ_xor (k : Nat) : (k * 2 + 1) ^^^ 1 = k * 2 := by
  rw [← two_mul_xor, xor_one_xor]

theorem Vac.child {A : Nat → Prop} {p k n : Nat} (h : Vac A (p + 1) k) (hn : n / 2 = k) :
    Vac A p n := by
  intro x hx
  apply h
  rw [div_succ, hx, hn]

theorem Vac.parent {A : Nat → Prop} {p n : Nat} (h1 : Vac A p n) (h2 : Vac A p (n ^^^ 1)) :
    Vac A (p + 1) (n / 2) := by
  intro x hx
  rw [div_succ] at hx
  rcases xor_one_cases n (x / 2 ^ p) hx with h | h
  · exact h1 x h
  · exact h2 x h

theorem Canon.congr {s l : Nat} {free : Nat → Finset Nat} {A B : Nat → Prop} (h : Canon s l free A)
    (e : ∀ x, A x ↔ B x) : Canon s l free B := by
  have : A = B := funext fun x => propext (e x)
  rwa [this] at h

/-- `A` without block `(p, n)` -/
def minus (A : Nat → Prop) (p n : Nat) : Nat → Prop := fun x => A x ∧ x / 2 ^ p ≠ n

/-- `A` with block `(p, n)` -/
def plus (A : Nat → Prop) (p n : Nat) : Nat → Prop := fun x => A x ∨ x / 2 ^ p = n

@[simp] theorem setFree_same (free : Nat → Finset Nat) (p : Nat) (S : Finset Nat) :
    setFree free p S p = S := by simp [setFree]

theorem setFree_ne (free : Nat → Finset Nat) {p q : Nat} (S : Finset Nat) (h : q ≠ p) :
    setFree free p S q = free q := by simp [setFree, h]

theorem Canon.remove {s l : Nat} {free : Nat → Finset Nat} {A : Nat → Prop} (h : Canon s l free A)
    {p n : Nat} (hs : s ≤ p) (hl : p ≤ l) (hn : n ∈ free p) :
    Canon s l (setFree free p ((free p).erase n)) (minus A p n) := by
  obtain ⟨hv, hm⟩ := (h p hs hl n).1 hn
  intro q hqs hql m
  have hmem : m ∈ setFree free p ((free p).erase n) q ↔ (q = p → m ≠ n) ∧ m ∈ free q := by
    by_cases e : q = p
    · subst e; simp
    · rw [setFree_ne _ _ e]; simp [e]
  rw [hmem, h q hqs hql m]
  constructor
  · rintro ⟨hne, hvq, hmq⟩
    have hdisj : ∀ x, x / 2 ^ q = m → x / 2 ^ p ≠ n := by
      intro x hx hxp
      rcases Nat.lt_trichotomy q p with hlt | heq | hgt
      · rcases hmq with e | hnv
        · omega
        · apply hnv
          intro y hy
          apply hv
          rw [← hxp]
          apply nested (q := q + 1) hlt
          rw [hy, div_succ, hx]
      · subst heq; exact hne rfl (hx.symm.trans hxp)
      · rcases hm with e | hnv
        · omega
        · apply hnv
          intro y hy
          apply hvq
          rw [← hx]
          apply nested (q := p + 1) hgt
          rw [hy, div_succ, hxp]
    refine ⟨fun x hx => ⟨hvq x hx, hdisj x hx⟩, ?_⟩
    rcases hmq with e | hnv
    · exact .inl e
    · exact .inr fun hv' => hnv fun x hx => (hv' x hx).1
  · rintro ⟨hvq, hmq⟩
    refine ⟨?_, fun x hx => (hvq x hx).1, ?_⟩
    · rintro rfl rfl
      exact (hvq _ (blk_base q m)).2 (blk_base q m)
    · rcases hmq with e | hnv
      · exact .inl e
      · by_cases hql' : q = l
        · exact .inl hql'
        right
        intro hv'
        apply hnv
        intro x hx
        refine ⟨hv' x hx, ?_⟩
        intro hxp
        by_cases hc : q + 1 ≤ p
        · have hb := (hvq _ (blk_base q m)).2
          apply hb
          rw [← hxp]
          apply nested hc
          rw [hx, div_succ, blk_base]
        · rcases hm with e | hnv2
          · omega
          · apply hnv2
            intro y hy
            apply hv'
            rw [← hx]
            apply nested (q := p + 1) (by omega)
            rw [hy, div_succ, hxp]

theorem Canon.add {s l : Nat} {free : Nat → Finset Nat} {A : Nat → Prop} (h : Canon s l free A)
    {p n : Nat} (hs : s ≤ p) (hl : p ≤ l) (hd : ∀ x, x / 2 ^ p = n → ¬ A x)
    (hb : p = l ∨ ¬ Vac A p (n ^^^ 1)) :
    n ∉ free p ∧ Canon s l (setFree free p (insert n (free p))) (plus A p n) := by
  have hnot : n ∉ free p := fun hc =>
    hd _ (blk_base p n) (((h p hs hl n).1 hc).1 _ (blk_base p n))
  refine ⟨hnot, ?_⟩
  -- a vacant buddy in `plus A` is a vacant buddy in `A`
  have hbud : p ≠ l → ¬ Vac (plus A p n) p (n ^^^ 1) := by
    intro hpl hv
    rcases hb with e | hb
    · exact hpl e
    · apply hb
      intro x hx
      rcases hv x hx with h1 | h1
      · exact h1
      · exact absurd (hx.symm.trans h1) (xor_one_ne n)
  intro q hqs hql m
  have hmem : m ∈ setFree free p (insert n (free p)) q ↔ (q = p ∧ m = n) ∨ m ∈ free q := by
    by_cases e : q = p
    · subst e; simp
    · rw [setFree_ne _ _ e]; simp [e]
  rw [hmem, h q hqs hql m]
  constructor
  · rintro (⟨rfl, rfl⟩ | ⟨hvq, hmq⟩)
    · refine ⟨fun x hx => .inr hx, ?_⟩
      by_cases e : q = l
      · exact .inl e
      · exact .inr fun hv => hbud e (hv.child (xor_one_div m))
    · refine ⟨fun x hx => .inl (hvq x hx), ?_⟩
      by_cases e : q = l
      · exact .inl e
      right
      intro hv'
      rcases hmq with e' | hnv
      · exact e e'
      apply hnv
      intro x hx
      rcases hv' x hx with h1 | hxp
      · exact h1
      · exfalso
        by_cases hc : q + 1 ≤ p
        · apply hd (m * 2 ^ q) _ (hvq _ (blk_base q m))
          rw [← hxp]
          apply nested hc
          rw [hx, div_succ, blk_base]
        · apply hbud (by omega)
          intro y hy
          apply hv'
          rw [← hx]
          apply nested (q := p + 1) (by omega)
          rw [div_succ, div_succ, hy, hxp, xor_one_div]
  · rintro ⟨hvq, hmq⟩
    by_cases hva : Vac A q m
    · right
      refine ⟨hva, ?_⟩
      rcases hmq with e | hnv
      · exact .inl e
      · exact .inr fun hv => hnv fun x hx => .inl (hv x hx)
    · left
      have : ∃ x, x / 2 ^ q = m ∧ ¬ A x := by
        apply Classical.byContradiction
        intro hc
        apply hva
        intro x hx
        apply Classical.byContradiction
        intro hax
        exact hc ⟨x, hx, hax⟩
      obtain ⟨x, hx, hax⟩ := this
      have hxp : x / 2 ^ p = n := (hvq x hx).resolve_left hax
      rcases Nat.lt_trichotomy q p with hlt | heq | hgt
      · exfalso
        rcases hmq with e | hnv
        · omega
        · apply hnv
          intro y hy
          right
          rw [← hxp]
          apply nested (q := q + 1) hlt
          rw [hy, div_succ, hx]
      · subst heq; exact ⟨rfl, hx.symm.trans hxp⟩
      · exfalso
        apply hbud (by omega)
        intro y hy
        apply hvq
        rw [← hx]
        apply nested (q := p + 1) (by omega)
        rw [div_succ, div_succ, hy, hxp, xor_one_div]

theorem pick_some {dir : AllocDir} {S : Finset Nat} {n : Nat} (h : pick dir S = some n) : n ∈ S := by
  unfold pick at h
  cases dir <;> simp only at h <;> split at h <;> try cases h
  · exact Finset.min'_mem _ _
  · exact Finset.max'_mem _ _

theorem pick_none {dir : AllocDir} {S : Finset Nat} (h : pick dir S = none) : S = ∅ := by
  unfold pick at h
  cases dir <;> simp only at h <;> split at h <;> try cases h
  all_goals exact Finset.not_nonempty_iff_eq_empty.1 ‹_›

/-- after taking the parent, giving back one half leaves the other half taken -/
theorem Canon.split {s l : Nat} {free : Nat → Finset Nat} {A : Nat → Prop} {p k n : Nat}
    (h : Canon s l free (minus A (p + 1) k)) (hs : s ≤ p) (hl : p < l)
    (hv : Vac A (p + 1) k) (hn : n / 2 = k) :
    n ^^^ 1 ∉ free p ∧ Canon s l (setFree free p (insert (n ^^^ 1) (free p))) (minus A p n) := by
  have hk : (n ^^^ 1) / 2 = k := by rw [xor_one_div, hn]
  obtain ⟨h1, h2⟩ := h.add (n := n ^^^ 1) hs (Nat.le_of_lt hl)
    (by intro x hx ha; apply ha.2; rw [div_succ, hx, hk])
    (by
      right
      rw [xor_one_xor]
      intro hvn
      have := (hvn _ (blk_base p n)).2
      apply this
      rw [div_succ, blk_base, hn])
  refine ⟨h1, h2.congr ?_⟩
  intro x
  unfold plus minus
  constructor
  · rintro (⟨ha, hne⟩ | hx)
    · refine ⟨ha, fun hx => hne ?_⟩
      rw [div_succ, hx, hn]
    · refine ⟨hv x (by rw [div_succ, hx, hk]), fun hx' => xor_one_ne n (hx.symm.trans hx')⟩
  · rintro ⟨ha, hne⟩
    by_cases hx : x / 2 ^ (p + 1) = k
    · right
      rw [div_succ, ← hn] at hx
      exact (xor_one_cases n _ hx).resolve_left hne
    · exact .inl ⟨ha, hx⟩

theorem allocAux_spec (dir : AllocDir) (pages : Pages) (fuel p : Nat) (free : Nat → Finset Nat)
    (A : Nat → Prop) (h : Canon pages.spage pages.lpage free A) (hs : pages.spage ≤ p)
    (hl : p ≤ pages.lpage) (hf : pages.lpage < p + fuel) :
    (∃ free' n, allocAux dir pages fuel free p = .ok (free', n) ∧ Vac A p n ∧
      Canon pages.spage pages.lpage free' (minus A p n)) ∨
    (allocAux dir pages fuel free p = .err .outOfSpace ∧ ∀ n, ¬ Vac A p n) := by
  induction fuel generalizing p with
  | zero => omega
  | succ f ih =>
    unfold allocAux
    rw [if_pos ⟨hs, hl⟩]
    cases hp : pick dir (free p) with
    | some n =>
      have hn := pick_some hp
      left
      refine ⟨_, n, by simp [hn], ((h p hs hl n).1 hn).1, h.remove hs hl hn⟩
    | none =>
      have hemp := pick_none hp
      have hnone : ∀ n, Vac A p n → p ≠ pages.lpage ∧ Vac A (p + 1) (n / 2) := by
        intro n hv
        apply Classical.byContradiction
        intro hc
        have : n ∈ free p := (h p hs hl n).2 ⟨hv, by
          by_cases e : p = pages.lpage
          · exact .inl e
          · exact .inr fun hv' => hc ⟨e, hv'⟩⟩
        rw [hemp] at this
        simp at this
      by_cases e : p = pages.lpage
      · right
        simp only [e, if_true]
        exact ⟨trivial, fun n hv => (hnone n (e ▸ hv)).1 e⟩
      · simp only [e, if_false]
        rcases ih (p + 1) (by omega) (by omega) (by omega) with ⟨free', k, hr, hv, hc⟩ | ⟨hr, hv⟩
        · left
          rw [hr]
          have hpl : p < pages.lpage := by omega
          cases dir with
          | left =>
            obtain ⟨h1, h2⟩ := hc.split (n := k * 2) hs hpl hv (by omega)
            rw [two_mul_xor] at h1 h2
            exact ⟨_, k * 2, by simp [h1], hv.child (by omega), h2⟩
          | right =>
            obtain ⟨h1, h2⟩ := hc.split (n := k * 2 + 1) hs hpl hv (by omega)
            rw [two_mul_succ_xor] at h1 h2
            exact ⟨_, k * 2 + 1, by simp [h1], hv.child (by omega), h2⟩
        · right
          rw [hr]
          exact ⟨rfl, fun n hn => hv _ (hnone n hn).2⟩

theorem markAux_spec (pages : Pages) (fuel p n : Nat) (free : Nat → Finset Nat)
    (A : Nat → Prop) (h : Canon pages.spage pages.lpage free A) (hs : pages.spage ≤ p)
    (hl : p ≤ pages.lpage) (hf : pages.lpage < p + fuel) (hv : Vac A p n) :
    ∃ free', markAux pages fuel free n p = some free' ∧
      Canon pages.spage pages.lpage free' (minus A p n) := by
  induction fuel generalizing p n with
  | zero => omega
  | succ f ih =>
    unfold markAux
    rw [if_pos ⟨hs, hl⟩]
    by_cases hn : n ∈ free p
    · exact ⟨_, by rw [if_pos hn], h.remove hs hl hn⟩
    · rw [if_neg hn]
      have hpar : p ≠ pages.lpage ∧ Vac A (p + 1) (n / 2) := by
        apply Classical.byContradiction
        intro hc
        apply hn
        refine (h p hs hl n).2 ⟨hv, ?_⟩
        by_cases e : p = pages.lpage
        · exact .inl e
        · exact .inr fun hv' => hc ⟨e, hv'⟩
      obtain ⟨free', hr, hc⟩ := ih (p + 1) (n / 2) (by omega) (by omega) (by omega) hpar.2
      rw [hr]
      exact ⟨_, rfl, (hc.split (n := n) hs (by omega) hpar.2 rfl).2⟩

theorem markAux_none (pages : Pages) (fuel p n : Nat) (free : Nat → Finset Nat)
    (A : Nat → Prop) (h : Canon pages.spage pages.lpage free A) (hv : ¬ Vac A p n) :
    markAux pages fuel free n p = none := by
  induction fuel generalizing p n with
  | zero => rfl
  | succ f ih =>
    unfold markAux
    by_cases hb : p ≥ pages.spage ∧ p ≤ pages.lpage
    · rw [if_pos hb, if_neg (fun hn => hv ((h p hb.1 hb.2 n).1 hn).1),
        ih (p + 1) (n / 2) (fun h' => hv (h'.child rfl))]
    · rw [if_neg hb]

theorem releaseAux_spec (pages : Pages) (fuel p n : Nat) (free : Nat → Finset Nat)
    (A : Nat → Prop) (h : Canon pages.spage pages.lpage free A) (hs : pages.spage ≤ p)
    (hl : p ≤ pages.lpage) (hf : pages.lpage < p + fuel) (hd : ∀ x, x / 2 ^ p = n → ¬ A x) :
    ∃ free', releaseAux pages fuel free n p = some free' ∧
      Canon pages.spage pages.lpage free' (plus A p n) := by
  induction fuel generalizing p n free A with
  | zero => omega
  | succ f ih =>
    unfold releaseAux
    by_cases hb : p < pages.lpage ∧ n ^^^ 1 ∈ free p
    · rw [if_pos hb]
      have h1 := h.remove hs hl hb.2
      have hvb := ((h p hs hl _).1 hb.2).1
      have hnot : n ∉ (free p).erase (n ^^^ 1) := by
        intro hc
        have := (h p hs hl n).1 (Finset.mem_of_mem_erase hc)
        exact hd _ (blk_base p n) (this.1 _ (blk_base p n))
      simp only [setFree_same, if_neg hnot]
      obtain ⟨free', hr, hc⟩ := ih (p + 1) (n / 2) _ _ h1 (by omega) (by omega) (by omega) (by
        intro x hx ha
        rw [div_succ] at hx
        rcases xor_one_cases n _ hx with h' | h'
        · exact hd x h' ha.1
        · exact ha.2 h')
      refine ⟨free', hr, hc.congr ?_⟩
      intro x
      unfold plus minus
      constructor
      · rintro (⟨ha, _⟩ | hx)
        · exact .inl ha
        · rw [div_succ] at hx
          rcases xor_one_cases n _ hx with h' | h'
          · exact .inr h'
          · exact .inl (hvb x h')
      · rintro (ha | hx)
        · by_cases h' : x / 2 ^ p = n ^^^ 1
          · right; rw [div_succ, h', xor_one_div]
          · exact .inl ⟨ha, h'⟩
        · right; rw [div_succ, hx]
    · rw [if_neg hb]
      obtain ⟨h1, h2⟩ := h.add hs hl hd (by
        by_cases e : p = pages.lpage
        · exact .inl e
        · right
          intro hv
          apply hb
          refine ⟨by omega, (h p hs hl _).2 ⟨hv, .inr ?_⟩⟩
          intro hv'
          rw [xor_one_div] at hv'
          exact hd _ (blk_base p n) ((hv'.child (n := n) rfl) _ (blk_base p n)))
      exact ⟨_, by rw [if_neg h1], h2⟩

end Buddy
end Blobd
