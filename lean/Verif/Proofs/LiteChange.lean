import Verif.Proofs.LiteIso
import Verif.Proofs.LiteAbs
set_option autoImplicit false
/-! # How bucket lists change -/
namespace Blobd
namespace Lite
open Spec

section
variable {c : LCfg}

theorem ch_inj (hc : c.Ok) {s : LSt} {base : Mem} {v : V} {leak : List (Nat × Nat)} (h : LInv c s base v leak) {b : Nat} {r r' : Rec}
    (hr : r ∈ v.ch b) (hr' : r' ∈ v.ch b) (e : r.off = r'.off) : r = r' :=
  List.inj_on_of_nodup_map (h.good.chn b) hr hr' e

theorem mem_abs (hc : c.Ok) {s : LSt} {base : Mem} {v : V} {leak : List (Nat × Nat)} (h : LInv c s base v leak) {b : Nat} {r : Rec}
    (hr : r ∈ v.ch b) : ver v.L r ∈ absOf c v r.o.key :=
  List.mem_map.2 ⟨r, List.mem_filter.2 ⟨by rw [h.good.chb b r hr]; exact hr, by simp⟩, rfl⟩

/-- `verAt` is the version in the abstract store -/
theorem verAt_eq (hc : c.Ok) {s : LSt} {base : Mem} {v : V} {leak : List (Nat × Nat)} (h : LInv c s base v leak) {b : Nat} {r : Rec}
    (hr : r ∈ v.ch b) : verAt s r.off = ver v.L r := by
  have hl := linked_of hc h hr
  obtain ⟨e1, e2, e3⟩ := inode_fields hc h hl
  unfold verAt ver
  rw [e1, e3, stateOf_eq hc h hl]

theorem listEff_of (hc : c.Ok) {s s' : LSt} {base base' : Mem} {v v' : V} {leak leak' : List (Nat × Nat)} (h : LInv c s base v leak)
    (h' : LInv c s' base' v' leak') {i : Nat} {e : Ev} (hl : s'.lin = s.lin ++ [(i, e)]) (he : ChEff c v v' e) (b : Nat) :
    ListEff c s s' b ((v.ch b).map Rec.off) ((v'.ch b).map Rec.off) (some e) := by
  have hst : absStep c.versioning (absOf c v) e = some (absOf c v') := by
    have e1 := h'.abs
    rw [hl] at e1
    simp only [List.map_append, List.map_cons, List.map_nil] at e1
    rw [absRun_snoc h.abs] at e1
    exact e1
  cases e with
  | created k id size =>
    obtain ⟨r, r1, r2, r3, r4⟩ := he
    simp only [ListEff]
    split
    · rename_i hb
      subst hb
      have hm : r ∈ v'.ch (c.bkt k) := by rw [r4]; simp [upd]
      refine ⟨r.off, by rw [r4]; simp [upd], ?_, ?_⟩
      · rw [(inode_fields hc h' (linked_of hc h' hm)).2.1]; exact r2
      · rw [verAt_eq hc h' hm]
        simp only [absStep, Option.some.injEq] at hst
        have m1 := mem_abs hc h' hm
        have m2 : (⟨id, size, false⟩ : Ver) ∈ absOf c v' r.o.key := by
          rw [← hst, r2]; simp [Abs.set]
        exact abs_inj hc h' _ _ m1 _ m2 r1
    · rename_i hb
      rw [r4]; simp [upd, hb]
  | removed k want id =>
    obtain ⟨pre, r, post, r1, r2, r3, r4⟩ := he
    simp only [ListEff]
    split
    · rename_i hb
      subst hb
      have hm : r ∈ v.ch (c.bkt k) := by rw [r1]; simp
      have hlk := linked_of hc h hm
      obtain ⟨f1, f2, f3⟩ := inode_fields hc h hlk
      refine ⟨pre.map Rec.off, r.off, post.map Rec.off, by rw [r1]; simp, by rw [r4]; simp [upd], by rw [f2]; exact r3, by rw [f1]; exact r2, ?_⟩
      rw [stateOf_eq hc h hlk]
      simp only [absStep] at hst
      split at hst
      · rename_i u hu
        split at hst
        · rename_i hid
          obtain ⟨u1, u2, _⟩ := find_some hu
          have m1 := mem_abs hc h hm
          rw [r3] at m1
          have := abs_inj hc h _ _ m1 _ u1 (by rw [hid]; exact r2)
          rw [← this] at u2
          simpa [ver] using u2
        · cases hst
      · cases hst
    · rename_i hb
      rw [r4]; simp [upd, hb]
  | committed k id =>
    simp only [ListEff]
    rcases he with he | ⟨pre, r, post, r1, r2, r3, r4, r5⟩
    · rw [he]; split <;> simp
    · split
      · rename_i hb
        subst hb
        have hm : r ∈ v.ch (c.bkt k) := by rw [r1]; simp
        have hlk := linked_of hc h hm
        obtain ⟨f1, f2, f3⟩ := inode_fields hc h hlk
        refine .inr ⟨r4, pre.map Rec.off, r.off, post.map Rec.off, by rw [r1]; simp, by rw [r5]; simp [upd], by rw [f2]; exact r2, ?_, ?_⟩
        · rw [f1]
          intro hid
          simp only [absStep] at hst
          split at hst
          · rename_i hi
            obtain ⟨u, hu⟩ := Option.isSome_iff_exists.1 hi
            unfold Abs.incomplete at hu
            have u1 := List.mem_of_find?_eq_some hu
            have u2 := List.find?_some hu
            simp only [Bool.and_eq_true, Bool.not_eq_true', beq_iff_eq] at u2
            have m1 := mem_abs hc h hm
            rw [r2] at m1
            have := abs_inj hc h _ _ m1 _ u1 (by rw [u2.2]; exact hid)
            rw [← this] at u2
            simp [ver, r3] at u2
          · cases hst
        · rw [stateOf_eq hc h hlk]; exact r3
      · rename_i hb
        rw [r5]; simp [upd, hb]
  | found k want id size => simp only [ListEff]; rw [show v'.ch = v.ch from he]
  | missing k want => simp only [ListEff]; rw [show v'.ch = v.ch from he]
  | opened k id size => simp only [ListEff]; rw [show v'.ch = v.ch from he]
  | refused k id => simp only [ListEff]; rw [show v'.ch = v.ch from he]

theorem ch_sub {v v' : V} {e : Ev} (he : ChEff c v v' e) (b : Nat) : (∀ r ∈ v'.ch b, r ∈ v.ch b) ∨ ∀ r ∈ v.ch b, r ∈ v'.ch b := by
  have cut : ∀ k, (∃ pre r post, v.ch (c.bkt k) = pre ++ r :: post ∧ v'.ch = upd v.ch (c.bkt k) (pre ++ post)) → ∀ r ∈ v'.ch b, r ∈ v.ch b := by
    rintro k ⟨pre, r, post, r1, r2⟩ q hq
    rw [r2] at hq
    simp only [upd] at hq
    split at hq
    · rename_i hb
      rw [hb, r1]
      simp only [List.mem_append, List.mem_cons] at hq ⊢
      tauto
    · exact hq
  have same : v'.ch = v.ch → ∀ r ∈ v'.ch b, r ∈ v.ch b := fun e r hr => by rw [e] at hr; exact hr
  cases e with
  | created k id size =>
    right
    obtain ⟨r, _, _, _, r4⟩ := he
    intro q hq
    rw [r4]
    simp only [upd]
    split
    · rename_i hb
      rw [hb] at hq
      exact List.mem_cons_of_mem _ hq
    · exact hq
  | removed k want id =>
    obtain ⟨pre, r, post, r1, _, _, r4⟩ := he
    exact .inl (cut k ⟨pre, r, post, r1, r4⟩)
  | committed k id =>
    rcases he with he | ⟨pre, r, post, r1, _, _, _, r4⟩
    · exact .inl (same he)
    · exact .inl (cut k ⟨pre, r, post, r1, r4⟩)
  | found k want id size => exact .inl (same he)
  | missing k want => exact .inl (same he)
  | opened k id size => exact .inl (same he)
  | refused k id => exact .inl (same he)

/-- what one step does to every bucket -/
theorem step_lists (hc : c.Ok) {s s' : LSt} (hr : Reach c s) (hs : Step c s s') (hf : s'.faults = []) :
    ∃ (i : Nat) (e : Option Ev), s'.lin = s.lin ++ (e.map (fun e => (i, e))).toList ∧ ∀ b, b < 2 ^ c.bits → ∃ l l', Chain s (getHead c s b) l ∧
      Chain s' (getHead c s' b) l' ∧ ListEff c s s' b l l' e ∧ ∀ off ∈ l, off ∈ l' → InodeSame s s' off e := by
  obtain ⟨base, v, leak, base', v', leak', h, h', hrel⟩ := step_rel hc hr hs hf
  have same : ∀ (i : Nat) (e : Option Ev), s'.lin = s.lin ++ (e.map (fun e => (i, e))).toList → ∀ b,
      ((∀ r ∈ v'.ch b, r ∈ v.ch b) ∨ ∀ r ∈ v.ch b, r ∈ v'.ch b) → ∀ off ∈ (v.ch b).map Rec.off, off ∈ (v'.ch b).map Rec.off → InodeSame s s' off e := by
    intro i e hl b hsub off ho ho'
    obtain ⟨r, r1, r2⟩ := List.mem_map.1 ho
    obtain ⟨r', q1, q2⟩ := List.mem_map.1 ho'
    have hrr : r = r' := by
      rcases hsub with hsub | hsub
      · exact ch_inj hc h r1 (hsub r' q1) (by rw [r2, q2])
      · exact ch_inj hc h' (hsub r r1) q1 (by rw [r2, q2])
    subst hrr
    subst r2
    obtain ⟨f1, f2, f3⟩ := inode_fields hc h (linked_of hc h r1)
    obtain ⟨g1, g2, g3⟩ := inode_fields hc h' (linked_of hc h' q1)
    refine ⟨by rw [f2, g2], by rw [f1, g1], by rw [f3, g3], ?_⟩
    rw [f1]
    intro hne
    exact state_stable hc h h' hl r1 q1 hne
  rcases hrel with ⟨hl, hch⟩ | ⟨i, e, hl, he⟩
  · refine ⟨0, none, by simp [hl], ?_⟩
    intro b hb
    refine ⟨_, _, chain_of hc h hb, chain_of hc h' hb, by rw [hch]; rfl, same 0 none (by simp [hl]) b (.inl (fun r hr => by rw [hch] at hr; exact hr))⟩
  · refine ⟨i, some e, hl, ?_⟩
    intro b hb
    exact ⟨_, _, chain_of hc h hb, chain_of hc h' hb, listEff_of hc h h' hl he b, same i (some e) hl b (ch_sub he b)⟩

/-- the lists hold exactly the versions of the abstract store -/
theorem lists_abs (hc : c.Ok) {s : LSt} (hr : Reach c s) (hf : s.faults = []) {b : Nat} (hb : b < 2 ^ c.bits) :
    ∃ l, Chain s (getHead c s b) l ∧ l.Nodup ∧ (∀ off ∈ l, c.bkt (rdKey s.j.dev off) = b) ∧
      ∀ a, absRun c.versioning (s.lin.map (·.2)) = some a → ∀ k, c.bkt k = b →
        (l.filter (fun off => rdKey s.j.dev off = k)).map (verAt s) = a k := by
  obtain ⟨base, v, leak, h⟩ := reach_inv hc hr hf
  refine ⟨_, chain_of hc h hb, h.good.chn b, ?_, ?_⟩
  · intro off ho
    obtain ⟨r, r1, r2⟩ := List.mem_map.1 ho
    subst r2
    rw [(inode_fields hc h (linked_of hc h r1)).2.1]
    exact h.good.chb b r r1
  · intro a ha k hk
    rw [h.abs, Option.some.injEq] at ha
    subst ha
    unfold absOf
    rw [hk]
    have hm : ∀ r ∈ v.ch b, rdKey s.j.dev r.off = r.o.key ∧ verAt s r.off = ver v.L r := fun r hr =>
      ⟨(inode_fields hc h (linked_of hc h hr)).2.1, verAt_eq hc h hr⟩
    generalize v.ch b = l at hm
    induction l with
    | nil => rfl
    | cons r l ih =>
      have h1 := hm r (by simp)
      have ih := ih (fun r hr => hm r (by simp [hr]))
      simp only [List.map_cons, List.filter_cons, h1.1]
      split
      · simp only [List.map_cons, h1.2, ih]
      · exact ih

/-! ## Objects in use, and their bytes -/

/-- a listed or leaving inode is a record -/
theorem rec_of (hc : c.Ok) {s : LSt} {base : Mem} {v : V} {leak : List (Nat × Nat)} (h : LInv c s base v leak) {off : Nat} :
    (Listed c s off → ∃ r, r.off = off ∧ (Own.linked, r) ∈ v.recs) ∧ (Leaving s off → ∃ i r, r.off = off ∧ (Own.dying i, r) ∈ v.recs) := by
  constructor
  · rintro ⟨b, hb, l, hl, hm⟩
    rw [chain_eq hc h hb hl] at hm
    obtain ⟨r, r1, r2⟩ := List.mem_map.1 hm
    exact ⟨r, r2, linked_of hc h r1⟩
  · rintro ⟨i, st, txn, free, tks, resp, pow2, ht, hg⟩
    rcases ((h.thr i _ ht).2).2 with hfr | ⟨r, r1, r2, _⟩
    · rw [hfr] at hg; cases hg
    · refine ⟨i, r, ?_, r1⟩
      rw [r2] at hg
      unfold regs at hg
      simp only [List.getLast?_concat, Option.some.injEq, Prod.mk.injEq] at hg
      exact hg.1

/-- the record of any object `create` has finished is on the device -/
theorem at_any (hc : c.Ok) {s : LSt} {base : Mem} {v : V} {leak : List (Nat × Nat)} (h : LInv c s base v leak) {own : Own} {r : Rec}
    (hr : (own, r) ∈ v.recs) (hat : At r.o v.L r.off) : At r.o s.j.dev r.off := by
  refine hat.congr ?_
  intro y h1 h2
  have := (h.good.fit _ hr).1.room
  exact dev_fixed hc h.good (h.geo hc) h.jinv h.L h.U hr h1 (by simp only at this ⊢; omega)

theorem dataAt_eq (hc : c.Ok) {r : Rec} {m : Mem} (h : At r.o m r.off) (hf : RecFits c.pages r.o) : dataAt c m r.off = dataPgs c.pages r.o := by
  obtain ⟨lay, hs⟩ := hf.shaped
  unfold dataAt
  rw [(h.fields hf).2.1, hs.eq]
  exact (h.rwPages hc.rw hf hs.eq).1

end
end Lite
end Blobd
