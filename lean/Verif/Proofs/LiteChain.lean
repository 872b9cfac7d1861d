import Verif.Proofs.LiteSeq
set_option autoImplicit false
/-! # Bucket lists as a walk sees them -/
namespace Blobd
namespace Lite
open Spec

theorem Chain.unique {s : LSt} {h : Nat} {l l' : List Nat} (h1 : Chain s h l) (h2 : Chain s h l') : l = l' := by
  induction h1 generalizing l' with
  | nil => cases h2; rfl; contradiction
  | cons hn _ ih =>
    cases h2 with
    | nil => contradiction
    | cons _ h2 => rw [ih h2]

section
variable {c : LCfg} (hc : c.Ok) {s : LSt} {base : Mem} {v : V} {leak : List (Nat × Nat)} (h : LInv c s base v leak)
include hc h

theorem inode_fields {r : Rec} (hr : (Own.linked, r) ∈ v.recs) :
    rdId s.j.dev r.off = r.o.id ∧ rdKey s.j.dev r.off = r.o.key ∧ rdSize s.j.dev r.off = r.o.size := by
  obtain ⟨_, f2, f3, _, f5⟩ := (dev_at hc h.good (h.geo hc) h.jinv h.L h.U hr).fields (h.good.fit _ hr).1
  exact ⟨f3, f5, f2⟩

theorem nextOf_eq {r : Rec} (hr : (Own.linked, r) ∈ v.recs) : nextOf s r.off = rdNext v.L r.off := by
  unfold nextOf
  rw [(inode_fields hc h hr).1, ← h.ov]
  cases ho : v.ov.map (.next r.o.id) with
  | none =>
    rw [show v.ov.get (.next r.o.id) = none by simp [Overlay.Ov.get, ho]]
    exact dev_next hc h.good (h.geo hc) h.jinv h.L h.U hr ho
  | some p =>
    have hg : v.ov.get (.next r.o.id) = some p.2 := by simp [Overlay.Ov.get, ho]
    rw [hg]
    exact (h.good.cur (.next r.o.id) (r.off + 2) p.2 ⟨r, hr, rfl, rfl⟩ hg).symm

theorem stateOf_eq {r : Rec} (hr : (Own.linked, r) ∈ v.recs) : stateOf s r.off = rdState v.L r.off := by
  unfold stateOf
  rw [(inode_fields hc h hr).1, ← h.ov]
  cases ho : v.ov.map (.state r.o.id) with
  | none =>
    rw [show v.ov.get (.state r.o.id) = none by simp [Overlay.Ov.get, ho]]
    exact dev_state hc h.good (h.geo hc) h.jinv h.L h.U hr ho
  | some p =>
    have hg : v.ov.get (.state r.o.id) = some p.2 := by simp [Overlay.Ov.get, ho]
    rw [hg]
    exact (h.good.cur (.state r.o.id) r.off p.2 ⟨r, hr, rfl, rfl⟩ hg).symm

theorem off_pos {r : Rec} (hr : (Own.linked, r) ∈ v.recs) : r.off ≠ 0 := by
  have := (h.geo hc).off hr
  have := hc.heapPos
  simp only at *
  omega

theorem chain_of {b : Nat} (hb : b < 2 ^ c.bits) : Chain s (getHead c s b) ((v.ch b).map Rec.off) := by
  rw [head_read hc h.good (h.geo hc) h.jinv h.L h.U (s := s) rfl h.ov hb]
  have hs := h.good.chain b hb
  have hm : ∀ r ∈ v.ch b, (Own.linked, r) ∈ v.recs := fun r hr => linked_of hc h hr
  generalize v.ch b = l at hs hm
  generalize rdHead v.L c.bkDev b = hd at hs
  induction l generalizing hd with
  | nil => rw [show hd = 0 from hs]; exact .nil
  | cons r l ih =>
    obtain ⟨e, hs⟩ := hs
    have hr := hm r (by simp)
    rw [e]
    refine .cons (off_pos hc h hr) ?_
    rw [nextOf_eq hc h hr]
    exact ih (fun r' hr' => hm r' (by simp [hr'])) _ hs

theorem chain_eq {b : Nat} (hb : b < 2 ^ c.bits) {l : List Nat} (hl : Chain s (getHead c s b) l) : l = (v.ch b).map Rec.off :=
  hl.unique (chain_of hc h hb)

end

/-- states change only by commits -/
theorem absStep_committed {ver : Bool} {a a' : Abs} {e : Ev} (hs : absStep ver a e = some a') {k : List Byte} {x x' : Ver}
    (hx : x ∈ a k) (hx' : x' ∈ a' k) (he : x.id = x'.id) (hne : ∀ k, e ≠ .committed k x.id)
    (ia : ∀ y ∈ a k, ∀ z ∈ a k, y.id = z.id → y = z) (ia' : ∀ y ∈ a' k, ∀ z ∈ a' k, y.id = z.id → y = z) : x'.committed = x.committed := by
  have same : a' = a → x'.committed = x.committed := by
    intro e
    rw [e] at hx'
    rw [ia x hx x' hx' he]
  cases e with
  | created k' id size =>
    simp only [absStep, Option.some.injEq] at hs
    have : x ∈ a' k := by
      rw [← hs]
      simp only [Abs.set]
      split
      · rename_i e; rw [← e]; exact List.mem_cons_of_mem _ hx
      · exact hx
    rw [ia' x this x' hx' he]
  | removed k' want id =>
    simp only [absStep] at hs
    split at hs
    · split at hs
      · cases hs
        simp only [Abs.set] at hx'
        split at hx'
        · rename_i e
          rw [e] at hx ia
          rw [ia x hx x' (List.mem_of_mem_filter hx') he]
        · rw [ia x hx x' hx' he]
      · cases hs
    · cases hs
  | committed k' id =>
    simp only [absStep] at hs
    split at hs
    · cases hs
      simp only [Abs.set] at hx'
      split at hx'
      · rename_i e
        rw [e] at hx ia
        obtain ⟨y, hy, e2⟩ := List.mem_map.1 hx'
        have hy := List.mem_of_mem_filter hy
        split at e2
        · rename_i hid
          exfalso
          rw [← e2] at he
          exact hne k' (by rw [he]; simp [hid])
        · rw [← e2] at he ⊢
          rw [ia x hx y hy he]
      · rw [ia x hx x' hx' he]
    · cases hs
  | found k' want id size =>
    simp only [absStep] at hs
    split at hs
    · split at hs
      · cases hs; exact same rfl
      · cases hs
    · cases hs
  | missing k' want =>
    simp only [absStep] at hs
    split at hs
    · cases hs; exact same rfl
    · cases hs
  | opened k' id size =>
    simp only [absStep] at hs
    split at hs
    · split at hs
      · cases hs; exact same rfl
      · cases hs
    · cases hs
  | refused k' id =>
    simp only [absStep] at hs
    split at hs
    · cases hs; exact same rfl
    · cases hs

section
variable {c : LCfg}

theorem abs_inj (hc : c.Ok) {s : LSt} {base : Mem} {v : V} {leak : List (Nat × Nat)} (h : LInv c s base v leak) (k : List Byte) :
    ∀ y ∈ absOf c v k, ∀ z ∈ absOf c v k, y.id = z.id → y = z := by
  intro y hy z hz e
  obtain ⟨r, r1, r2⟩ := List.mem_map.1 hy
  obtain ⟨q, q1, q2⟩ := List.mem_map.1 hz
  have hr := linked_of hc h (List.mem_of_mem_filter r1)
  have hq := linked_of hc h (List.mem_of_mem_filter q1)
  rw [← r2, ← q2] at e
  have := h.good.toBase.uniqId hr hq e
  cases this
  rw [← r2, ← q2]

/-- an inode listed before and after a step looks the same, unless the step commits it -/
theorem state_stable (hc : c.Ok) {s s' : LSt} {base base' : Mem} {v v' : V} {leak leak' : List (Nat × Nat)} (h : LInv c s base v leak)
    (h' : LInv c s' base' v' leak') {i : Nat} {e : Option Ev} (hl : s'.lin = s.lin ++ (e.map (fun e => (i, e))).toList) {b : Nat} {r : Rec}
    (hr : r ∈ v.ch b) (hr' : r ∈ v'.ch b) (hne : ∀ k, e ≠ some (.committed k r.o.id)) : stateOf s' r.off = stateOf s r.off := by
  rw [stateOf_eq hc h (linked_of hc h hr), stateOf_eq hc h' (linked_of hc h' hr')]
  have hk := h.good.chb b r hr
  have m1 : ver v.L r ∈ absOf c v r.o.key := List.mem_map.2 ⟨r, List.mem_filter.2 ⟨by rw [hk]; exact hr, by simp⟩, rfl⟩
  have m2 : ver v'.L r ∈ absOf c v' r.o.key := List.mem_map.2 ⟨r, List.mem_filter.2 ⟨by rw [hk]; exact hr', by simp⟩, rfl⟩
  have key : (ver v'.L r).committed = (ver v.L r).committed := by
    cases e with
    | none =>
      have e1 := h'.abs
      simp only [Option.map_none, Option.toList_none, List.append_nil] at hl
      rw [hl, h.abs] at e1
      have e2 : absOf c v = absOf c v' := Option.some.inj e1
      rw [← e2] at m2
      rw [abs_inj hc h _ _ m1 _ m2 rfl]
    | some e =>
      have e1 := h'.abs
      rw [hl] at e1
      simp only [Option.map_some, Option.toList_some, List.map_append, List.map_cons, List.map_nil] at e1
      rw [absRun_snoc h.abs] at e1
      exact absStep_committed e1 m1 m2 rfl (fun k he => hne k (by rw [he]; rfl)) (abs_inj hc h _) (abs_inj hc h' _)
  have s1 := states hc h hr
  have s2 := states hc h' hr'
  simp only [ver] at key
  rcases s1 with s1 | s1 <;> rcases s2 with s2 | s2 <;> rw [s1, s2] at key <;> first | (rw [s1, s2]; done) | (exfalso; simp [stIncomplete, stCommitted] at key)

/-- one step, as the invariant sees it -/
theorem step_rel (hc : c.Ok) {s s' : LSt} (hr : Reach c s) (hs : Step c s s') (hf : s'.faults = []) :
    ∃ base v leak base' v' leak', LInv c s base v leak ∧ LInv c s' base' v' leak' ∧ ChRel c v v' s.lin s'.lin := by
  cases hs with
  | act a ha =>
    obtain ⟨base, v, leak, h⟩ := reach_inv hc hr (act_faults ha hf)
    obtain ⟨b', v', l', h', hrel⟩ := step_act hc h ha hf
    exact ⟨base, v, leak, b', v', l', h, h', hrel⟩
  | journal hj hh =>
    obtain ⟨base, v, leak, h⟩ := reach_inv hc hr hf
    obtain ⟨b', v', h', e⟩ := step_journal hc h hj hh
    exact ⟨base, v, leak, b', v', leak, h, h', .inl ⟨rfl, e⟩⟩

end
end Lite
end Blobd
