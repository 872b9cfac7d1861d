import Verif.Proofs.LiteReopen
import Verif.Spec.LiteStart
import Verif.Props.LiteSpace
set_option autoImplicit false
/-! # What startup of a lite store marks as used -/
namespace Blobd
namespace Lite
open Spec

/-- the pages startup marks are those of the contents -/
theorem loadPages_data {c : LCfg} (hc : c.Ok) {m : Mem} {cur : Nat} {lay : ObjectLayout} (h : calcObjectLayout c.pages (rdSize m cur) = some lay) :
    loadPages c m cur lay = dataAt c m cur := by
  obtain ⟨es, hly⟩ := RW.layInfo_of hc.rw h
  unfold loadPages dataAt
  rw [h]
  simp only [RW.objPages, rwObj]
  rw [hly.rep.toIter, hly.rep.toList, List.map_map]
  rfl

theorem marks_inv {c : HeapCfg} {ps : List (Nat × Nat)} : ∀ {a a' : Buddy} {live : List (Nat × Nat)}, Buddy.Inv c a live → (∀ p ∈ ps, c.base ≤ p.1) →
    ps.foldlM (fun (a : Buddy) (p : Nat × Nat) => a.markAsAllocated p.1 p.2) a = some a' → Buddy.Inv c a' (live ++ ps) := by
  induction ps with
  | nil => intro a a' live h _ he; cases he; simpa using h
  | cons p ps ih =>
    intro a a' live h hb he
    simp only [List.foldlM_cons, Option.bind_eq_bind, Option.bind_eq_some_iff] at he
    obtain ⟨a1, h1, h2⟩ := he
    obtain ⟨g1, g2, g3, g4⟩ := h.mark_conv p.1 p.2 (hb p (by simp)) h1
    obtain ⟨a2, g5, g6, _⟩ := h.mark p.1 p.2 g1 g2 g3 g4
    rw [h1] at g5
    cases g5
    have := ih g6 (fun q hq => hb q (by simp [hq])) h2
    refine this.perm ?_
    exact (List.perm_middle (a := p) (l₁ := live) (l₂ := ps)).symm

structure LoadInv (c : LCfg) (m : Mem) (cs : List Nat) (a : Buddy) (done : List Nat) : Prop where
  inv : Buddy.Inv c.heap a (done.flatMap (dataAt c m))
  seen : ∀ x ∈ done, Visited c m x
  todo : ∀ x ∈ cs, x = 0 ∨ Visited c m x
  heads : ∀ b, b < 2 ^ c.bits → rdHeadAtStartup m c.bkDev b ≠ 0 → rdHeadAtStartup m c.bkDev b ∈ done ∨ rdHeadAtStartup m c.bkDev b ∈ cs
  nexts : ∀ x ∈ done, rdNext m x ∈ done ∨ rdNext m x ∈ cs

theorem loadInode_some {c : LCfg} (hc : c.Ok) {m : Mem} {cur nx : Nat} {a a' : Buddy} (h : loadInode c m cur a = some (a', nx)) :
    (dataAt c m cur).foldlM (fun (a : Buddy) (p : Nat × Nat) => a.markAsAllocated p.1 p.2) a = some a' ∧ nx = rdNext m cur := by
  unfold loadInode at h
  cases e : calcObjectLayout c.pages (rdSize m cur) with
  | none => rw [e] at h; cases h
  | some lay =>
    rw [e] at h
    simp only at h
    split at h
    · rw [loadPages_data hc e] at h
      obtain ⟨x, h1, h2⟩ := Option.map_eq_some_iff.1 h
      simp only [Prod.mk.injEq] at h2
      exact ⟨by rw [h1, h2.1], h2.2.symm⟩
    · cases h

theorem load_run {c : LCfg} (hc : c.Ok) {m : Mem} (hb : ∀ x, Visited c m x → ∀ p ∈ dataAt c m x, c.heap.base ≤ p.1) {x y : List Nat × Buddy}
    (h : LoadRun c m x y) : ∀ {done : List Nat}, LoadInv c m x.1 x.2 done → ∃ done', LoadInv c m y.1 y.2 done' := by
  induction h with
  | refl => exact fun h => ⟨_, h⟩
  | step _ hs ih =>
    intro done hi
    obtain ⟨done, hi⟩ := ih hi
    cases hs with
    | @inode pre post cur nx a a' h0 h =>
      obtain ⟨h1, rfl⟩ := loadInode_some hc h
      have hv : Visited c m cur := (hi.todo cur (by simp)).resolve_left h0
      refine ⟨done ++ [cur], ?_, ?_, ?_, ?_, ?_⟩
      · have := marks_inv hi.inv (hb cur hv) h1
        simpa using this
      · intro x hx
        rcases List.mem_append.1 hx with hx | hx
        · exact hi.seen x hx
        · rw [List.mem_singleton] at hx; exact hx ▸ hv
      · intro x hx
        simp only [List.mem_append, List.mem_cons] at hx
        rcases hx with hx | rfl | hx
        · exact hi.todo x (by simp [hx])
        · by_cases e : rdNext m cur = 0
          · exact .inl e
          · exact .inr (.next hv e)
        · exact hi.todo x (by simp [hx])
      · intro b hb hne
        have := hi.heads b hb hne
        simp only [List.mem_append, List.mem_cons, List.not_mem_nil, or_false] at this ⊢
        tauto
      · intro x hx
        simp only [List.mem_append, List.mem_cons, List.not_mem_nil, or_false] at hx ⊢
        rcases hx with hx | rfl
        · have := hi.nexts x hx
          simp only [List.mem_append, List.mem_cons] at this
          tauto
        · tauto

theorem opens_inv {c : LCfg} (hc : c.Ok) {m : Mem} {a : Buddy} (h : Opens c m a)
    (hb : ∀ x, Visited c m x → ∀ p ∈ dataAt c m x, c.heap.base ≤ p.1) :
    ∃ offs : List Nat, (∀ x, x ∈ offs → Visited c m x) ∧ (∀ x, Visited c m x → x ∈ offs) ∧ Buddy.Inv c.heap a (offs.flatMap (dataAt c m)) := by
  obtain ⟨a0, cs, h1, h2, h3⟩ := h
  have h0 : LoadInv c m (loadHeads c m) a0 [] := by
    refine ⟨by simpa using Buddy.new_inv h1, by simp, ?_, ?_, by simp⟩
    · intro x hx
      obtain ⟨g1, g2⟩ := List.mem_filter.1 hx
      obtain ⟨b, g3, rfl⟩ := List.mem_map.1 g1
      exact .inr (.first (List.mem_range.1 g3) (by simpa using g2))
    · intro b hb hne
      right
      exact List.mem_filter.2 ⟨List.mem_map.2 ⟨b, List.mem_range.2 hb, rfl⟩, by simpa using hne⟩
  obtain ⟨done, hi⟩ := load_run hc hb h2 h0
  refine ⟨done, hi.seen, ?_, hi.inv⟩
  intro x hx
  induction hx with
  | first hb hne => exact (hi.heads _ hb hne).resolve_right (fun h => hne (h3 _ h))
  | next _ hne ih => exact (hi.nexts _ ih).resolve_right (fun h => hne (h3 _ h))

end Lite
end Blobd
