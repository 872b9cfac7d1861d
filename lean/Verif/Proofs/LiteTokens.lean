import Verif.Proofs.LiteUpload
set_option autoImplicit false
/-! # How often an upload is committed -/
namespace Blobd
namespace Lite
open Spec Upload

/-- the ids handed out -/
def Ev.new : Ev → List Nat
  | .created _ id _ => [id]
  | _ => []

structure Toks (evs : List Ev) (a : Abs) : Prop where
  made : ∀ k, ∀ v ∈ a k, (∃ n, Ev.created k v.id n ∈ evs) ∧ (v.committed = true ↔ Ev.committed k v.id ∈ evs)
  all : ∀ k id n, Ev.created k id n ∈ evs → Ev.committed k id ∉ evs → ∃ v ∈ a k, v.id = id
  com : ∀ k id, Ev.committed k id ∈ evs → ∃ n, Ev.created k id n ∈ evs

theorem set_same (a : Abs) (k : List Byte) (l : List Ver) : a.set k l k = l := by simp [Abs.set]
theorem set_other (a : Abs) {k k' : List Byte} (l : List Ver) (h : k' ≠ k) : a.set k l k' = a k' := by simp [Abs.set, h]

theorem Toks.same {evs : List Ev} {a : Abs} (h : Toks evs a) {e : Ev} (h1 : ∀ k id n, e ≠ .created k id n) (h2 : ∀ k id, e ≠ .committed k id) :
    Toks (evs ++ [e]) a := by
  have m1 : ∀ k id n, Ev.created k id n ∈ evs ++ [e] ↔ Ev.created k id n ∈ evs := by
    intro k id n
    rw [List.mem_append, List.mem_singleton]
    exact ⟨fun h => h.elim (fun h => h) (fun h => absurd h.symm (h1 k id n)), .inl⟩
  have m2 : ∀ k id, Ev.committed k id ∈ evs ++ [e] ↔ Ev.committed k id ∈ evs := by
    intro k id
    rw [List.mem_append, List.mem_singleton]
    exact ⟨fun h => h.elim (fun h => h) (fun h => absurd h.symm (h2 k id)), .inl⟩
  refine ⟨?_, ?_, ?_⟩
  · intro k v hv
    simp only [m1, m2]
    exact h.made k v hv
  · intro k id n
    rw [m1, m2]
    exact h.all k id n
  · intro k id
    simp only [m1, m2]
    exact h.com k id

theorem toks_of {vs : Bool} {evs : List Ev} : ∀ {a : Abs}, absRun vs evs = some a → (evs.flatMap Ev.new).Nodup → Toks evs a := by
  induction evs using List.reverseRecOn with
  | nil =>
    intro a h _
    cases h
    exact ⟨(fun k v hv => by cases hv), (fun k id n h => by cases h), (fun k id h => by cases h)⟩
  | append_singleton evs e ih =>
    intro a' h hn
    obtain ⟨a, h1, h2⟩ := absRun_snoc' h
    rw [List.flatMap_append, List.nodup_append] at hn
    have ih := ih h1 hn.1
    cases e with
    | created k0 id0 n0 =>
      simp only [absStep, Option.some.injEq] at h2
      subst h2
      have hfresh : ∀ k n, Ev.created k id0 n ∉ evs := by
        intro k n hm
        exact hn.2.2 id0 (List.mem_flatMap.2 ⟨_, hm, by simp [Ev.new]⟩) id0 (by simp [Ev.new]) rfl
      refine ⟨?_, ?_, ?_⟩
      · intro k v hv
        have old : v ∈ a k → (∃ n, Ev.created k v.id n ∈ evs ++ [Ev.created k0 id0 n0]) ∧
            (v.committed = true ↔ Ev.committed k v.id ∈ evs ++ [Ev.created k0 id0 n0]) := by
          intro hv
          obtain ⟨⟨n, g1⟩, g2⟩ := ih.made k v hv
          exact ⟨⟨n, by simp [g1]⟩, by simp [g2]⟩
        by_cases e : k = k0
        · subst e
          rw [set_same, List.mem_cons] at hv
          rcases hv with rfl | hv
          · refine ⟨⟨n0, by simp⟩, ?_⟩
            simp only [List.mem_append, List.mem_singleton, Bool.false_eq_true, false_iff, reduceCtorEq, or_false]
            intro hm
            obtain ⟨n, hm⟩ := ih.com _ _ hm
            exact hfresh _ _ hm
          · exact old hv
        · rw [set_other _ _ e] at hv
          exact old hv
      · intro k id n hm hnc
        simp only [List.mem_append, List.mem_singleton, reduceCtorEq, or_false] at hm hnc
        by_cases e : k = k0
        · subst e
          rw [set_same]
          rcases hm with hm | hm
          · obtain ⟨v, g1, g2⟩ := ih.all k id n hm hnc
            exact ⟨v, List.mem_cons_of_mem _ g1, g2⟩
          · simp only [Ev.created.injEq, true_and] at hm
            exact ⟨_, List.mem_cons_self .., hm.1.symm⟩
        · rw [set_other _ _ e]
          rcases hm with hm | hm
          · exact ih.all k id n hm hnc
          · simp only [Ev.created.injEq] at hm
            exact absurd hm.1 e
      · intro k id hm
        simp only [List.mem_append, List.mem_singleton, reduceCtorEq, or_false] at hm
        obtain ⟨n, hm⟩ := ih.com k id hm
        exact ⟨n, by simp [hm]⟩
    | committed k0 id0 =>
      simp only [absStep] at h2
      split at h2
      · rename_i hinc
        cases h2
        obtain ⟨v0, hv0⟩ := Option.isSome_iff_exists.1 hinc
        have m0 := List.mem_of_find?_eq_some hv0
        have p0 := List.find?_some hv0
        simp only [Bool.and_eq_true, Bool.not_eq_true', beq_iff_eq] at p0
        obtain ⟨p1, p2⟩ := p0
        refine ⟨?_, ?_, ?_⟩
        · intro k v hv
          by_cases e : k = k0
          · subst e
            rw [set_same] at hv
            obtain ⟨u, hu, rfl⟩ := List.mem_map.1 hv
            have hu := (List.mem_filter.1 hu).1
            obtain ⟨⟨n, g1⟩, g2⟩ := ih.made k u hu
            by_cases e : u.id = id0
            · rw [if_pos e]
              refine ⟨⟨n, by simp [g1]⟩, ?_⟩
              simp [e]
            · rw [if_neg e]
              refine ⟨⟨n, by simp [g1]⟩, ?_⟩
              rw [g2]
              simp [e]
          · rw [set_other _ _ e] at hv
            obtain ⟨⟨n, g1⟩, g2⟩ := ih.made k v hv
            refine ⟨⟨n, by simp [g1]⟩, ?_⟩
            rw [g2]
            simp [e]
        · intro k id n hm hnc
          simp only [List.mem_append, List.mem_singleton, reduceCtorEq, or_false, Ev.committed.injEq, not_or] at hm hnc
          obtain ⟨v, g1, g2⟩ := ih.all k id n hm hnc.1
          by_cases e : k = k0
          · subst e
            rw [set_same]
            have hne : v.id ≠ id0 := by rw [g2]; exact fun e => hnc.2 ⟨rfl, e⟩
            refine ⟨v, List.mem_map.2 ⟨v, List.mem_filter.2 ⟨g1, ?_⟩, if_neg hne⟩, g2⟩
            have : v.committed = false := by
              cases hc : v.committed with
              | false => rfl
              | true => exact absurd ((ih.made k v g1).2.1 hc) (by rw [g2]; exact hnc.1)
            simp [this]
          · rw [set_other _ _ e]
            exact ⟨v, g1, g2⟩
        · intro k id hm
          simp only [List.mem_append, List.mem_singleton, Ev.committed.injEq, reduceCtorEq, or_false] at hm ⊢
          rcases hm with hm | ⟨rfl, rfl⟩
          · exact ih.com k id hm
          · rw [← p2]
            exact (ih.made k v0 m0).1
      · cases h2
    | removed k0 want id0 =>
      simp only [absStep] at h2
      split at h2
      · rename_i w hw
        split at h2
        · rename_i hid
          cases h2
          have hb := ih.same (e := .removed k0 want id0) (by simp) (by simp)
          have m0 := List.mem_of_find?_eq_some hw
          have p0 := List.find?_some hw
          simp only [Bool.and_eq_true] at p0
          have hcm : Ev.committed k0 id0 ∈ evs := by rw [← hid]; exact (ih.made k0 w m0).2.1 p0.1
          refine ⟨?_, ?_, hb.com⟩
          · intro k v hv
            apply hb.made k v
            by_cases e : k = k0
            · subst e
              rw [set_same] at hv
              exact (List.mem_filter.1 hv).1
            · rwa [set_other _ _ e] at hv
          · intro k id n hm hnc
            obtain ⟨v, g1, g2⟩ := hb.all k id n hm hnc
            by_cases e : k = k0
            · subst e
              rw [set_same]
              refine ⟨v, List.mem_filter.2 ⟨g1, ?_⟩, g2⟩
              simp only [decide_not, Bool.not_eq_true', decide_eq_false_iff_not]
              intro e
              apply hnc
              rw [← g2, e]
              simp [hcm]
            · rw [set_other _ _ e]
              exact ⟨v, g1, g2⟩
        · cases h2
      · cases h2
    | found k want id n =>
      simp only [absStep] at h2
      split at h2
      · split at h2
        · cases h2; exact ih.same (by simp) (by simp)
        · cases h2
      · cases h2
    | missing k want =>
      simp only [absStep] at h2
      split at h2
      · cases h2; exact ih.same (by simp) (by simp)
      · cases h2
    | opened k id n =>
      simp only [absStep] at h2
      split at h2
      · split at h2
        · cases h2; exact ih.same (by simp) (by simp)
        · cases h2
      · cases h2
    | refused k id =>
      simp only [absStep] at h2
      split at h2
      · cases h2; exact ih.same (by simp) (by simp)
      · cases h2

theorem news_prefix {pre post : List Ev} (h : ((pre ++ post).flatMap Ev.new).Nodup) : (pre.flatMap Ev.new).Nodup := by
  rw [List.flatMap_append] at h
  exact (List.nodup_append.1 h).1

/-- an upload is committed at most once -/
theorem commit_once {vs : Bool} {pre post : List Ev} {a : Abs} {k : List Byte} {id : Nat} (h : absRun vs (pre ++ .committed k id :: post) = some a)
    (hn : ((pre ++ .committed k id :: post).flatMap Ev.new).Nodup) : ∀ k', Ev.committed k' id ∉ pre := by
  intro k' hm
  obtain ⟨b, b', h1, h2⟩ := absRun_split h
  have t := toks_of h1 (news_prefix hn)
  simp only [absStep] at h2
  split at h2
  · rename_i hinc
    obtain ⟨v, hv⟩ := Option.isSome_iff_exists.1 hinc
    have m0 := List.mem_of_find?_eq_some hv
    have p0 := List.find?_some hv
    simp only [Bool.and_eq_true, Bool.not_eq_true', beq_iff_eq] at p0
    obtain ⟨⟨n, g1⟩, g2⟩ := t.made k v m0
    rw [p0.2] at g1 g2
    obtain ⟨n', g3⟩ := t.com k' id hm
    have : Ev.created k id n = Ev.created k' id n' := by
      obtain ⟨l1, l2, e⟩ := List.append_of_mem g1
      by_contra hne
      rw [e] at g3
      have hnp := news_prefix hn
      rw [e, List.flatMap_append, List.flatMap_cons] at hnp
      simp only [List.mem_append, List.mem_cons] at g3
      rcases g3 with g3 | g3 | g3
      · exact (List.nodup_append.1 hnp).2.2 id (List.mem_flatMap.2 ⟨_, g3, by simp [Ev.new]⟩) id (by simp [Ev.new]) rfl
      · exact hne g3.symm
      · have := (List.nodup_append.1 (List.nodup_append.1 hnp).2.1).2.2 id (by simp [Ev.new]) id (List.mem_flatMap.2 ⟨_, g3, by simp [Ev.new]⟩)
        exact this rfl
    cases this
    rw [g2.2 hm] at p0
    exact absurd p0.1 (by simp)
  · cases h2

/-- it is not refused before -/
theorem refused_after {vs : Bool} {pre post : List Ev} {a : Abs} {k : List Byte} {id n : Nat} (h : absRun vs (pre ++ .refused k id :: post) = some a)
    (hn : ((pre ++ .refused k id :: post).flatMap Ev.new).Nodup) (hm : Ev.created k id n ∈ pre) : Ev.committed k id ∈ pre := by
  obtain ⟨b, b', h1, h2⟩ := absRun_split h
  have t := toks_of h1 (news_prefix hn)
  by_contra hnc
  obtain ⟨v, g1, g2⟩ := t.all k id n hm hnc
  simp only [absStep] at h2
  split at h2
  · rename_i hinc
    simp only [Abs.incomplete, Option.isNone_iff_eq_none, List.find?_eq_none] at hinc
    have := hinc v g1
    have hcf : v.committed = false := by
      cases hc : v.committed with
      | false => rfl
      | true => exact absurd ((t.made k v g1).2.1 hc) (by rw [g2]; exact hnc)
    simp [hcf, g2] at this
  · cases h2

/-- ids are handed out once -/
theorem reach_news {c : LCfg} (hc : c.Ok) {s : LSt} (hr : Reach c s) (hf : s.faults = []) :
    ((s.lin.map (·.2)).flatMap Ev.new).Nodup ∧ ∀ id ∈ (s.lin.map (·.2)).flatMap Ev.new, Settled s id := by
  induction hr with
  | fresh h =>
    have : _ := h
    unfold fresh at h
    split at h
    · cases h; exact ⟨by simp, by simp⟩
    · cases h
  | @step s s' hr hs ih =>
    have ih := ih (step_faults hs hf)
    obtain ⟨i, e, hl, _⟩ := step_lists hc hr hs hf
    obtain ⟨_, v, _, h'⟩ := reach_inv hc (.step hr hs) hf
    have hold : ∀ id ∈ (s.lin.map (·.2)).flatMap Ev.new, Settled s' id := fun id hid => settled_step hs (ih.2 id hid)
    cases e with
    | none =>
      simp only [Option.map_none, Option.toList_none, List.append_nil] at hl
      rw [hl]
      exact ⟨ih.1, hold⟩
    | some e =>
      simp only [Option.map_some, Option.toList_some] at hl
      have hother : e.new = [] → ((s'.lin.map (·.2)).flatMap Ev.new) = (s.lin.map (·.2)).flatMap Ev.new := by
        intro e0
        rw [hl]
        simp [e0]
      cases e with
      | created k id n =>
        have hns := created_settled (reach_ai hr) (reach_ai (.step hr hs)) hs hl
        have hset : Settled s' id := by
          have ha := h'.abs
          rw [hl, List.map_append] at ha
          obtain ⟨b, _, h2⟩ := absRun_snoc' ha
          simp only [absStep, Option.some.injEq] at h2
          have hm : (⟨id, n, false⟩ : Ver) ∈ absOf c v k := by rw [← h2, set_same]; exact List.mem_cons_self ..
          obtain ⟨r, r1, r2⟩ := List.mem_map.1 hm
          have := settled_of h' (linked_of hc h' (List.mem_of_mem_filter r1))
          rwa [show r.o.id = id from congrArg Ver.id r2] at this
        have e1 : ((s'.lin.map (·.2)).flatMap Ev.new) = (s.lin.map (·.2)).flatMap Ev.new ++ [id] := by
          rw [hl]
          simp [Ev.new]
        rw [e1]
        constructor
        · rw [List.nodup_append]
          refine ⟨ih.1, by simp, ?_⟩
          intro x hx y hy e
          rw [List.mem_singleton] at hy
          subst hy
          subst e
          exact hns (ih.2 x hx)
        · intro x hx
          rcases List.mem_append.1 hx with hx | hx
          · exact hold x hx
          · rw [List.mem_singleton] at hx
            subst hx
            exact hset
      | _ =>
        rw [hother rfl]
        exact ⟨ih.1, hold⟩

end Lite
end Blobd
