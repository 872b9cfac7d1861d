import Verif.Spec.LiteVersions
import Verif.Proofs.LitePending
/-!
# Proofs about versioning (C85)
-/
set_option autoImplicit false
namespace Blobd
namespace Lite

theorem versions_snoc (evs : List Ev) (e : Ev) (key : List Byte) : versions (evs ++ [e]) key = (match e with
    | .committed k id => if k = key then versions evs key ++ [id] else versions evs key
    | .removed k _ id => if k = key then (versions evs key).filter (· ≠ id) else versions evs key
    | _ => versions evs key) := by
  unfold versions
  rw [List.foldl_append]
  rfl

theorem madeFor_snoc (evs : List Ev) (e : Ev) (key : List Byte) : madeFor (evs ++ [e]) key = (match e with
    | .created k id _ => if k = key then madeFor evs key ++ [id] else madeFor evs key
    | _ => madeFor evs key) := by
  unfold madeFor
  rw [List.filterMap_append]
  cases e with
  | created k id n =>
    by_cases h : k = key
    · simp [h]
    · simp [h]
  | _ => simp

/-- an event that leaves the abstract store as it is -/
theorem absStep_id {vs : Bool} {a b : Abs} {e : Ev} (h : absStep vs a e = some b)
    (he : (∀ k id n, e ≠ .created k id n) ∧ (∀ k id, e ≠ .committed k id) ∧ ∀ k w id, e ≠ .removed k w id) : b = a := by
  cases e with
  | created k id n => exact absurd rfl (he.1 k id n)
  | committed k id => exact absurd rfl (he.2.1 k id)
  | removed k w id => exact absurd rfl (he.2.2 k w id)
  | found k want id size =>
    simp only [absStep] at h
    split at h
    · split at h <;> cases h
      rfl
    · cases h
  | missing k want =>
    simp only [absStep] at h
    split at h <;> cases h
    rfl
  | opened k id size =>
    simp only [absStep] at h
    split at h
    · split at h <;> cases h
      rfl
    · cases h
  | refused k id =>
    simp only [absStep] at h
    split at h <;> cases h
    rfl

theorem absStep_commit {a b : Abs} {k : List Byte} {id : Nat} (h : absStep true a (.committed k id) = some b) :
    (∃ v ∈ a k, v.committed = false ∧ v.id = id) ∧ b = a.set k ((a k).map fun v => if v.id = id then { v with committed := true } else v) := by
  simp only [absStep] at h
  split at h
  · rename_i hi
    injection h with h
    obtain ⟨v, hv⟩ := Option.isSome_iff_exists.mp hi
    unfold Abs.incomplete at hv
    have h1 := List.find?_some hv
    simp only [Bool.and_eq_true, Bool.not_eq_true', beq_iff_eq] at h1
    refine ⟨⟨v, List.mem_of_find?_eq_some hv, h1.1, h1.2⟩, ?_⟩
    rw [← h]
    congr 1
    rw [show (fun v : Ver => true || !v.committed) = fun _ => true from by funext v; rfl, List.filter_true]
  · cases h

theorem absStep_remove {vs : Bool} {a b : Abs} {k : List Byte} {w : Option Nat} {id : Nat} (h : absStep vs a (.removed k w id) = some b) :
    b = a.set k ((a k).filter fun v => v.id ≠ id) := by
  simp only [absStep] at h
  split at h
  · split at h
    · injection h with h; exact h.symm
    · cases h
  · cases h

/-- the committed versions of the abstract store are the versions there should be -/
theorem versions_mem {evs : List Ev} : ∀ {a : Abs}, absRun true evs = some a → ∀ k id,
    id ∈ versions evs k ↔ ∃ v ∈ a k, v.committed = true ∧ v.id = id := by
  induction evs using List.reverseRecOn with
  | nil => intro a h k id; cases h; simp [versions]
  | append_singleton evs e ih =>
    intro a h k id
    obtain ⟨a0, h0, h1⟩ := absRun_snoc' h
    have ih := ih h0 k id
    rw [versions_snoc]
    cases e with
    | created k' id' n =>
      cases h1
      rw [ih]
      unfold Abs.set
      by_cases hk : k = k'
      · subst hk
        simp
      · rw [if_neg hk]
    | committed k' id' =>
      obtain ⟨⟨v, hv, hc, hi⟩, rfl⟩ := absStep_commit h1
      unfold Abs.set
      by_cases hk : k' = k
      · subst hk
        simp only [if_true, List.mem_append, List.mem_singleton, ih]
        constructor
        · rintro (⟨u, hu, h2, h3⟩ | rfl)
          · refine ⟨_, List.mem_map.mpr ⟨u, hu, rfl⟩, ?_, ?_⟩
            · split
              · rfl
              · exact h2
            · split
              · exact h3
              · exact h3
          · exact ⟨_, List.mem_map.mpr ⟨v, hv, rfl⟩, by rw [if_pos hi], by rw [if_pos hi]; exact hi⟩
        · rintro ⟨u, hu, h2, h3⟩
          obtain ⟨w, hw, rfl⟩ := List.mem_map.mp hu
          by_cases he : w.id = id'
          · rw [if_pos he] at h3; exact .inr (by rw [← h3]; exact he)
          · rw [if_neg he] at h2 h3; exact .inl ⟨w, hw, h2, h3⟩
      · have hk' : ¬ k = k' := fun e => hk e.symm
        simp only [if_neg hk, if_neg hk']
        exact ih
    | removed k' w id' =>
      rw [absStep_remove h1]
      unfold Abs.set
      by_cases hk : k' = k
      · subst hk
        simp only [if_true, List.mem_filter, decide_eq_true_eq]
        rw [ih]
        constructor
        · rintro ⟨⟨u, hu, h2, h3⟩, h4⟩; exact ⟨u, ⟨hu, by rw [h3]; exact h4⟩, h2, h3⟩
        · rintro ⟨u, ⟨hu, h4⟩, h2, h3⟩; exact ⟨⟨u, hu, h2, h3⟩, by rw [← h3]; exact h4⟩
      · have hk' : ¬ k = k' := fun e => hk e.symm
        simp only [if_neg hk, if_neg hk']
        exact ih
    | found k' want id' size => rw [absStep_id h1 ⟨by simp, by simp, by simp⟩]; exact ih
    | missing k' want => rw [absStep_id h1 ⟨by simp, by simp, by simp⟩]; exact ih
    | opened k' id' size => rw [absStep_id h1 ⟨by simp, by simp, by simp⟩]; exact ih
    | refused k' id' => rw [absStep_id h1 ⟨by simp, by simp, by simp⟩]; exact ih

/-- versions are listed newest creation first -/
theorem abs_made_order {vs : Bool} {evs : List Ev} : ∀ {a : Abs}, absRun vs evs = some a → ∀ k,
    ((a k).map (·.id)).Sublist (madeFor evs k).reverse := by
  induction evs using List.reverseRecOn with
  | nil => intro a h k; cases h; simp [madeFor]
  | append_singleton evs e ih =>
    intro a h k
    obtain ⟨a0, h0, h1⟩ := absRun_snoc' h
    have ih := ih h0 k
    rw [madeFor_snoc]
    cases e with
    | created k' id' n =>
      cases h1
      unfold Abs.set
      by_cases hk : k' = k
      · subst hk
        simp only [if_true, List.map_cons, List.reverse_append, List.reverse_singleton, List.singleton_append]
        exact ih.cons_cons _
      · have hk' : ¬ k = k' := fun e => hk e.symm
        simp only [if_neg hk, if_neg hk']
        exact ih
    | committed k' id' =>
      simp only [absStep] at h1
      split at h1
      · injection h1 with h1
        subst h1
        unfold Abs.set
        by_cases hk : k = k'
        · subst hk
          rw [if_pos rfl, List.map_map, show ((fun v : Ver => v.id) ∘ fun v => if v.id = id' then { v with committed := true } else v) = fun v => v.id
            from by funext v; simp only [Function.comp]; split <;> rfl]
          exact ((List.filter_sublist).map _).trans ih
        · rw [if_neg hk]; exact ih
      · cases h1
    | removed k' w id' =>
      rw [absStep_remove h1]
      unfold Abs.set
      by_cases hk : k = k'
      · subst hk
        rw [if_pos rfl]
        exact ((List.filter_sublist).map _).trans ih
      · rw [if_neg hk]; exact ih
    | found k' want id' size => rw [absStep_id h1 ⟨by simp, by simp, by simp⟩]; exact ih
    | missing k' want => rw [absStep_id h1 ⟨by simp, by simp, by simp⟩]; exact ih
    | opened k' id' size => rw [absStep_id h1 ⟨by simp, by simp, by simp⟩]; exact ih
    | refused k' id' => rw [absStep_id h1 ⟨by simp, by simp, by simp⟩]; exact ih

theorem madeFor_sub (evs : List Ev) (k : List Byte) : (madeFor evs k).Sublist (evs.flatMap Ev.new) := by
  induction evs with
  | nil => simp [madeFor]
  | cons e evs ih =>
    rw [List.flatMap_cons]
    unfold madeFor at ih ⊢
    rw [List.filterMap_cons]
    cases e with
    | created k' id n =>
      by_cases h : k' = k
      · simp only [if_pos h, Ev.new, List.singleton_append]; exact ih.cons_cons _
      · simp only [if_neg h, Ev.new, List.singleton_append]; exact ih.cons _
    | _ => exact ih

/-- two elements of a list without repetitions come in one order only -/
theorem pair_order {l : List Nat} (hn : l.Nodup) {x y : Nat} (h1 : [x, y].Sublist l) (h2 : [y, x].Sublist l) : False := by
  induction l with
  | nil => cases h1
  | cons c l ih =>
    rw [List.nodup_cons] at hn
    cases h1 with
    | cons _ h1 =>
      cases h2 with
      | cons _ h2 => exact ih hn.2 h1 h2
      | cons_cons _ h2 => exact hn.1 (h1.subset (by simp))
    | cons_cons _ h1 =>
      cases h2 with
      | cons _ h2 => exact hn.1 (h2.subset (by simp))
      | cons_cons _ h2 => exact hn.1 (h1.subset (by simp))

/-- if versions are committed in the order of their creation, the committed versions are listed newest first -/
theorem versions_order {evs : List Ev} {k : List Byte} : ∀ {a : Abs}, (evs.flatMap Ev.new).Nodup → absRun true evs = some a → InOrder evs k →
    ((a k).filter (·.committed)).map (·.id) = (versions evs k).reverse := by
  induction evs using List.reverseRecOn with
  | nil => intro a _ h _; cases h; simp [versions]
  | append_singleton evs e ih =>
    intro a hn h ho
    obtain ⟨a0, h0, h1⟩ := absRun_snoc' h
    have hn0 : (evs.flatMap Ev.new).Nodup := by
      rw [List.flatMap_append] at hn
      exact (List.nodup_append.1 hn).1
    have ho0 : InOrder evs k := by
      intro pre post id he id' hid
      exact ho pre (post ++ [e]) id (by rw [he]; simp) id' hid
    have ih := ih hn0 h0 ho0
    rw [versions_snoc]
    cases e with
    | created k' id' n =>
      cases h1
      unfold Abs.set
      by_cases hk : k = k'
      · subst hk
        rw [if_pos rfl]
        simp [ih]
      · rw [if_neg hk]; exact ih
    | committed k' id' =>
      obtain ⟨⟨v, hv, hc, hi⟩, rfl⟩ := absStep_commit h1
      unfold Abs.set
      by_cases hk : k' = k
      · subst hk
        have hord := ho evs [] id' rfl
        have hnd := abs_ids_nodup hn0 h0 k'
        have hsub := abs_made_order h0 k'
        have hmn : (madeFor evs k').Nodup := hn0.sublist (madeFor_sub evs k')
        have hvm := versions_mem h0 k'
        obtain ⟨p, q, hpq⟩ := List.append_of_mem hv
        simp only [if_true, List.reverse_append, List.reverse_singleton, List.singleton_append, ← ih]
        rw [hpq] at hnd hsub hvm ⊢
        rw [List.map_append, List.map_cons, hi, List.nodup_append, List.nodup_cons] at hnd
        obtain ⟨-, ⟨hq, -⟩, hp⟩ := hnd
        have hp1 : ∀ u ∈ p, u.id ≠ id' := fun u hu he => hp u.id (List.mem_map.mpr ⟨u, hu, rfl⟩) id' (by simp) he
        have hq1 : ∀ u ∈ q, u.id ≠ id' := fun u hu he => hq (List.mem_map.mpr ⟨u, hu, he⟩)
        have hpc : p.filter (·.committed) = [] := by
          rw [List.filter_eq_nil_iff]
          intro u hu huc
          have h2 := hord u.id ((hvm u.id).mpr ⟨u, by simp [hu], huc, rfl⟩)
          have h3 : [u.id, id'].Sublist (madeFor evs k').reverse := by
            refine List.Sublist.trans ?_ hsub
            rw [List.map_append, List.map_cons, hi]
            exact List.Sublist.append (List.singleton_sublist.mpr (List.mem_map.mpr ⟨u, hu, rfl⟩)) ((List.nil_sublist _).cons_cons id')
          have h4 : [id', u.id].Sublist (madeFor evs k') := by
            have := h3.reverse
            simpa using this
          exact pair_order hmn h2 h4
        have hmp : ∀ l : List Ver, (∀ u ∈ l, u.id ≠ id') → l.map (fun v => if v.id = id' then { v with committed := true } else v) = l := by
          intro l hl
          conv => rhs; rw [← List.map_id l]
          exact List.map_congr_left fun u hu => by rw [if_neg (hl u hu)]; rfl
        rw [List.map_append, List.map_cons, hmp p hp1, hmp q hq1, if_pos hi, List.filter_append, List.filter_append, List.filter_cons, List.filter_cons,
          hpc, if_pos rfl, hc]
        simp [hi]
      · have hk' : ¬ k = k' := fun e => hk e.symm
        simp only [if_neg hk, if_neg hk']
        exact ih
    | removed k' w id' =>
      rw [absStep_remove h1]
      unfold Abs.set
      by_cases hk : k' = k
      · subst hk
        simp only [if_true]
        rw [← List.filter_reverse, ← ih, List.filter_map, List.filter_filter, List.filter_filter]
        congr 1
        apply List.filter_congr
        intro u _
        simp [Bool.and_comm]
      · have hk' : ¬ k = k' := fun e => hk e.symm
        simp only [if_neg hk, if_neg hk']
        exact ih
    | found k' want id' size => rw [absStep_id h1 ⟨by simp, by simp, by simp⟩]; exact ih
    | missing k' want => rw [absStep_id h1 ⟨by simp, by simp, by simp⟩]; exact ih
    | opened k' id' size => rw [absStep_id h1 ⟨by simp, by simp, by simp⟩]; exact ih
    | refused k' id' => rw [absStep_id h1 ⟨by simp, by simp, by simp⟩]; exact ih

end Lite
end Blobd
