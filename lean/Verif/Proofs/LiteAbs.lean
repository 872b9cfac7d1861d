import Verif.Proofs.LiteChain
set_option autoImplicit false
/-! # The abstract lite store -/
namespace Blobd
namespace Lite

theorem absRun_split {vs : Bool} {pre post : List Ev} {e : Ev} {a : Abs} (h : absRun vs (pre ++ e :: post) = some a) :
    ∃ b b', absRun vs pre = some b ∧ absStep vs b e = some b' := by
  unfold absRun at h ⊢
  rw [List.foldlM_append] at h
  simp only [List.foldlM_cons, Option.bind_eq_bind, Option.bind_eq_some_iff] at h
  obtain ⟨b, h1, b', h2, _⟩ := h
  exact ⟨b, b', h1, h2⟩

theorem absRun_snoc' {vs : Bool} {evs : List Ev} {e : Ev} {a : Abs} (h : absRun vs (evs ++ [e]) = some a) :
    ∃ b, absRun vs evs = some b ∧ absStep vs b e = some a := by
  obtain ⟨b, b', h1, h2⟩ := absRun_split h
  have := absRun_snoc h1 e
  rw [h] at this
  exact ⟨b, h1, this.symm⟩

/-- the two ways an event can act on the versions of its key -/
theorem absStep_key {vs : Bool} {a a' : Abs} {e : Ev} (h : absStep vs a e = some a') : (∀ k, k ≠ e.key → a' k = a k) ∧
    ∀ b : Abs, b e.key = a e.key → ∃ b', absStep vs b e = some b' ∧ b' e.key = a' e.key := by
  cases e with
  | created k id size =>
    simp only [absStep, Option.some.injEq] at h
    subst h
    refine ⟨fun k' hk => by simp [Abs.set, show k' ≠ k from hk], fun b hb => ⟨_, rfl, ?_⟩⟩
    simp only [Ev.key] at hb
    simp [Abs.set, Ev.key, hb]
  | committed k id =>
    simp only [absStep] at h
    split at h
    · rename_i hi
      cases h
      refine ⟨fun k' hk => by simp [Abs.set, show k' ≠ k from hk], fun b hb => ?_⟩
      simp only [Ev.key] at hb
      simp only [absStep]
      rw [if_pos (by simpa only [Abs.incomplete, hb] using hi)]
      exact ⟨_, rfl, by simp [Abs.set, Ev.key, hb]⟩
    · cases h
  | removed k want id =>
    simp only [absStep] at h
    split at h
    · rename_i v hv
      split at h
      · rename_i hi
        cases h
        refine ⟨fun k' hk => by simp [Abs.set, show k' ≠ k from hk], fun b hb => ?_⟩
        simp only [Ev.key] at hb
        have hv' : b.find k want = some v := by simpa only [Abs.find, hb] using hv
        simp only [absStep, hv', if_pos hi]
        exact ⟨_, rfl, by simp [Abs.set, Ev.key, hb]⟩
      · cases h
    · cases h
  | found k want id size =>
    simp only [absStep] at h
    split at h
    · rename_i v hv
      split at h
      · rename_i hi
        cases h
        refine ⟨fun _ _ => rfl, fun b hb => ?_⟩
        simp only [Ev.key] at hb
        have hv' : b.find k want = some v := by simpa only [Abs.find, hb] using hv
        simp only [absStep, hv', if_pos hi]
        exact ⟨_, rfl, hb⟩
      · cases h
    · cases h
  | missing k want =>
    simp only [absStep] at h
    split at h
    · rename_i hi
      cases h
      refine ⟨fun _ _ => rfl, fun b hb => ?_⟩
      simp only [Ev.key] at hb
      simp only [absStep]
      rw [if_pos (by simpa only [Abs.find, hb] using hi)]
      exact ⟨_, rfl, hb⟩
    · cases h
  | opened k id size =>
    simp only [absStep] at h
    split at h
    · rename_i v hv
      split at h
      · rename_i hi
        cases h
        refine ⟨fun _ _ => rfl, fun b hb => ?_⟩
        simp only [Ev.key] at hb
        have hv' : b.incomplete k id = some v := by simpa only [Abs.incomplete, hb] using hv
        simp only [absStep, hv', if_pos hi]
        exact ⟨_, rfl, hb⟩
      · cases h
    · cases h
  | refused k id =>
    simp only [absStep] at h
    split at h
    · rename_i hi
      cases h
      refine ⟨fun _ _ => rfl, fun b hb => ?_⟩
      simp only [Ev.key] at hb
      simp only [absStep]
      rw [if_pos (by simpa only [Abs.incomplete, hb] using hi)]
      exact ⟨_, rfl, hb⟩
    · cases h

/-- the events of one key explain everything about that key -/
theorem absRun_key {vs : Bool} {evs : List Ev} {a : Abs} (h : absRun vs evs = some a) (k : List Byte) :
    ∃ b, absRun vs (evs.filter (fun e => e.key = k)) = some b ∧ b k = a k := by
  induction evs using List.reverseRecOn generalizing a with
  | nil => exact ⟨a, h, rfl⟩
  | append_singleton evs e ih =>
    obtain ⟨a0, h0, h1⟩ := absRun_snoc' h
    obtain ⟨b0, g0, g1⟩ := ih h0
    obtain ⟨k1, k2⟩ := absStep_key h1
    rw [List.filter_append]
    by_cases he : e.key = k
    · obtain ⟨b', q1, q2⟩ := k2 b0 (by rw [he]; exact g1)
      refine ⟨b', ?_, by rw [← he]; exact q2⟩
      rw [show [e].filter (fun e => decide (e.key = k)) = [e] by simp [he]]
      rw [absRun_snoc g0]; exact q1
    · refine ⟨b0, ?_, ?_⟩
      · rw [show [e].filter (fun e => decide (e.key = k)) = [] by simp [he]]
        simpa using g0
      · rw [g1, k1 k (fun e' => he e'.symm)]

theorem visMap_snoc (evs : List Ev) (e : Ev) : visMap (evs ++ [e]) = match e with
    | .committed k id => fun k' => if k' = k then some id else visMap evs k'
    | .removed k _ _ => fun k' => if k' = k then none else visMap evs k'
    | _ => visMap evs := by
  unfold visMap
  rw [List.foldl_append]
  cases e <;> rfl

/-- without versioning, the committed versions of a key are those of the visible object -/
def VisOk (a : Abs) (m : List Byte → Option Nat) : Prop :=
  ∀ k, (∀ v ∈ a k, v.committed = true → m k = some v.id) ∧ ∀ id, m k = some id → ∃ v ∈ a k, v.committed = true ∧ v.id = id

theorem find_some {a : Abs} {k : List Byte} {want : Option Nat} {v : Ver} (h : a.find k want = some v) :
    v ∈ a k ∧ v.committed = true ∧ wants want v = true := by
  unfold Abs.find at h
  have h1 := List.mem_of_find?_eq_some h
  have h2 := List.find?_some h
  simp only [Bool.and_eq_true] at h2
  exact ⟨h1, h2⟩

theorem VisOk.find {a : Abs} {m : List Byte → Option Nat} (h : VisOk a m) (k : List Byte) : (a.find k none).map (·.id) = m k := by
  cases hf : a.find k none with
  | some v =>
    obtain ⟨h1, h2, _⟩ := find_some hf
    rw [(h k).1 v h1 h2]
    rfl
  | none =>
    cases hm : m k with
    | none => rfl
    | some id =>
      exfalso
      obtain ⟨v, v1, v2, _⟩ := (h k).2 id hm
      unfold Abs.find at hf
      have := List.find?_eq_none.1 hf v v1
      simp [v2, wants] at this

theorem vis_ok {evs : List Ev} {a : Abs} (h : absRun false evs = some a) : VisOk a (visMap evs) := by
  induction evs using List.reverseRecOn generalizing a with
  | nil =>
    cases h
    intro k
    refine ⟨fun v hv => (by cases hv), fun id hid => ?_⟩
    simp [visMap] at hid
  | append_singleton evs e ih =>
    obtain ⟨a0, h0, h1⟩ := absRun_snoc' h
    have ih := ih h0
    rw [visMap_snoc]
    cases e with
    | created k id size =>
      simp only [absStep, Option.some.injEq] at h1
      subst h1
      intro k'
      simp only [Abs.set]
      by_cases hk : k' = k
      · subst hk
        simp only [if_true]
        constructor
        · intro v hv hc
          rcases List.mem_cons.1 hv with rfl | hv
          · cases hc
          · exact (ih k').1 v hv hc
        · intro i hi
          obtain ⟨v, v1, v2⟩ := (ih k').2 i hi
          exact ⟨v, List.mem_cons_of_mem _ v1, v2⟩
      · simp only [if_neg hk]
        exact ih k'
    | committed k id =>
      simp only [absStep] at h1
      split at h1
      · rename_i hi
        cases h1
        intro k'
        simp only [Abs.set]
        by_cases hk : k' = k
        · subst hk
          simp only [if_true]
          constructor
          · intro v hv hc
            obtain ⟨u, hu, e⟩ := List.mem_map.1 hv
            simp only [List.mem_filter, Bool.false_or, Bool.not_eq_true'] at hu
            split at e
            · rename_i hid
              rw [← e]; exact congrArg some hid.symm
            · rw [← e, hu.2] at hc; cases hc
          · intro i hid
            cases hid
            obtain ⟨u, hu⟩ := Option.isSome_iff_exists.1 hi
            unfold Abs.incomplete at hu
            have u1 := List.mem_of_find?_eq_some hu
            have u2 := List.find?_some hu
            simp only [Bool.and_eq_true, Bool.not_eq_true', beq_iff_eq] at u2
            refine ⟨{ u with committed := true }, List.mem_map.2 ⟨u, List.mem_filter.2 ⟨u1, by simp [u2.1]⟩, by simp [u2.2]⟩, rfl, u2.2⟩
        · simp only [if_neg hk]
          exact ih k'
      · cases h1
    | removed k want id =>
      simp only [absStep] at h1
      split at h1
      · rename_i v hv
        split at h1
        · rename_i hi
          cases h1
          obtain ⟨v1, v2, _⟩ := find_some hv
          intro k'
          simp only [Abs.set]
          by_cases hk : k' = k
          · subst hk
            simp only [if_true]
            refine ⟨?_, fun _ h => by cases h⟩
            intro u hu hc
            exfalso
            obtain ⟨u1, u2⟩ := List.mem_filter.1 hu
            have e1 := (ih k').1 u u1 hc
            have e2 := (ih k').1 v v1 v2
            rw [e1, Option.some.injEq] at e2
            simp [e2, hi] at u2
          · simp only [if_neg hk]
            exact ih k'
        · cases h1
      · cases h1
    | found k want id size =>
      simp only [absStep] at h1
      split at h1
      · split at h1 <;> cases h1
        exact ih
      · cases h1
    | missing k want =>
      simp only [absStep] at h1
      split at h1 <;> cases h1
      exact ih
    | opened k id size =>
      simp only [absStep] at h1
      split at h1
      · split at h1 <;> cases h1
        exact ih
      · cases h1
    | refused k id =>
      simp only [absStep] at h1
      split at h1 <;> cases h1
      exact ih

/-- without versioning the object found under a key is the one committed last, unless removed since -/
theorem found_visible {pre post : List Ev} {a : Abs} {k : List Byte} {id size : Nat}
    (h : absRun false (pre ++ .found k none id size :: post) = some a) : visMap pre k = some id := by
  obtain ⟨b, b', h1, h2⟩ := absRun_split h
  rw [← (vis_ok h1).find k]
  simp only [absStep] at h2
  split at h2
  · rename_i v hv
    split at h2 <;> cases h2
    rename_i hi
    rw [hv]
    simp [hi.1]
  · cases h2

theorem missing_visible {pre post : List Ev} {a : Abs} {k : List Byte}
    (h : absRun false (pre ++ .missing k none :: post) = some a) : visMap pre k = none := by
  obtain ⟨b, b', h1, h2⟩ := absRun_split h
  rw [← (vis_ok h1).find k]
  simp only [absStep] at h2
  split at h2
  · rename_i hi
    rw [Option.isNone_iff_eq_none.1 hi]
    rfl
  · cases h2

end Lite
end Blobd
