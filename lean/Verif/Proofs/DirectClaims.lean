import Verif.Proofs.DirectLin
set_option autoImplicit false
/-! # How often a token is taken -/
namespace Blobd
namespace Direct

structure DToks (a : Abs) (evs : List Ev) (b : Abs) : Prop where
  made : ∀ id, b.tokens id ≠ none → (a.tokens id ≠ none ∨ ∃ m, Ev.created id m ∈ evs) ∧ ∀ m, Ev.claimed id m ∉ evs
  all : ∀ id, (a.tokens id ≠ none ∨ ∃ m, Ev.created id m ∈ evs) → (∀ m, Ev.claimed id m ∉ evs) → b.tokens id ≠ none
  cl : ∀ id m, Ev.claimed id m ∈ evs → a.tokens id ≠ none ∨ ∃ m, Ev.created id m ∈ evs

theorem DToks.same {a b b' : Abs} {evs : List Ev} (h : DToks a evs b) (hb : b'.tokens = b.tokens) {e : Ev} (h1 : ∀ id m, e ≠ .created id m)
    (h2 : ∀ id m, e ≠ .claimed id m) : DToks a (evs ++ [e]) b' := by
  have m1 : ∀ id m, Ev.created id m ∈ evs ++ [e] ↔ Ev.created id m ∈ evs := by
    intro id m
    rw [List.mem_append, List.mem_singleton]
    exact ⟨fun h => h.elim (fun h => h) (fun h => absurd h.symm (h1 id m)), .inl⟩
  have m2 : ∀ id m, Ev.claimed id m ∈ evs ++ [e] ↔ Ev.claimed id m ∈ evs := by
    intro id m
    rw [List.mem_append, List.mem_singleton]
    exact ⟨fun h => h.elim (fun h => h) (fun h => absurd h.symm (h2 id m)), .inl⟩
  refine ⟨?_, ?_, ?_⟩
  · intro id
    simp only [m1, m2, hb]
    exact h.made id
  · intro id
    simp only [m1, m2, hb]
    exact h.all id
  · intro id m
    simp only [m1, m2]
    exact h.cl id m

theorem dtoks_of {a : Abs} {evs : List Ev} : ∀ {b : Abs}, absRun a evs = some b → (evs.flatMap Ev.newId).Nodup →
    (∀ id, a.tokens id ≠ none → id ∉ evs.flatMap Ev.newId) → DToks a evs b := by
  induction evs using List.reverseRecOn with
  | nil =>
    intro b h _ _
    cases h
    exact ⟨(fun id h => ⟨.inl h, by simp⟩), (fun id h _ => by simpa using h), (fun id m h => by cases h)⟩
  | append_singleton evs e ih =>
    intro b' h hn hb
    obtain ⟨b, h1, h2⟩ : ∃ b, absRun a evs = some b ∧ absStep b e = some b' := by
      simp only [absRun, List.foldlM_append, List.foldlM_cons, List.foldlM_nil, Option.bind_eq_bind, Option.bind_eq_some_iff] at h
      obtain ⟨b, g1, b1, g2, g3⟩ := h
      cases g3
      exact ⟨b, g1, g2⟩
    rw [List.flatMap_append, List.nodup_append] at hn
    have ih := ih h1 hn.1 (fun id hi hm => hb id hi (by rw [List.flatMap_append]; exact List.mem_append_left _ hm))
    cases e with
    | created id0 m0 =>
      have f1 : ∀ m, Ev.created id0 m ∉ evs := by
        intro m hm
        exact hn.2.2 id0 (List.mem_flatMap.2 ⟨_, hm, by simp [Ev.newId]⟩) id0 (by simp [Ev.newId]) rfl
      have f2 : a.tokens id0 = none := by
        by_contra hne
        exact hb id0 hne (by rw [List.flatMap_append]; exact List.mem_append_right _ (by simp [Ev.newId]))
      simp only [absStep] at h2
      split at h2
      · cases h2
        refine ⟨?_, ?_, ?_⟩
        · intro id hi
          by_cases e : id = id0
          · subst e
            refine ⟨.inr ⟨m0, by simp⟩, fun m hm => ?_⟩
            simp only [List.mem_append, List.mem_singleton, reduceCtorEq, or_false] at hm
            rcases ih.cl _ _ hm with h | ⟨m', h⟩
            · exact h f2
            · exact f1 _ h
          · simp only [upd, if_neg e] at hi
            obtain ⟨g1, g2⟩ := ih.made id hi
            refine ⟨g1.imp_right (fun ⟨m, h⟩ => ⟨m, by simp [h]⟩), fun m hm => ?_⟩
            simp only [List.mem_append, List.mem_singleton, reduceCtorEq, or_false] at hm
            exact g2 m hm
        · intro id hi hnc
          by_cases e : id = id0
          · subst e
            simp [upd]
          · simp only [upd, if_neg e]
            apply ih.all id
            · refine hi.imp_right (fun ⟨m, h⟩ => ⟨m, ?_⟩)
              simpa [e] using h
            · intro m hm
              exact hnc m (by simp [hm])
        · intro id m hm
          simp only [List.mem_append, List.mem_singleton, reduceCtorEq, or_false] at hm
          exact (ih.cl id m hm).imp_right (fun ⟨m, h⟩ => ⟨m, by simp [h]⟩)
      · cases h2
    | claimed id0 m0 =>
      simp only [absStep] at h2
      split at h2
      · rename_i ht
        cases h2
        have g0 := (ih.made id0 (by rw [ht]; simp)).1
        refine ⟨?_, ?_, ?_⟩
        · intro id hi
          by_cases e : id = id0
          · subst e
            simp [upd] at hi
          · simp only [upd, if_neg e] at hi
            obtain ⟨g1, g2⟩ := ih.made id hi
            refine ⟨g1.imp_right (fun ⟨m, h⟩ => ⟨m, by simp [h]⟩), fun m hm => ?_⟩
            simp only [List.mem_append, List.mem_singleton, Ev.claimed.injEq, e, false_and, or_false] at hm
            exact g2 m hm
        · intro id hi hnc
          have e : id ≠ id0 := fun e => hnc m0 (by simp [e])
          simp only [upd, if_neg e]
          apply ih.all id
          · exact hi.imp_right (fun ⟨m, h⟩ => ⟨m, by simpa using h⟩)
          · intro m hm
            exact hnc m (by simp [hm])
        · intro id m hm
          simp only [List.mem_append, List.mem_singleton, Ev.claimed.injEq] at hm
          rcases hm with hm | ⟨rfl, rfl⟩
          · exact (ih.cl id m hm).imp_right (fun ⟨m, h⟩ => ⟨m, by simp [h]⟩)
          · exact g0.imp_right (fun ⟨m, h⟩ => ⟨m, by simp [h]⟩)
      · cases h2
    | _ =>
      refine ih.same ?_ (by simp) (by simp)
      simp only [absStep] at h2
      repeat' split at h2
      all_goals first
        | (cases h2; rfl)
        | cases h2

theorem ids_prefix {pre post : List Ev} (h : ((pre ++ post).flatMap Ev.newId).Nodup) : (pre.flatMap Ev.newId).Nodup := by
  rw [List.flatMap_append] at h
  exact (List.nodup_append.1 h).1

theorem dabs_split {a b : Abs} {pre post : List Ev} {e : Ev} (h : absRun a (pre ++ e :: post) = some b) :
    ∃ x y, absRun a pre = some x ∧ absStep x e = some y := by
  simp only [absRun, List.foldlM_append, List.foldlM_cons, Option.bind_eq_bind, Option.bind_eq_some_iff] at h
  obtain ⟨x, h1, y, h2, _⟩ := h
  exact ⟨x, y, h1, h2⟩

/-- the facts about the tokens at any earlier moment -/
theorem toks_at {c : SCfg} {s : DSt} (h : Reach c s) {pre post : List (Nat × Ev)} {call : Nat} {e : Ev} (hl : s.lin = pre ++ (call, e) :: post) :
    ∃ x y, absStep x e = some y ∧ DToks ⟨s.base.1, s.base.2⟩ (pre.map (·.2)) x := by
  have ha := (reach_lin h).abs
  have hf := reach_fresh h
  rw [hl, List.map_append, List.map_cons] at ha
  obtain ⟨x, y, h1, h2⟩ := dabs_split ha
  have e1 : pre.flatMap (fun e => e.2.newId) = (pre.map (·.2)).flatMap Ev.newId := by rw [List.flatMap_map]
  refine ⟨x, y, h2, dtoks_of h1 ?_ ?_⟩
  · have := (List.nodup_append.1 hf.nodup).1
    rw [hl, List.flatMap_append] at this
    rw [← e1]
    exact (List.nodup_append.1 this).1
  · intro id hi hm
    obtain ⟨o, ho⟩ := Option.ne_none_iff_exists'.1 hi
    apply (hf.btok id o ho).2
    rw [← e1] at hm
    rw [hl, List.flatMap_append]
    exact List.mem_append_left _ (List.mem_append_left _ hm)

theorem toks_now {c : SCfg} {s : DSt} (h : Reach c s) : DToks ⟨s.base.1, s.base.2⟩ (s.lin.map (·.2)) ⟨s.committed, s.incomplete⟩ := by
  have hf := reach_fresh h
  have e1 : s.lin.flatMap (fun e => e.2.newId) = (s.lin.map (·.2)).flatMap Ev.newId := by rw [List.flatMap_map]
  refine dtoks_of (reach_lin h).abs ?_ ?_
  · rw [← e1]
    exact (List.nodup_append.1 hf.nodup).1
  · intro id hi hm
    obtain ⟨o, ho⟩ := Option.ne_none_iff_exists'.1 hi
    apply (hf.btok id o ho).2
    rw [← e1] at hm
    exact List.mem_append_left _ hm

/-- a token is taken at most once -/
theorem claim_once {c : SCfg} {s : DSt} (h : Reach c s) {pre post : List (Nat × Ev)} {call id : Nat} {m : Meta}
    (hl : s.lin = pre ++ (call, .claimed id m) :: post) : ∀ j m', (j, Ev.claimed id m') ∉ pre := by
  intro j m' hm
  obtain ⟨x, y, h1, ht⟩ := toks_at h hl
  simp only [absStep] at h1
  split at h1
  · rename_i hx
    exact (ht.made id (by rw [hx]; simp)).2 m' (List.mem_map.2 ⟨_, hm, rfl⟩)
  · cases h1

theorem claim_uniq {c : SCfg} {s : DSt} (h : Reach c s) {i j id : Nat} {m m' : Meta} (h1 : (i, Ev.claimed id m) ∈ s.lin)
    (h2 : (j, Ev.claimed id m') ∈ s.lin) : i = j := by
  obtain ⟨pre, post, hl⟩ := List.append_of_mem h1
  have h2' := h2
  rw [hl, List.mem_append, List.mem_cons] at h2'
  rcases h2' with g | g | g
  · exact absurd g (claim_once h hl j m')
  · cases g; rfl
  · obtain ⟨p, q, hp⟩ := List.append_of_mem g
    have hl' : s.lin = (pre ++ (i, .claimed id m) :: p) ++ (j, .claimed id m') :: q := by rw [hl, hp]; simp
    exact absurd (by simp) (claim_once h hl' i m)

end Direct
end Blobd
