import Verif.Proofs.Benchmark
set_option autoImplicit false
/-! # Benchmark runner: runs against a correct store -/
namespace Blobd
namespace Bench
open Stress (Bytes Call Ans about Ideal)
variable {c : Cfg} {s s' : St} {st st' : Ideal}

/-- what the store holds in each phase -/
def Stored (c : Cfg) (s : St) (st : Ideal) : Phase → Prop
  | .create => ∀ i t, ((i, t) ∈ s.toks ∨ .over i t ∈ s.running) → ∃ buf, st.ups t = some (key i, buf) ∧ buf.length = c.size
  | .write => (∀ x ∈ s.toks, ∃ buf, st.ups x.2 = some (key x.1, buf) ∧ buf.length = c.size ∧
      (∀ o, .write x.1 x.2 o ∈ s.running → buf.take o = c.pool.take o) ∧
      (x ∉ s.todo → (∀ o, .write x.1 x.2 o ∉ s.running) → buf = c.pool))
  | .commit => (∀ x ∈ s.todo, st.ups x.2 = some (key x.1, c.pool)) ∧
      (∀ i t, .commit i t ∈ s.running → st.ups t = some (key i, c.pool)) ∧
      (∀ x ∈ s.toks, x ∉ s.todo → .commit x.1 x.2 ∉ s.running → ∃ id, st.objs (key x.1) = some (id, c.pool))
  | .delete => (∀ x ∈ s.todo, ∃ id, st.objs (key x.1) = some (id, c.pool)) ∧
      (∀ i, .delete i ∈ s.running → ∃ id, st.objs (key i) = some (id, c.pool)) ∧
      (∀ i, i < c.objects → (∀ x ∈ s.todo, x.1 ≠ i) → .delete i ∉ s.running → st.objs (key i) = none)
  | _ => ∀ i, i < c.objects → ∃ id, st.objs (key i) = some (id, c.pool)

structure GInv (c : Cfg) (x : St × Ideal) : Prop where
  inv : Inv c x.1
  alive : x.1.panicked = false
  stored : ∀ p ps, x.1.phases = p :: ps → Stored c x.1 x.2 p
  fresh : ∃ N, ∀ t, N ≤ t → x.2.ups t = none
  idle : x.1.phases = [] → x.1.running = []
  left : x.1.phases = [] → ∀ i, i < c.objects →
    if c.skipDeletion = true then ∃ id, x.2.objs (key i) = some (id, c.pool) else x.2.objs (key i) = none

/-- shapes of running tasks -/
theorem cur_shape {p : Phase} {todo : List (Nat × Nat)} {running : List Job} {log : List (Call × Ans)} {toks fin : List (Nat × Nat)}
    (h : Cur c p todo running log toks fin) {j : Job} (hj : j ∈ running) : ∃ x off l, RandomOk c off ∧ Shape c p x off l j ∧ x.1 < c.objects ∧
      (p = .write ∨ p = .commit → x ∈ toks) := by
  obtain ⟨x, off, h1, h2, h3⟩ := h.run j hj
  refine ⟨x, off, _, h1, h2, ?_, h3⟩
  rw [← h2.item]
  exact List.mem_range.1 (h.perm.mem_iff.1 (by simp only [List.mem_append, List.mem_map]; exact .inr (.inl ⟨j, hj, rfl⟩)))

/-- a correct answer never fails an assertion -/
theorem no_wrong (hp : c.pool.length = c.size) {p : Phase} {todo : List (Nat × Nat)} {log : List (Call × Ans)} {toks fin : List (Nat × Nat)}
    (hc : Cur c p todo s.running log toks fin) (hst : Stored c s st p) {j : Job} (hj : j ∈ s.running) {call : Call} {ans : Ans}
    (h1 : j.call c = some call) (h2 : Answers st call ans st') : j.next c ans ≠ none := by
  obtain ⟨x, off, l, hr, hs, hx, _⟩ := cur_shape hc hj
  cases j with
  | create i => cases h1; cases h2; simp [Job.next]
  | write i tok o =>
    simp only [Job.call] at h1
    split at h1 <;> cases h1
    cases h2
    simp [Job.next]
  | commit i tok => cases h1; cases h2; simp [Job.next]
  | inspect i => cases h1; cases h2; simp [Job.next]
  | delete i => cases h1; cases h2; simp [Job.next]
  | over i tok => cases h1
  | random i o =>
    cases h1
    cases h2 with
    | @read _ d id _ _ chunks g1 g2 g3 g4 =>
      cases p <;> simp only [Shape] at hs
      case randomRead =>
        rcases hs with ⟨hs, _⟩ | ⟨_, hs, _⟩
        · cases hs
          obtain ⟨id', e⟩ := hst x.1 hx
          rw [g1] at e
          cases e
          have : checkChunks c off chunks = true := by
            refine prefix_checkChunks _ _ (by have := random_fits hr; omega) ?_
            rw [g4]
            exact List.take_prefix _ _
          simp [Job.next, this]
        · cases hs
      all_goals (first
        | (obtain ⟨_, hs, _⟩ := hs; cases hs; done)
        | (rcases hs with ⟨hs, _⟩ | ⟨_, hs, _⟩ <;> cases hs; done)
        | (rcases hs with ⟨hs, _⟩ | ⟨_, _, hs, _⟩ <;> cases hs; done)
        | (rcases hs with ⟨hs, _⟩ | ⟨hs, _⟩ <;> cases hs; done))
  | read i o =>
    simp only [Job.call] at h1
    split at h1 <;> cases h1
    rename_i hg
    cases h2 with
    | @read _ d id _ _ chunks g1 g2 g3 g4 =>
      cases p <;> simp only [Shape] at hs
      case read =>
        obtain ⟨o', hs, _⟩ := hs
        cases hs
        obtain ⟨id', e⟩ := hst x.1 hx
        rw [g1] at e
        cases e
        have : checkChunks c o chunks = true := by
          refine prefix_checkChunks _ _ (by omega) ?_
          rw [g4]
          exact List.take_prefix _ _
        simp [Job.next, this]
      all_goals (first
        | (obtain ⟨_, hs, _⟩ := hs; cases hs; done)
        | (rcases hs with ⟨hs, _⟩ | ⟨_, hs, _⟩ <;> cases hs; done)
        | (rcases hs with ⟨hs, _⟩ | ⟨_, _, hs, _⟩ <;> cases hs; done)
        | (rcases hs with ⟨hs, _⟩ | ⟨hs, _⟩ <;> cases hs; done))

theorem cur_apart {p : Phase} {todo : List (Nat × Nat)} {a b : List Job} {j : Job} {log : List (Call × Ans)}
    {toks fin : List (Nat × Nat)} (h : Cur c p todo (a ++ j :: b) log toks fin) :
    j.item.1 < c.objects ∧ (∀ x ∈ todo, x.1 < c.objects ∧ x.1 ≠ j.item.1) ∧ (∀ k ∈ a ++ b, k.item.1 < c.objects ∧ k.item.1 ≠ j.item.1) := by
  have hn := h.perm.nodup_iff.2 List.nodup_range
  have hm : ∀ i ∈ (todo.map (fun x => x.1) ++ ((a ++ j :: b).map (fun j => j.item.1) ++ fin.map (fun x => x.1))), i < c.objects :=
    fun i hi => List.mem_range.1 (h.perm.mem_iff.1 hi)
  have hj : j.item.1 < c.objects := hm _ (by simp)
  have hsplit : (j.item.1 :: (todo.map (fun x => x.1) ++ ((a ++ b).map (fun j => j.item.1) ++ fin.map (fun x => x.1)))).Nodup := by
    refine (List.Perm.nodup_iff ?_).1 hn
    simp only [List.map_append, List.map_cons, List.append_assoc, List.cons_append]
    rw [← List.append_assoc, ← List.append_assoc]
    exact List.perm_middle
  rw [List.nodup_cons] at hsplit
  refine ⟨hj, fun x hx => ⟨hm _ ?_, ?_⟩, fun x hx => ⟨hm _ ?_, ?_⟩⟩
  · simp only [List.mem_append, List.mem_map]; exact .inl ⟨x, hx, rfl⟩
  · rintro heq
    exact hsplit.1 (by rw [← heq]; simp only [List.mem_append, List.mem_map]; exact .inl ⟨x, hx, rfl⟩)
  · simp only [List.mem_append, List.mem_map, List.mem_cons] at hx ⊢
    rcases hx with hx | hx
    · exact .inr (.inl ⟨x, .inl hx, rfl⟩)
    · exact .inr (.inl ⟨x, .inr (.inr hx), rfl⟩)
  · rintro heq
    apply hsplit.1
    rw [← heq]
    exact List.mem_append_right _ (List.mem_append_left _ (List.mem_map.2 ⟨x, hx, rfl⟩))

theorem written_buf (hp : c.pool.length = c.size) {buf : Bytes} (hl : buf.length = c.size) {o : Nat} (ho : o < c.size)
    (h : buf.take o = c.pool.take o) :
    let d := (c.pool.drop o).take (min (c.size - o) c.chunk)
    (buf.take o ++ d ++ buf.drop (o + d.length)).length = c.size ∧
    (buf.take o ++ d ++ buf.drop (o + d.length)).take (o + c.chunk) = c.pool.take (o + c.chunk) := by
  intro d
  have hd : d.length = min (c.size - o) c.chunk := by
    show ((c.pool.drop o).take _).length = _
    rw [List.length_take, List.length_drop, hp]
    omega
  have e : buf.take o ++ d = c.pool.take (o + d.length) := by
    rw [h, List.take_add, hd]
  have e2 : (buf.take o ++ d).length = o + d.length := by
    rw [List.length_append, List.length_take, hl]
    omega
  refine ⟨?_, ?_⟩
  · rw [List.length_append, e2, List.length_drop, hl]
    omega
  · rw [e]
    by_cases hc : c.chunk ≤ c.size - o
    · have : d.length = c.chunk := by omega
      rw [this, List.take_append_of_le_length (by rw [List.length_take]; omega), List.take_take, Nat.min_self]
    · have h1 : o + d.length = c.size := by omega
      rw [h1, List.drop_of_length_le (by omega), List.append_nil, List.take_take]
      rw [List.take_of_length_le (by omega), List.take_of_length_le (by omega)]

theorem next_phase {a ps : List Phase} {p p' : Phase} (h : a ++ p :: p' :: ps = phases c) :
    (p = .create ∧ p' = .write) ∨ (p = .write ∧ p' = .commit) ∨ (p = .commit ∧ p' = .inspect) ∨ (p = .inspect ∧ p' = .randomRead) ∨
    (p = .randomRead ∧ p' = .read) ∨ (p = .read ∧ p' = .delete) := by
  have ht : (p, p') ∈ (phases c).zip (phases c).tail := by
    rw [← h]
    clear h
    induction a with
    | nil => simp
    | cons x a ih =>
      cases a with
      | nil => simp
      | cons y a =>
        simp only [List.cons_append, List.tail_cons, List.zip_cons_cons, List.mem_cons] at ih ⊢
        exact .inr ih
  unfold phases at ht
  cases hs : c.skipCreation <;> cases hd : c.skipDeletion <;> rw [hs, hd] at ht <;> revert ht <;> cases p <;> cases p' <;> decide

theorem stored_start {p : Phase} {x : Nat × Nat} {r : List (Nat × Nat)} {off : Nat} (h3 : s.todo = x :: r) (hst : Stored c s st p) :
    Stored c { s with todo := r, running := s.running ++ [.begin p x off] } st p := by
  cases p <;> simp only [Stored, Job.begin] at hst ⊢
  case create =>
    intro i t h
    simp only [List.mem_append, List.mem_singleton, reduceCtorEq, or_false] at h
    exact hst i t h
  case write =>
    intro y hy
    obtain ⟨buf, h1, h2, h4, h5⟩ := hst y hy
    refine ⟨buf, h1, h2, ?_, ?_⟩
    · intro o ho
      simp only [List.mem_append, List.mem_singleton, Job.write.injEq] at ho
      rcases ho with ho | ⟨_, _, rfl⟩
      · exact h4 o ho
      · simp
    · intro hy' hn
      refine h5 ?_ (fun o ho => hn o (by simp [ho]))
      rw [h3, List.mem_cons]
      rintro (rfl | hm)
      · exact hn 0 (by simp)
      · exact hy' hm
  case commit =>
    obtain ⟨q1, q2, q3⟩ := hst
    refine ⟨fun y hy => q1 y (by simp [h3, hy]), ?_, ?_⟩
    · intro i t ht
      simp only [List.mem_append, List.mem_singleton, Job.commit.injEq] at ht
      rcases ht with ht | ⟨rfl, rfl⟩
      · exact q2 i t ht
      · exact q1 x (by simp [h3])
    · intro y hy hn hr
      refine q3 y hy ?_ (fun hm => hr (by simp [hm]))
      rw [h3, List.mem_cons]
      rintro (rfl | hm)
      · exact hr (by simp)
      · exact hn hm
  case delete =>
    obtain ⟨q1, q2, q3⟩ := hst
    refine ⟨fun y hy => q1 y (by simp [h3, hy]), ?_, ?_⟩
    · intro i hi
      simp only [List.mem_append, List.mem_singleton, Job.delete.injEq] at hi
      rcases hi with hi | rfl
      · exact q2 i hi
      · exact q1 x (by simp [h3])
    · intro i hi hn hr
      refine q3 i hi ?_ (fun hm => hr (by simp [hm]))
      intro y hy
      rw [h3, List.mem_cons] at hy
      rcases hy with rfl | hy
      · rintro rfl
        exact hr (by simp)
      · exact hn y hy
  all_goals exact hst

theorem stored_finish (hp : c.pool.length = c.size) {p : Phase} {a b : List Job} {j : Job} (h3 : s.running = a ++ j :: b) (h4 : j.finished c = true)
    (hst : Stored c s st p) {x : Nat × Nat} {off : Nat} {l : List (Call × Ans)} (hs : Shape c p x off l j) {n : Nat} :
    Stored c { s with running := a ++ b, latencies := n, toks := if p = .create then s.toks ++ [j.item] else s.toks } st p := by
  have hsub : ∀ k, k ∈ a ++ b → k ∈ s.running := by
    intro k hk
    rw [h3]
    simp only [List.mem_append, List.mem_cons] at hk ⊢
    tauto
  cases p
  case create =>
    intro i t h
    simp only [if_true, List.mem_append, List.mem_singleton] at h
    rcases h with (h | h) | h
    · exact hst i t (.inl h)
    · rcases hs with ⟨rfl, _⟩ | ⟨tok, rfl, _⟩
      · cases h4
      · cases h
        exact hst _ _ (.inr (by rw [h3]; simp))
    · exact hst i t (.inr (hsub _ (List.mem_append.2 h)))
  case write =>
    intro y hy
    simp only [reduceCtorEq, if_false] at hy
    obtain ⟨buf, h1, h2, q1, q2⟩ := hst y hy
    refine ⟨buf, h1, h2, fun o ho => q1 o (hsub _ ho), ?_⟩
    intro hn hr
    by_cases hj : ∃ o, .write y.1 y.2 o ∈ s.running
    · obtain ⟨o, ho⟩ := hj
      have e : j = .write y.1 y.2 o := by
        rw [h3] at ho
        simp only [List.mem_append, List.mem_cons] at ho
        rcases ho with ho | ho | ho
        · exact absurd (List.mem_append.2 (.inl ho)) (hr o)
        · exact ho.symm
        · exact absurd (List.mem_append.2 (.inr ho)) (hr o)
      subst e
      simp only [Job.finished, decide_eq_true_eq] at h4
      have := q1 o ho
      rwa [List.take_of_length_le (by omega), List.take_of_length_le (by omega)] at this
    · exact q2 hn (fun o ho => hj ⟨o, ho⟩)
  case commit =>
    obtain ⟨q1, q2, q3⟩ := hst
    refine ⟨q1, fun i t ht => q2 i t (hsub _ ht), ?_⟩
    intro y hy hn hr
    refine q3 y (by simpa using hy) hn ?_
    intro hm
    rw [h3] at hm
    simp only [List.mem_append, List.mem_cons] at hm hr
    rcases hm with hm | rfl | hm
    · exact hr (.inl hm)
    · cases h4
    · exact hr (.inr hm)
  case delete =>
    obtain ⟨q1, q2, q3⟩ := hst
    refine ⟨q1, fun i hi => q2 i (hsub _ hi), ?_⟩
    intro i hi hn hr
    refine q3 i hi hn ?_
    intro hm
    rw [h3] at hm
    simp only [List.mem_append, List.mem_cons] at hm hr
    rcases hm with hm | rfl | hm
    · exact hr (.inl hm)
    · cases h4
    · exact hr (.inr hm)
  all_goals exact hst

theorem stored_phase (h : Inv c s) {p p' : Phase} {ps : List Phase} {l : List (Nat × Nat)} (h1 : s.panicked = false) (h2 : s.phases = p :: p' :: ps)
    (h3 : s.todo = []) (h4 : s.running = []) (h5 : l.Perm (items c s.toks p')) (hst : Stored c s st p) {d : Done} {n : Nat} :
    Stored c { s with past := s.past ++ [d], phases := p' :: ps, todo := l, latencies := n, log := [] } st p' := by
  have hsp := h.split
  rw [h2] at hsp
  obtain ⟨fin, hc, hn, hcr⟩ := h.cur h1 p (p' :: ps) h2
  rcases next_phase hsp with ⟨rfl, rfl⟩ | ⟨rfl, rfl⟩ | ⟨rfl, rfl⟩ | ⟨rfl, rfl⟩ | ⟨rfl, rfl⟩ | ⟨rfl, rfl⟩
  · intro x hx
    obtain ⟨buf, q1, q2⟩ := hst x.1 x.2 (.inl hx)
    refine ⟨buf, q1, q2, ?_, ?_⟩
    · intro o ho
      simp only [h4] at ho
      cases ho
    · intro hn
      exact absurd (h5.mem_iff.2 hx) hn
  · have hb : ∀ x ∈ s.toks, st.ups x.2 = some (key x.1, c.pool) := by
      intro x hx
      obtain ⟨buf, q1, q2, q3, q4⟩ := hst x hx
      rw [q1, q4 (by rw [h3]; simp) (by rw [h4]; simp)]
    refine ⟨fun x hx => hb x (h5.mem_iff.1 hx), ?_, ?_⟩
    · intro i t ht
      simp only [h4] at ht
      cases ht
    · intro x hx hn
      exact absurd (h5.mem_iff.2 hx) hn
  · intro i hi
    have hsk : c.skipCreation = false := by
      have : Phase.commit ∈ phases c := by rw [← hsp]; simp
      unfold phases at this
      cases hs : c.skipCreation
      · rfl
      · rw [hs] at this
        cases hd : c.skipDeletion <;> rw [hd] at this <;> revert this <;> decide
    have ht := h.toks hsk (by rw [h2]; simp)
    obtain ⟨x, hx, rfl⟩ := List.mem_map.1 (ht.mem_iff.2 (List.mem_range.2 hi))
    exact hst.2.2 x hx (by rw [h3]; simp) (by rw [h4]; simp)
  · exact hst
  · exact hst
  · refine ⟨?_, ?_, ?_⟩
    · intro x hx
      have := h5.mem_iff.1 hx
      simp only [items, List.mem_map, List.mem_range] at this
      obtain ⟨i, hi, rfl⟩ := this
      exact hst i hi
    · intro i hi
      simp only [h4] at hi
      cases hi
    · intro i hi hn
      exact absurd rfl (hn (i, 0) (h5.mem_iff.2 (by simp only [items, List.mem_map, List.mem_range]; exact ⟨i, hi, rfl⟩)))

theorem stored_answer (hp : c.pool.length = c.size) (ho : c.objects ≤ 2 ^ 64) {p : Phase} {a b : List Job} {j j' : Job} {call : Call} {ans : Ans}
    {log : List (Call × Ans)} {fin : List (Nat × Nat)} (hc : Cur c p s.todo (a ++ j :: b) log s.toks fin)
    (hcr : p = .create → fin = s.toks)
    (htk : p = .write ∨ p = .commit → (s.toks.map (fun x => x.1)).Perm (List.range c.objects)) (h2 : s.running = a ++ j :: b)
    (h3 : j.call c = some call) (h4 : j.next c ans = some j') (ha : Answers st call ans st') (hst : Stored c s st p) :
    Stored c { s with running := a ++ j' :: b, log := s.log ++ [(call, ans)] } st' p := by
  obtain ⟨x, off, l, hr, hs, hx, hxt⟩ := cur_shape hc (show j ∈ a ++ j :: b by simp)
  obtain ⟨p0, p1, p2⟩ := cur_apart hc
  have hlt : ∀ y ∈ s.toks, (p = .write ∨ p = .commit) → y.1 < c.objects := fun y hy hq =>
    List.mem_range.1 ((htk hq).mem_iff.1 (List.mem_map.2 ⟨y, hy, rfl⟩))
  have hold : ∀ k, k ∈ a ++ j' :: b → k = j' ∨ k ∈ a ++ b := by
    intro k hk
    simp only [List.mem_append, List.mem_cons] at hk ⊢
    tauto
  have hsub : ∀ k, k ∈ a ++ b → k ∈ s.running := by
    intro k hk
    rw [h2]
    simp only [List.mem_append, List.mem_cons] at hk ⊢
    tauto
  have hsub' : ∀ k, k ∈ a ++ b → k ∈ a ++ j' :: b := by
    intro k hk
    simp only [List.mem_append, List.mem_cons] at hk ⊢
    tauto
  cases p
  case create =>
    rcases hs with ⟨rfl, rfl⟩ | ⟨tok, rfl, rfl⟩
    · cases h3
      cases ha with
      | @create _ _ tok junk g1 g2 =>
        cases h4
        have hne : ∀ i t, ((i, t) ∈ s.toks ∨ .over i t ∈ a ++ b) → ∃ buf, st.ups t = some (key i, buf) ∧ buf.length = c.size := by
          rintro i t (h | h)
          · exact hst i t (.inl h)
          · exact hst i t (.inr (hsub _ h))
        intro i t h
        have h' : ((i, t) ∈ s.toks ∨ .over i t ∈ a ++ b) ∨ (i = x.1 ∧ t = tok) := by
          rcases h with h | h
          · exact .inl (.inl h)
          · rcases hold _ h with e | h
            · simp only [Job.over.injEq] at e; exact .inr e
            · exact .inl (.inr h)
        rcases h' with h' | ⟨rfl, rfl⟩
        · obtain ⟨buf, e1, e2⟩ := hne i t h'
          have : t ≠ tok := by rintro rfl; rw [g1] at e1; cases e1
          exact ⟨buf, by simp only [if_neg this]; exact e1, e2⟩
        · exact ⟨junk, by simp, g2⟩
    · cases h3
  case write =>
    obtain ⟨o, rfl, hw⟩ := hs
    simp only [Job.call] at h3
    split at h3 <;> cases h3
    rename_i hg
    have hxm := hxt (.inl rfl)
    obtain ⟨buf, q1, q2, q3, q4⟩ := hst x hxm
    cases ha with
    | @write _ _ old _ _ g1 g2 =>
      cases h4
      rw [q1] at g1
      cases g1
      have hq := q3 o (by rw [h2]; simp)
      obtain ⟨w1, w2⟩ := written_buf hp q2 hg.2 hq
      intro y hy
      obtain ⟨buf', r1, r2, r3, r4⟩ := hst y hy
      by_cases hyt : y.2 = x.2
      · have hyx : y = x := by
          rw [hyt, q1] at r1
          simp only [Option.some.injEq, Prod.mk.injEq] at r1
          exact Prod.ext (key_inj (by have := hlt y hy (.inl rfl); omega) (by omega) r1.1.symm) hyt
        subst hyx
        refine ⟨_, by simp only [if_true], w1, ?_, ?_⟩
        · intro o' ho'
          rcases hold _ ho' with e | h
          · simp only [Job.write.injEq, true_and] at e
            rw [e]
            exact w2
          · exact absurd rfl (p2 _ h).2
        · intro _ hn
          exact absurd (by simp) (hn (o + c.chunk))
      · refine ⟨buf', by simp only [if_neg hyt]; exact r1, r2, ?_, ?_⟩
        · intro o' ho'
          rcases hold _ ho' with e | h
          · simp only [Job.write.injEq] at e
            exact absurd e.2.1 hyt
          · exact r3 o' (hsub _ h)
        · intro hn hr'
          refine r4 hn ?_
          intro o' ho'
          rw [h2] at ho'
          simp only [List.mem_append, List.mem_cons, Job.write.injEq] at ho'
          rcases ho' with h | h | h
          · exact hr' o' (by simp [h])
          · exact hyt h.2.1
          · exact hr' o' (by simp [h])
  case commit =>
    rcases hs with ⟨rfl, rfl⟩ | ⟨tok, rfl, rfl⟩
    · cases h3
      obtain ⟨q1, q2, q3⟩ := hst
      have hxu := q2 x.1 x.2 (by rw [h2]; simp)
      cases ha with
      | @commit _ d _ id g1 =>
        cases h4
        rw [hxu] at g1
        cases g1
        have hnt : ∀ i t, st.ups t = some (key i, c.pool) → i < c.objects → i ≠ x.1 → t ≠ x.2 := by
          rintro i t h hi hne rfl
          rw [hxu] at h
          simp only [Option.some.injEq, Prod.mk.injEq, and_true] at h
          exact hne (key_inj (by omega) (by omega) h.symm)
        refine ⟨?_, ?_, ?_⟩
        · intro y hy
          have := hnt _ _ (q1 y hy) (p1 y hy).1 (p1 y hy).2
          simp only [if_neg this]
          exact q1 y hy
        · intro i t ht
          rcases hold _ ht with e | h
          · cases e
          · have hq := q2 i t (hsub _ h)
            have := hnt _ _ hq (p2 _ h).1 (p2 _ h).2
            simp only [if_neg this]
            exact hq
        · intro y hy hn hr'
          by_cases hk : key y.1 = key x.1
          · exact ⟨id, by simp [hk]⟩
          · obtain ⟨id', e⟩ := q3 y hy hn (by
              intro hm
              rw [h2] at hm
              simp only [List.mem_append, List.mem_cons, Job.commit.injEq] at hm
              rcases hm with h | h | h
              · exact hr' (by simp [h])
              · exact hk (by rw [h.1])
              · exact hr' (by simp [h]))
            exact ⟨id', by simp only [if_neg hk]; exact e⟩
    · cases h3
  case delete =>
    rcases hs with ⟨rfl, rfl⟩ | ⟨rfl, rfl⟩
    · cases h3
      obtain ⟨q1, q2, q3⟩ := hst
      cases ha with
      | @delete _ d id g1 =>
        cases h4
        have hne : ∀ i, i < c.objects → i ≠ x.1 → key i ≠ key x.1 := fun i hi hn e => hn (key_inj (by omega) (by omega) e)
        refine ⟨?_, ?_, ?_⟩
        · intro y hy
          obtain ⟨id', e⟩ := q1 y hy
          exact ⟨id', by simp only [if_neg (hne _ (p1 y hy).1 (p1 y hy).2)]; exact e⟩
        · intro i hi
          rcases hold _ hi with e | h
          · cases e
          · obtain ⟨id', e⟩ := q2 i (hsub _ h)
            have hk : key i ≠ key x.1 := hne i (p2 _ h).1 (p2 _ h).2
            exact ⟨id', by simp only [if_neg hk]; exact e⟩
        · intro i hi hn hr'
          by_cases hk : key i = key x.1
          · simp only [if_pos hk]
          · simp only [if_neg hk]
            refine q3 i hi hn ?_
            intro hm
            rw [h2] at hm
            simp only [List.mem_append, List.mem_cons, Job.delete.injEq] at hm
            rcases hm with h | h | h
            · exact hr' (by simp [h])
            · exact hk (by rw [h])
            · exact hr' (by simp [h])
    · cases h3
  case inspect =>
    rcases hs with ⟨rfl, rfl⟩ | ⟨_, _, rfl, rfl⟩
    · cases h3
      cases ha
      exact hst
    · cases h3
  case randomRead =>
    rcases hs with ⟨rfl, rfl⟩ | ⟨_, rfl, _⟩
    · cases h3
      cases ha
      exact hst
    · cases h3
  case read =>
    obtain ⟨o, rfl, hw⟩ := hs
    simp only [Job.call] at h3
    split at h3 <;> cases h3
    cases ha
    exact hst

theorem answers_fresh {call : Call} {ans : Ans} (ha : Answers st call ans st') (h : ∃ N, ∀ t, N ≤ t → st.ups t = none) :
    ∃ N, ∀ t, N ≤ t → st'.ups t = none := by
  obtain ⟨N, h⟩ := h
  cases ha with
  | @create _ _ tok junk g1 g2 =>
    refine ⟨max N (tok + 1), fun t ht => ?_⟩
    simp only [if_neg (show t ≠ tok by omega)]
    exact h t (by omega)
  | @write _ _ old tok _ g1 g2 =>
    refine ⟨max N (tok + 1), fun t ht => ?_⟩
    simp only [if_neg (show t ≠ tok by omega)]
    exact h t (by omega)
  | commit id g1 =>
    refine ⟨N, fun t ht => ?_⟩
    simp only
    split
    · rfl
    · exact h t ht
  | inspect => exact ⟨N, h⟩
  | read => exact ⟨N, h⟩
  | delete => exact ⟨N, h⟩

theorem ginv_step (hp : c.pool.length = c.size) (ho : c.objects ≤ 2 ^ 64) {x y : St × Ideal} (h : GInv c x) (hs : GStep c x y) : GInv c y := by
  cases hs with
  | @quiet s s' st hs hpan =>
    have hidle : s'.phases = [] → s'.running = [] := by
      generalize Lbl.quiet = lb at hs
      intro e
      cases hs with
      | start _ h1 h2 => rw [h2] at e; cases e
      | answer h1 h2 => exact absurd (h.idle e) (by rw [h2]; simp)
      | wrong => cases hpan
      | finish h1 h2 => rw [h2] at e; cases e
      | phase => cases e
      | results h1 h2 h3 h4 => exact h4
      | crash => cases hpan
    have hleft : s'.phases = [] → ∀ i, i < c.objects →
        if c.skipDeletion = true then ∃ id, st.objs (key i) = some (id, c.pool) else st.objs (key i) = none := by
      generalize Lbl.quiet = lb at hs
      intro e
      cases hs with
      | start _ h1 h2 => rw [h2] at e; cases e
      | answer h1 h2 => exact absurd (h.idle e) (by rw [h2]; simp)
      | wrong => cases hpan
      | finish h1 h2 => rw [h2] at e; cases e
      | phase => cases e
      | @results p h1 h2 h3 h4 =>
        have hsp := h.inv.split
        simp only [h2] at hsp
        have hst := h.stored p [] h2
        intro i hi
        have hl : (phases c).getLast? = some p := by rw [← hsp]; simp
        cases hd : c.skipDeletion
        · have e : p = .delete := by
            unfold phases at hl
            cases hs : c.skipCreation <;> rw [hs, hd] at hl <;> cases hl <;> rfl
          subst e
          exact hst.2.2 i hi (by simp only [h3]; simp) (by simp only [h4]; simp)
        · have e : p = .read := by
            unfold phases at hl
            cases hs : c.skipCreation <;> rw [hs, hd] at hl <;> cases hl <;> rfl
          subst e
          exact hst i hi
      | crash => cases hpan
    refine ⟨inv_step hp ho h.inv hs, hpan, ?_, h.fresh, hidle, hleft⟩
    generalize hlb : Lbl.quiet = lb at hs
    cases hs with
    | @start p ps x r off h1 h2 h3 h4 h5 =>
      intro p' ps' hp'
      have : p' :: ps' = p :: ps := hp'.symm.trans h2
      cases this
      exact stored_start h3 (h.stored p ps h2)
    | answer => cases hlb
    | wrong => cases hlb
    | @finish p ps a b j h1 h2 h3 h4 =>
      intro p' ps' hp'
      have : p' :: ps' = p :: ps := hp'.symm.trans h2
      cases this
      obtain ⟨fin, hc, hn, hcr⟩ := h.inv.cur h1 p ps h2
      obtain ⟨x, off, l, _, hsh, _⟩ := cur_shape hc (j := j) (by simp only [h3]; simp)
      exact stored_finish hp h3 h4 (h.stored p ps h2) hsh
    | @phase p p' ps l h1 h2 h3 h4 h5 =>
      intro q qs hq
      simp only [List.cons.injEq] at hq
      obtain ⟨rfl, rfl⟩ := hq
      exact stored_phase h.inv h1 h2 h3 h4 h5 (h.stored p (p' :: ps) h2)
    | results => intro q qs hq; cases hq
    | crash => cases hpan
  | @call s s' st st' call ans hs ha =>
    generalize hlb : Lbl.answered call ans = lb at hs
    have hinv' := inv_step hp ho h.inv hs
    cases hs with
    | @answer a b j j' call' ans' h1 h2 h3 h4 =>
      cases hlb
      refine ⟨hinv', h1, ?_, answers_fresh ha h.fresh, fun e => absurd (h.idle e) (by rw [h2]; simp),
        fun e => absurd (h.idle e) (by rw [h2]; simp)⟩
      intro p ps hp'
      obtain ⟨fin, hc, hn, hcr⟩ := h.inv.cur h1 p ps hp'
      refine stored_answer hp ho (fin := fin) (by rw [← h2]; exact hc) hcr ?_ h2 h3 h4 ha (h.stored p ps hp')
      intro hq
      have hsk : c.skipCreation = false := by
        have hm : p ∈ phases c := by
          rw [← h.inv.split]
          have hp' : s.phases = p :: ps := hp'
          rw [hp']
          simp
        unfold phases at hm
        cases hs : c.skipCreation
        · rfl
        · rw [hs] at hm
          cases hd : c.skipDeletion <;> rw [hd] at hm <;> revert hm <;> rcases hq with rfl | rfl <;> decide
      refine h.inv.toks hsk ?_
      have hp' : s.phases = p :: ps := hp'
      simp only [hp', List.head?_cons, ne_eq, Option.some.injEq]
      rcases hq with rfl | rfl <;> simp
    | @wrong a b j call' ans' h1 h2 h3 h4 =>
      cases hlb
      exfalso
      cases hph : s.phases with
      | nil =>
        have := h.idle hph
        rw [h2] at this
        cases a <;> cases this
      | cons p ps =>
        obtain ⟨fin, hc, hn, hcr⟩ := h.inv.cur h1 p ps hph
        exact no_wrong hp hc (h.stored p ps hph) (by rw [h2]; simp) h3 ha h4
    | _ => cases hlb

theorem greach_inv (hp : c.pool.length = c.size) (ho : c.objects ≤ 2 ^ 64) {i0 : Ideal} (hi : Ready c i0) {x : St × Ideal} (h : GReach c i0 x) :
    GInv c x := by
  induction h with
  | @start s h =>
    have hinv := inv_start h
    cases h with
    | @mk p ps l h1 h2 =>
      refine ⟨hinv, rfl, ?_, hi.1, fun e => rfl, fun e => by cases e⟩
      intro q qs hq
      cases hq
      unfold phases at h1
      cases hs : c.skipCreation
      · rw [hs] at h1
        simp only [Bool.false_eq_true, if_false, List.cons_append, List.cons.injEq] at h1
        obtain ⟨rfl, _⟩ := h1
        rintro i t (h | h) <;> cases h
      · rw [hs] at h1
        simp only [if_true, List.nil_append, List.cons_append, List.cons.injEq] at h1
        obtain ⟨rfl, _⟩ := h1
        exact hi.2 hs
  | step _ hs ih => exact ginv_step hp ho ih hs

end Bench
end Blobd
