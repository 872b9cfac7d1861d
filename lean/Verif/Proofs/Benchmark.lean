import Verif.Spec.Benchmark
set_option autoImplicit false
/-! # Benchmark runner: invariant of the runs -/
namespace Blobd
namespace Bench
open Stress (Bytes Call Ans about Ideal)
variable {c : Cfg} {s s' : St}

theorem key_inj {i j : Nat} (hi : i < 2 ^ 64) (hj : j < 2 ^ 64) (h : key i = key j) : i = j := by
  have h1 := beVal_beBytes_of_lt (n := 8) (x := i) (by omega)
  have h2 := beVal_beBytes_of_lt (n := 8) (x := j) (by omega)
  unfold key at h
  rw [h] at h1
  omega

theorem about_snoc (k : Bytes) (l : List (Call × Ans)) (e : Call × Ans) :
    about k (l ++ [e]) = about k l ++ (if e.1.key = k then [e] else []) := by
  unfold about
  rw [List.filter_append]
  congr 1
  by_cases h : e.1.key = k <;> simp [List.filter_cons, h]

theorem call_key {j : Job} {call : Call} (h : j.call c = some call) : call.key = key j.item.1 := by
  cases j <;> simp only [Job.call] at h
  case write => split at h <;> cases h; rfl
  case read => split at h <;> cases h; rfl
  all_goals cases h
  all_goals rfl

theorem next_item {j j' : Job} {ans : Ans} (h : j.next c ans = some j') : j'.item.1 = j.item.1 := by
  cases j <;> cases ans <;> simp only [Job.next] at h <;> first
    | (cases h; done)
    | (cases h; rfl)
    | (split at h <;> cases h; rfl)

theorem begin_item (p : Phase) (x : Nat × Nat) (off : Nat) : (Job.begin p x off).item.1 = x.1 := by cases p <;> rfl

theorem checkChunks_prefix : ∀ (chunks : List Bytes) (off : Nat), checkChunks c off chunks = true → chunks.flatten <+: c.pool.drop off
  | [], _, _ => List.nil_prefix
  | ch :: r, off, h => by
    simp only [checkChunks, Bool.and_eq_true, decide_eq_true_eq] at h
    obtain ⟨⟨h1, h2⟩, h3⟩ := h
    have ih := checkChunks_prefix r _ h3
    rw [List.flatten_cons]
    have e : c.pool.drop off = ch ++ c.pool.drop (off + ch.length) := by
      conv_lhs => rw [← List.take_append_drop ch.length (c.pool.drop off)]
      rw [← h2, List.drop_drop]
    rw [e]
    exact (List.prefix_append_right_inj ch).2 ih

theorem prefix_checkChunks : ∀ (chunks : List Bytes) (off : Nat), off ≤ c.pool.length → chunks.flatten <+: c.pool.drop off → checkChunks c off chunks = true
  | [], _, _, _ => rfl
  | ch :: r, off, ho, h => by
    rw [List.flatten_cons] at h
    have h1 : ch <+: c.pool.drop off := (List.prefix_append _ _).trans h
    have h2 : ch = (c.pool.drop off).take ch.length := List.prefix_iff_eq_take.1 h1
    have hl := h1.length_le
    rw [List.length_drop] at hl
    have e : c.pool.drop off = ch ++ c.pool.drop (off + ch.length) := by
      conv_lhs => rw [← List.take_append_drop ch.length (c.pool.drop off)]
      rw [← h2, List.drop_drop]
    rw [e] at h
    have h3 := (List.prefix_append_right_inj ch).1 h
    simp only [checkChunks, Bool.and_eq_true, decide_eq_true_eq]
    exact ⟨⟨by omega, h2⟩, prefix_checkChunks r _ (by omega) h3⟩

/-! ### What a finished task did -/

/-- writes from `off` on up to `stop`, which lies within or just behind `d` -/
inductive WritesTo (k : Bytes) (tok chunk : Nat) (d : Bytes) : List (Call × Ans) → Nat → Prop
  | nil : WritesTo k tok chunk d [] 0
  | snoc {l : List (Call × Ans)} {off : Nat} : WritesTo k tok chunk d l off → off < d.length →
      WritesTo k tok chunk d (l ++ [(.write k tok off ((d.drop off).take chunk), .written)]) (off + chunk)

theorem WritesTo.app {k : Bytes} {tok chunk : Nat} {d : Bytes} {l l' : List (Call × Ans)} {off : Nat} (h : WritesTo k tok chunk d l off)
    (h' : Writes k tok chunk d off l') : Writes k tok chunk d 0 (l ++ l') := by
  induction h generalizing l' with
  | nil => exact h'
  | snoc _ ho ih => rw [List.append_assoc]; exact ih (.more ho h')

inductive ReadsTo (k : Bytes) (len : Nat) (d : Bytes) : List (Call × Ans) → Nat → Prop
  | nil : ReadsTo k len d [] 0
  | snoc {l : List (Call × Ans)} {off : Nat} {chunks : List Bytes} : ReadsTo k len d l off → off < d.length → chunks.flatten <+: d.drop off →
      ReadsTo k len d (l ++ [(.read k none off (min d.length (off + len)), .read chunks)]) (off + len)

theorem ReadsTo.app {k : Bytes} {len : Nat} {d : Bytes} {l l' : List (Call × Ans)} {off : Nat} (h : ReadsTo k len d l off)
    (h' : Reads k len d off l') : Reads k len d 0 (l ++ l') := by
  induction h generalizing l' with
  | nil => exact h'
  | snoc _ ho hc ih => rw [List.append_assoc]; exact ih (.more ho hc h')

/-- the shapes a task can have after `l` -/
def Shape (c : Cfg) (p : Phase) (x : Nat × Nat) (off : Nat) (l : List (Call × Ans)) (j : Job) : Prop :=
  match p with
  | .write => ∃ o, j = .write x.1 x.2 o ∧ WritesTo (key x.1) x.2 c.chunk c.pool l o
  | .read => ∃ o, j = .read x.1 o ∧ ReadsTo (key x.1) c.readSize c.pool l o
  | .create => (j = .create x.1 ∧ l = []) ∨ ∃ tok, j = .over x.1 tok ∧ l = [(.create (key x.1) c.size, .created tok)]
  | .commit => (j = .commit x.1 x.2 ∧ l = []) ∨ ∃ id, j = .over x.1 x.2 ∧ l = [(.commit (key x.1) x.2, .committed id)]
  | .inspect => (j = .inspect x.1 ∧ l = []) ∨ ∃ id n, j = .over x.1 0 ∧ l = [(.inspect (key x.1) none, .inspected id n)]
  | .randomRead => (j = .random x.1 off ∧ l = []) ∨ ∃ chunks, j = .over x.1 0 ∧ chunks.flatten <+: c.pool.drop off ∧
      l = [(.read (key x.1) none off (off + min 4000 c.size), .read chunks)]
  | .delete => (j = .delete x.1 ∧ l = []) ∨ (j = .over x.1 0 ∧ l = [(.delete (key x.1) none, .deleted)])

theorem Shape.begin (p : Phase) (x : Nat × Nat) (off : Nat) : Shape c p x off [] (.begin p x off) := by
  cases p
  case write => exact ⟨0, rfl, .nil⟩
  case read => exact ⟨0, rfl, .nil⟩
  all_goals exact .inl ⟨rfl, rfl⟩

theorem Shape.step (hp : c.pool.length = c.size) {p : Phase} {x : Nat × Nat} {off : Nat} {l : List (Call × Ans)} {j j' : Job} {call : Call} {ans : Ans}
    (h : Shape c p x off l j) (hc : j.call c = some call) (hn : j.next c ans = some j') : Shape c p x off (l ++ [(call, ans)]) j' := by
  cases p
  case write =>
    obtain ⟨o, rfl, h⟩ := h
    simp only [Job.call] at hc
    split at hc
    · rename_i hg
      cases hc
      cases ans <;> simp only [Job.next] at hn <;> cases hn
      refine ⟨_, rfl, ?_⟩
      have e : (c.pool.drop o).take (min (c.size - o) c.chunk) = (c.pool.drop o).take c.chunk := by
        rw [Nat.min_comm, ← List.take_take, List.take_of_length_le (l := c.pool.drop o) (by rw [List.length_drop]; omega)]
      rw [e]
      exact .snoc h (by omega)
    · cases hc
  case read =>
    obtain ⟨o, rfl, h⟩ := h
    simp only [Job.call] at hc
    split at hc
    · rename_i hg
      cases hc
      cases ans <;> simp only [Job.next] at hn
      case read chunks =>
        split at hn
        · rename_i hk
          cases hn
          refine ⟨_, rfl, ?_⟩
          have e : o + (min c.size (o + c.readSize) - o) = min c.pool.length (o + c.readSize) := by omega
          rw [e]
          exact .snoc h (by omega) (checkChunks_prefix _ _ hk)
        · cases hn
      all_goals cases hn
    · cases hc
  case create =>
    rcases h with ⟨rfl, rfl⟩ | ⟨tok, rfl, rfl⟩
    · cases hc
      cases ans <;> simp only [Job.next] at hn <;> cases hn
      exact .inr ⟨_, rfl, rfl⟩
    · cases hc
  case commit =>
    rcases h with ⟨rfl, rfl⟩ | ⟨id, rfl, rfl⟩
    · cases hc
      cases ans <;> simp only [Job.next] at hn <;> cases hn
      exact .inr ⟨_, rfl, rfl⟩
    · cases hc
  case inspect =>
    rcases h with ⟨rfl, rfl⟩ | ⟨id, n, rfl, rfl⟩
    · cases hc
      cases ans <;> simp only [Job.next] at hn <;> cases hn
      exact .inr ⟨_, _, rfl, rfl⟩
    · cases hc
  case randomRead =>
    rcases h with ⟨rfl, rfl⟩ | ⟨chunks, rfl, _, rfl⟩
    · cases hc
      cases ans <;> simp only [Job.next] at hn
      case read chunks =>
        split at hn
        · rename_i hk
          cases hn
          exact .inr ⟨_, rfl, checkChunks_prefix _ _ hk, rfl⟩
        · cases hn
      all_goals cases hn
    · cases hc
  case delete =>
    rcases h with ⟨rfl, rfl⟩ | ⟨rfl, rfl⟩
    · cases hc
      cases ans <;> simp only [Job.next] at hn <;> cases hn
      exact .inr ⟨rfl, rfl⟩
    · cases hc

theorem Shape.item {p : Phase} {x : Nat × Nat} {off : Nat} {l : List (Call × Ans)} {j : Job} (h : Shape c p x off l j) : j.item.1 = x.1 := by
  cases p <;> simp only [Shape] at h
  case write => obtain ⟨_, rfl, _⟩ := h; rfl
  case read => obtain ⟨_, rfl, _⟩ := h; rfl
  case create => rcases h with ⟨rfl, _⟩ | ⟨_, rfl, _⟩ <;> rfl
  case commit => rcases h with ⟨rfl, _⟩ | ⟨_, rfl, _⟩ <;> rfl
  case inspect => rcases h with ⟨rfl, _⟩ | ⟨_, _, rfl, _⟩ <;> rfl
  case randomRead => rcases h with ⟨rfl, _⟩ | ⟨_, rfl, _⟩ <;> rfl
  case delete => rcases h with ⟨rfl, _⟩ | ⟨rfl, _⟩ <;> rfl

theorem random_fits {off : Nat} (h : RandomOk c off) : off + min 4000 c.size ≤ c.size := by
  unfold RandomOk at h
  split at h <;> omega

/-- the token a finished task stands for -/
def tokOf (p : Phase) (x : Nat × Nat) (j : Job) : Nat × Nat := if p = .create then j.item else x

theorem Shape.performed (hp : c.pool.length = c.size) {p : Phase} {x : Nat × Nat} {off : Nat} {l : List (Call × Ans)} {j : Job} (h : Shape c p x off l j)
    (ho : RandomOk c off) (hf : j.finished c = true) : Performed c p x.1 (tokOf p x j).2 l := by
  cases p <;> simp only [Shape] at h
  case write =>
    obtain ⟨o, rfl, h⟩ := h
    simp only [Job.finished, decide_eq_true_eq] at hf
    have := h.app (.done (by omega))
    rw [List.append_nil] at this
    exact this
  case read =>
    obtain ⟨o, rfl, h⟩ := h
    simp only [Job.finished, decide_eq_true_eq] at hf
    have := h.app (.done (by omega))
    rw [List.append_nil] at this
    exact this
  case create =>
    rcases h with ⟨rfl, _⟩ | ⟨_, rfl, rfl⟩
    · cases hf
    · rfl
  case commit =>
    rcases h with ⟨rfl, _⟩ | ⟨id, rfl, rfl⟩
    · cases hf
    · exact ⟨id, rfl⟩
  case inspect =>
    rcases h with ⟨rfl, _⟩ | ⟨id, n, rfl, rfl⟩
    · cases hf
    · exact ⟨id, n, rfl⟩
  case randomRead =>
    rcases h with ⟨rfl, _⟩ | ⟨chunks, rfl, h1, rfl⟩
    · cases hf
    · exact ⟨off, chunks, random_fits ho, h1, rfl⟩
  case delete =>
    rcases h with ⟨rfl, _⟩ | ⟨rfl, rfl⟩
    · cases hf
    · rfl

/-! ### The invariant -/

structure Cur (c : Cfg) (p : Phase) (todo : List (Nat × Nat)) (running : List Job) (log : List (Call × Ans)) (toks fin : List (Nat × Nat)) : Prop where
  perm : (todo.map (fun x => x.1) ++ (running.map (fun j => j.item.1) ++ fin.map (fun x => x.1))).Perm (List.range c.objects)
  todo : ∀ x ∈ todo, about (key x.1) log = [] ∧ (p = .write ∨ p = .commit → x ∈ toks)
  run : ∀ j ∈ running, ∃ x off, RandomOk c off ∧ Shape c p x off (about (key j.item.1) log) j ∧ (p = .write ∨ p = .commit → x ∈ toks)
  fin : ∀ x ∈ fin, Performed c p x.1 x.2 (about (key x.1) log) ∧ (p = .write ∨ p = .commit → x ∈ toks)
  keys : ∀ e ∈ log, ∃ i, i < c.objects ∧ e.1.key = key i

/-- what is known of a finished phase -/
structure Good (c : Cfg) (toks : List (Nat × Nat)) (d : Done) : Prop where
  latencies : d.latencies = c.objects
  keys : ∀ e ∈ d.log, ∃ i, i < c.objects ∧ e.1.key = key i
  each : ∀ i, i < c.objects → ∃ tok, (d.phase = .create ∨ d.phase = .write ∨ d.phase = .commit → (i, tok) ∈ toks) ∧
    Performed c d.phase i tok (about (key i) d.log)

structure Inv (c : Cfg) (s : St) : Prop where
  split : s.past.map (fun d => d.phase) ++ s.phases = phases c
  cur : s.panicked = false → ∀ p ps, s.phases = p :: ps → ∃ fin, Cur c p s.todo s.running s.log s.toks fin ∧ fin.length = s.latencies ∧ (p = .create → fin = s.toks)
  toks : c.skipCreation = false → s.phases.head? ≠ some .create → (s.toks.map (fun x => x.1)).Perm (List.range c.objects)
  past : ∀ d ∈ s.past, Good c s.toks d

theorem later_phase {a ps : List Phase} {p p' : Phase} (h : a ++ p :: p' :: ps = phases c) :
    p' ≠ .create ∧ (p' = .write ∨ p' = .commit → c.skipCreation = false) := by
  have ht : p' ∈ (phases c).tail := by
    rw [← h]
    cases a <;> simp
  unfold phases at ht
  cases hs : c.skipCreation <;> cases hd : c.skipDeletion <;> rw [hs, hd] at ht <;> revert ht <;> cases p' <;> decide

theorem first_phase {ps : List Phase} {p : Phase} (h : phases c = p :: ps) :
    (p = .create ∧ c.skipCreation = false) ∨ (p = .inspect ∧ c.skipCreation = true) := by
  unfold phases at h
  cases hs : c.skipCreation <;> rw [hs] at h
  · simp only [Bool.false_eq_true, if_false, List.cons_append, List.cons.injEq] at h
    exact .inl ⟨h.1.symm, rfl⟩
  · simp only [if_true, List.nil_append, List.cons_append, List.cons.injEq] at h
    exact .inr ⟨h.1.symm, rfl⟩

theorem items_fst (toks : List (Nat × Nat)) (p : Phase) (h : p = .write ∨ p = .commit → (toks.map (fun x => x.1)).Perm (List.range c.objects)) :
    ((items c toks p).map (fun x => x.1)).Perm (List.range c.objects) := by
  cases p
  case write => exact h (.inl rfl)
  case commit => exact h (.inr rfl)
  all_goals
    simp only [items, List.map_map]
    exact .of_eq (by
      conv_rhs => rw [← List.map_id (List.range c.objects)]
      rfl)

theorem cur_begin {p : Phase} {toks l : List (Nat × Nat)} (hl : l.Perm (items c toks p))
    (h : p = .write ∨ p = .commit → (toks.map (fun x => x.1)).Perm (List.range c.objects)) : Cur c p l [] [] toks [] := by
  refine ⟨?_, ?_, by simp, by simp, by simp⟩
  · simp only [List.map_nil, List.append_nil]
    exact (hl.map _).trans (items_fst toks p h)
  · intro x hx
    refine ⟨rfl, ?_⟩
    intro hp
    have := hl.mem_iff.1 hx
    rcases hp with rfl | rfl <;> exact this

theorem good_of_cur {p : Phase} {log : List (Call × Ans)} {toks fin : List (Nat × Nat)} {n : Nat} (h : Cur c p [] [] log toks fin)
    (hn : fin.length = n) (hc : p = .create → fin = toks) : Good c toks ⟨p, n, log⟩ := by
  have hp := h.perm
  simp only [List.map_nil, List.nil_append] at hp
  refine ⟨?_, h.keys, ?_⟩
  · have := hp.length_eq
    simp only [List.length_map, List.length_range] at this
    exact hn.symm.trans this
  · intro i hi
    obtain ⟨x, hx, rfl⟩ := List.mem_map.1 (hp.mem_iff.2 (List.mem_range.2 hi))
    refine ⟨x.2, ?_, (h.fin x hx).1⟩
    rintro (hp | hp)
    · rw [← hc hp]; exact hx
    · exact (h.fin x hx).2 hp

theorem Good.mono {toks toks' : List (Nat × Nat)} {d : Done} (h : Good c toks d) (hs : ∀ x ∈ toks, x ∈ toks') : Good c toks' d :=
  ⟨h.latencies, h.keys, fun i hi => by
    obtain ⟨tok, h1, h2⟩ := h.each i hi
    exact ⟨tok, fun hp => hs _ (h1 hp), h2⟩⟩

/-- the calls about an object do not change when another one's are logged -/
theorem about_other (ho : c.objects ≤ 2 ^ 64) {i j : Nat} (hi : i < c.objects) (hj : j < c.objects) (hne : i ≠ j) (log : List (Call × Ans)) (e : Call × Ans)
    (he : e.1.key = key j) : about (key i) (log ++ [e]) = about (key i) log := by
  rw [about_snoc, if_neg, List.append_nil]
  rw [he]
  intro h
  exact hne (key_inj (by omega) (by omega) h.symm)

theorem cur_log (ho : c.objects ≤ 2 ^ 64) {p : Phase} {todo : List (Nat × Nat)} {a b : List Job} {j : Job} {log : List (Call × Ans)}
    {toks fin : List (Nat × Nat)} (h : Cur c p todo (a ++ j :: b) log toks fin) (e : Call × Ans) (he : e.1.key = key j.item.1) :
    j.item.1 < c.objects ∧ (∀ x ∈ todo, about (key x.1) (log ++ [e]) = about (key x.1) log) ∧
    (∀ x ∈ fin, about (key x.1) (log ++ [e]) = about (key x.1) log) ∧
    (∀ k ∈ a ++ b, about (key k.item.1) (log ++ [e]) = about (key k.item.1) log) := by
  have hn := h.perm.nodup_iff.2 List.nodup_range
  have hm : ∀ i ∈ (todo.map (fun x => x.1) ++ ((a ++ j :: b).map (fun j => j.item.1) ++ fin.map (fun x => x.1))), i < c.objects :=
    fun i hi => List.mem_range.1 (h.perm.mem_iff.1 hi)
  have hj : j.item.1 < c.objects := hm _ (by simp)
  have hsplit : (j.item.1 :: (todo.map (fun x => x.1) ++ ((a ++ b).map (fun j => j.item.1) ++ fin.map (fun x => x.1)))).Nodup := by
    refine (List.Perm.nodup_iff ?_).1 hn
    simp only [List.map_append, List.map_cons, List.append_assoc, List.cons_append]
    rw [← List.append_assoc, ← List.append_assoc]
    exact List.perm_middle
  rw [List.nodup_cons] at hsplit
  refine ⟨hj, ?_, ?_, ?_⟩
  · intro x hx
    refine about_other ho (hm _ (by simp only [List.mem_append, List.mem_map]; exact .inl ⟨x, hx, rfl⟩)) hj ?_ log e he
    rintro heq
    exact hsplit.1 (by rw [← heq]; simp only [List.mem_append, List.mem_map]; exact .inl ⟨x, hx, rfl⟩)
  · intro x hx
    refine about_other ho (hm _ (by simp only [List.mem_append, List.mem_map]; exact .inr (.inr ⟨x, hx, rfl⟩))) hj ?_ log e he
    rintro heq
    exact hsplit.1 (by rw [← heq]; simp only [List.mem_append, List.mem_map]; exact .inr (.inr ⟨x, hx, rfl⟩))
  · intro x hx
    refine about_other ho (hm _ ?_) hj ?_ log e he
    · simp only [List.mem_append, List.mem_map, List.mem_cons] at hx ⊢
      rcases hx with hx | hx
      · exact .inr (.inl ⟨x, .inl hx, rfl⟩)
      · exact .inr (.inl ⟨x, .inr (.inr hx), rfl⟩)
    · rintro heq
      apply hsplit.1
      rw [← heq]
      exact List.mem_append_right _ (List.mem_append_left _ (List.mem_map.2 ⟨x, hx, rfl⟩))

theorem inv_start (h : Start c s) : Inv c s := by
  obtain ⟨h1, h2⟩ := h
  rename_i p ps l
  have hf := first_phase h1
  refine ⟨by rw [h1]; rfl, ?_, ?_, by simp⟩
  · intro _ p' ps' hp
    simp only [List.cons.injEq] at hp
    obtain ⟨rfl, rfl⟩ := hp
    refine ⟨[], cur_begin h2 ?_, rfl, fun _ => rfl⟩
    rcases hf with ⟨rfl, _⟩ | ⟨rfl, _⟩ <;> rintro (h | h) <;> cases h
  · intro hs hh
    rcases hf with ⟨rfl, _⟩ | ⟨rfl, hs'⟩
    · exact absurd rfl hh
    · rw [hs] at hs'; cases hs'

theorem inv_step (hp : c.pool.length = c.size) (ho : c.objects ≤ 2 ^ 64) (h : Inv c s) {lb : Lbl} (hs : Step c s lb s') : Inv c s' := by
  cases hs with
  | @start p ps x r off h1 h2 h3 h4 h5 =>
    refine ⟨h.split, ?_, h.toks, h.past⟩
    intro _ p' ps' hp'
    obtain ⟨fin, hc, hn, hcr⟩ := h.cur h1 p' ps' hp'
    have e : p' = p := by
      have : p' :: ps' = p :: ps := hp'.symm.trans h2
      cases this; rfl
    subst e
    rw [h3] at hc
    refine ⟨fin, ⟨?_, fun y hy => hc.todo y (by simp [hy]), ?_, hc.fin, hc.keys⟩, hn, hcr⟩
    · refine .trans ?_ hc.perm
      simp only [List.map_append, List.map_cons, List.map_nil, begin_item, List.append_assoc, List.cons_append, List.nil_append]
      rw [← List.append_assoc]
      exact List.perm_middle.trans (.of_eq (by simp))
    · intro j hj
      rcases List.mem_append.1 hj with hj | hj
      · exact hc.run j hj
      · cases List.mem_singleton.1 hj
        obtain ⟨e, ht⟩ := hc.todo x (by simp)
        refine ⟨x, off, h5, ?_, ht⟩
        rw [begin_item, e]
        exact .begin _ _ _
  | @answer a b j j' call ans h1 h2 h3 h4 =>
    refine ⟨h.split, ?_, h.toks, h.past⟩
    intro _ p ps hp'
    obtain ⟨fin, hc, hn, hcr⟩ := h.cur h1 p ps hp'
    rw [h2] at hc
    have hk : ((call, ans) : Call × Ans).1.key = key j.item.1 := call_key h3
    obtain ⟨g0, g1, g2, g3⟩ := cur_log ho hc (call, ans) hk
    have hi := next_item h4
    refine ⟨fin, ⟨?_, fun y hy => ?_, ?_, fun y hy => ?_, ?_⟩, hn, hcr⟩
    · have := hc.perm
      simp only [List.map_append, List.map_cons, hi] at this ⊢
      exact this
    · rw [g1 y hy]; exact hc.todo y hy
    · intro k hk'
      rw [List.mem_append, List.mem_cons] at hk'
      rcases hk' with hk' | rfl | hk'
      · rw [g3 k (by simp [hk'])]; exact hc.run k (by simp [hk'])
      · obtain ⟨x, off, q1, q2, q3⟩ := hc.run j (by simp)
        refine ⟨x, off, q1, ?_, q3⟩
        rw [hi, about_snoc, if_pos hk]
        exact q2.step hp h3 h4
      · rw [g3 k (by simp [hk'])]; exact hc.run k (by simp [hk'])
    · rw [g2 y hy]; exact hc.fin y hy
    · intro e he
      rcases List.mem_append.1 he with he | he
      · exact hc.keys e he
      · cases List.mem_singleton.1 he
        exact ⟨_, g0, hk⟩
  | @wrong a b j call ans h1 h2 h3 h4 =>
    refine ⟨h.split, ?_, h.toks, h.past⟩
    intro hf
    cases hf
  | @finish p ps a b j h1 h2 h3 h4 =>
    have hmono : ∀ x ∈ s.toks, x ∈ (if p = .create then s.toks ++ [j.item] else s.toks) := by
      intro x hx
      split
      · simp [hx]
      · exact hx
    refine ⟨h.split, ?_, ?_, fun d hd => (h.past d hd).mono hmono⟩
    · intro _ p' ps' hp'
      obtain ⟨fin, hc, hn, hcr⟩ := h.cur h1 p' ps' hp'
      have e : p' = p := by
        have : p' :: ps' = p :: ps := hp'.symm.trans h2
        cases this; rfl
      subst e
      rw [h3] at hc
      obtain ⟨x, off, q1, q2, q3⟩ := hc.run j (by simp)
      have hx := q2.item
      have hx1 : (tokOf p' x j).1 = j.item.1 := by
        unfold tokOf
        split
        · rfl
        · exact hx.symm
      refine ⟨fin ++ [tokOf p' x j], ⟨?_, fun y hy => ⟨(hc.todo y hy).1, fun hq => hmono _ ((hc.todo y hy).2 hq)⟩, ?_, ?_, hc.keys⟩, by simp [hn], ?_⟩
      · refine .trans ?_ hc.perm
        simp only [List.map_append, List.map_cons, List.map_nil, hx1, List.append_assoc, List.cons_append]
        refine .append_left _ (.append_left _ ?_)
        rw [← List.append_assoc]
        exact List.perm_append_singleton _ _
      · intro k hk
        obtain ⟨x, off, q1, q2, q3⟩ := hc.run k (by simp only [List.mem_append, List.mem_cons] at hk ⊢; tauto)
        exact ⟨x, off, q1, q2, fun hq => hmono _ (q3 hq)⟩
      · intro y hy
        rcases List.mem_append.1 hy with hy | hy
        · exact ⟨(hc.fin y hy).1, fun hq => hmono _ ((hc.fin y hy).2 hq)⟩
        · cases List.mem_singleton.1 hy
          refine ⟨?_, ?_⟩
          · have := q2.performed hp q1 h4
            rw [hx1]
            rw [← hx] at this
            exact this
          · intro hq
            refine hmono _ ?_
            unfold tokOf
            rw [if_neg (by rcases hq with rfl | rfl <;> simp)]
            exact q3 hq
      · intro hcr'
        rw [hcr hcr', if_pos hcr']
        unfold tokOf
        rw [if_pos hcr']
    · intro hs hh
      have hne : p ≠ .create := by
        rintro rfl
        exact hh (by simp only [h2]; rfl)
      simp only [if_neg hne]
      exact h.toks hs hh
  | @phase p p' ps l h1 h2 h3 h4 h5 =>
    obtain ⟨fin, hc, hn, hcr⟩ := h.cur h1 p (p' :: ps) h2
    rw [h3, h4] at hc
    have hsp := h.split
    rw [h2] at hsp
    obtain ⟨l1, l2⟩ := later_phase hsp
    have htk : c.skipCreation = false → (s.toks.map (fun x => x.1)).Perm (List.range c.objects) := by
      intro hsk
      by_cases hpc : p = .create
      · rw [← hcr hpc]
        have := hc.perm
        simpa using this
      · exact h.toks hsk (by rw [h2]; simpa using hpc)
    refine ⟨by simp only [List.map_append, List.append_assoc]; exact hsp, ?_, fun hsk _ => htk hsk, ?_⟩
    · intro _ q qs hq
      simp only [List.cons.injEq] at hq
      obtain ⟨rfl, rfl⟩ := hq
      rw [h4]
      exact ⟨[], cur_begin h5 (fun hq => htk (l2 hq)), rfl, fun hq => absurd hq l1⟩
    · intro d hd
      rcases List.mem_append.1 hd with hd | hd
      · exact h.past d hd
      · cases List.mem_singleton.1 hd
        exact good_of_cur hc hn hcr
  | @results p h1 h2 h3 h4 =>
    obtain ⟨fin, hc, hn, hcr⟩ := h.cur h1 p [] h2
    rw [h3, h4] at hc
    have hsp := h.split
    rw [h2] at hsp
    refine ⟨by simp only [List.map_append, List.append_nil]; exact hsp, fun _ q qs hq => (by cases hq), ?_, ?_⟩
    · intro hsk _
      by_cases hpc : p = .create
      · rw [← hcr hpc]
        have := hc.perm
        simpa using this
      · exact h.toks hsk (by rw [h2]; simpa using hpc)
    · intro d hd
      rcases List.mem_append.1 hd with hd | hd
      · exact h.past d hd
      · cases List.mem_singleton.1 hd
        exact good_of_cur hc hn hcr
  | crash h1 => exact ⟨h.split, fun hf => (by cases hf), h.toks, h.past⟩

theorem reach_inv (hp : c.pool.length = c.size) (ho : c.objects ≤ 2 ^ 64) (h : Reach c s) : Inv c s := by
  induction h with
  | start h => exact inv_start h
  | step _ hs ih => exact inv_step hp ho ih hs

end Bench
end Blobd
