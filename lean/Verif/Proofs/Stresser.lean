import Verif.Spec.Stresser
import Mathlib.Data.List.Perm.Basic
/-! Proofs about the stress tester. -/
set_option autoImplicit false
namespace Blobd
namespace Stress

variable {c : Cfg}

structure PFacts (c : Cfg) (p : Params) : Prop where
  key : p.keyOff + p.keyLen < c.pool.length
  k1 : 1 ≤ p.keyLen
  data : p.dataOff + p.dataLen < c.pool.length
  d1 : 1 ≤ p.dataLen

theorem params_facts {i : Nat} {p : Params} (h : params c i = some p) : p.pfx = i ∧ PFacts c p := by
  unfold params at h
  split at h
  · cases h
  · dsimp only at h
    split at h
    · cases h
    · rename_i h1 h2
      simp only [not_or, Nat.not_le] at h2
      simp only [Option.some.injEq] at h
      subst h
      refine ⟨rfl, ?_, by simp, ?_, by simp⟩
      · have := Nat.mod_lt (c.hKeyOff i) (show 0 < c.pool.length - (c.hKeyLen i % (c.keyMax - 1) + 1) by omega)
        simp only; omega
      · have := Nat.mod_lt (c.hDataOff i) (show 0 < c.pool.length - (c.hDataLen i % (c.maxObj - 1) + 1) by omega)
        simp only; omega

theorem poolGet_len {off len : Nat} (h : off + len ≤ c.pool.length) : (poolGet c off len).length = len := by
  simp [poolGet]; omega

theorem data_len {p : Params} (h : PFacts c p) : (data c p).length = p.dataLen := by
  have := h.data
  exact poolGet_len (by omega)

theorem poolGet_data {p : Params} {off len : Nat} (h : off + len ≤ p.dataLen) :
    poolGet c (p.dataOff + off) len = ((data c p).drop off).take len := by
  simp only [data, poolGet, List.drop_take, List.take_take, List.drop_drop]
  congr 1; omega

theorem key_inj {p q : Params} (hp : p.pfx < 2 ^ 64) (hq : q.pfx < 2 ^ 64) (h : key c p = key c q) : p.pfx = q.pfx := by
  unfold key at h
  have h1 := (List.append_inj h (by simp)).1
  have h2 := congrArg leVal h1
  rw [leVal_leBytes, leVal_leBytes] at h2
  have : (256 : Nat) ^ 8 = 2 ^ 64 := by decide
  rw [this, Nat.mod_eq_of_lt hp, Nat.mod_eq_of_lt hq] at h2
  exact h2

theorem checkChunks_ok {p : Params} {stop : Nat} : ∀ {chunks : List Bytes} {off off' : Nat}, checkChunks c p stop off chunks = some off' →
    stop ≤ p.dataLen → off' = stop ∧ off ≤ stop ∧ chunks.flatten = ((data c p).drop off).take (stop - off) := by
  intro chunks
  induction chunks with
  | nil =>
    intro off off' h _
    simp only [checkChunks] at h
    split at h
    · cases h; subst_vars; simp
    · cases h
  | cons ch r ih =>
    intro off off' h hs
    simp only [checkChunks] at h
    split at h
    · rename_i hc
      obtain ⟨h1, h2, h3⟩ := ih h hs
      refine ⟨h1, by omega, ?_⟩
      rw [List.flatten_cons, h3]
      have hch := hc.1
      rw [poolGet_data (by omega)] at hch
      have hd : ((data c p).drop (off + ch.length)) = ((data c p).drop off).drop ch.length := by rw [List.drop_drop]
      rw [hd]
      conv_lhs => arg 1; rw [hch]
      rw [show stop - off = ch.length + (stop - (off + ch.length)) by omega, List.take_add]
    · cases h

/-- what completes a test from this task on -/
def Tail (c : Cfg) : Task → List (Call × Ans) → Prop
  | .create p, l => Passed (key c p) c.lpage (data c p) l
  | .write p tok off, l => ∃ id ws rs, Parts (key c p) tok c.lpage (data c p) off ws ∧ Reads (key c p) id (data c p) 0 rs ∧
      l = ws ++ (.commit (key c p) tok, .committed id) :: (.inspect (key c p) id, .inspected id (data c p).length) :: rs ++
        [(.delete (key c p) id, .deleted)]
  | .commit p tok, l => ∃ id rs, Reads (key c p) id (data c p) 0 rs ∧
      l = (.commit (key c p) tok, .committed id) :: (.inspect (key c p) id, .inspected id (data c p).length) :: rs ++
        [(.delete (key c p) id, .deleted)]
  | .inspect p id, l => ∃ rs, Reads (key c p) id (data c p) 0 rs ∧
      l = (.inspect (key c p) id, .inspected id (data c p).length) :: rs ++ [(.delete (key c p) id, .deleted)]
  | .read p off id, l => ∃ rs, Reads (key c p) id (data c p) off rs ∧ l = rs ++ [(.delete (key c p) id, .deleted)]
  | .delete p id, l => l = [(.delete (key c p) id, .deleted)]

structure TaskOk (c : Cfg) (t : Task) : Prop where
  par : params c t.p.pfx = some t.p
  lt : t.p.pfx < c.objects
  off : match t with
    | .write p _ off => off < p.dataLen
    | .read p off _ => off < p.dataLen
    | _ => True

theorem TaskOk.facts {t : Task} (h : TaskOk c t) : PFacts c t.p := (params_facts h.par).2

theorem call_key (t : Task) (stop : Nat) : (t.call c stop).key = key c t.p := by cases t <;> rfl

/-- one step of a test -/
theorem next_send (hl : 0 < c.lpage) {t t' : Task} {stop : Nat} {ans : Ans} (ht : TaskOk c t) (hs : t.stopOk stop) (h : t.next c stop ans = .send t') :
    TaskOk c t' ∧ t'.p = t.p ∧ ∀ rest, Tail c t' rest → Tail c t ((t.call c stop, ans) :: rest) := by
  have hF := ht.facts
  have hlen := data_len hF
  obtain ⟨par, lt, hoff⟩ := ht
  cases t with
  | create p =>
    cases ans <;> simp only [Task.next, Next.send.injEq, reduceCtorEq] at h
    subst h
    refine ⟨⟨par, lt, hF.d1⟩, rfl, ?_⟩
    rintro rest ⟨id, ws, rs, h1, h2, rfl⟩
    refine ⟨_, id, ws, rs, h1, h2, ?_⟩
    simp only [Task.call]
    simp only [Task.p] at hlen
    rw [hlen]
    rfl
  | write p tok off =>
    cases ans <;> simp only [Task.next, Next.send.injEq, reduceCtorEq] at h
    simp only [Task.p] at hlen hF
    simp only at hoff
    split at h
    · rename_i hlt
      subst h
      refine ⟨⟨par, lt, hlt⟩, rfl, ?_⟩
      rintro rest ⟨id, ws, rs, h1, h2, rfl⟩
      refine ⟨id, _, rs, .more (by rw [hlen]; exact hlt) h1, h2, ?_⟩
      simp only [Task.call, chunkLen, if_pos (Nat.le_of_lt hlt), poolGet_data (Nat.le_of_lt hlt)]
      rfl
    · rename_i hlt
      subst h
      refine ⟨⟨par, lt, trivial⟩, rfl, ?_⟩
      rintro rest ⟨id, rs, h2, rfl⟩
      refine ⟨id, _, rs, .last (by rw [hlen]; exact hoff) (by rw [hlen]; omega), h2, ?_⟩
      have hcl : chunkLen c p off = p.dataLen - off := by
        unfold chunkLen; split <;> omega
      simp only [Task.call, hcl, poolGet_data (show off + (p.dataLen - off) ≤ p.dataLen by omega)]
      rw [List.take_of_length_le (by rw [List.length_drop]; omega)]
      rfl
  | commit p tok =>
    cases ans <;> simp only [Task.next, Next.send.injEq, reduceCtorEq] at h
    subst h
    refine ⟨⟨par, lt, trivial⟩, rfl, ?_⟩
    rintro rest ⟨rs, h1, rfl⟩
    exact ⟨_, rs, h1, rfl⟩
  | inspect p id =>
    cases ans with
    | inspected id' size =>
      simp only [Task.next] at h
      split at h <;> simp only [Next.send.injEq, reduceCtorEq] at h
      rename_i hc
      obtain ⟨rfl, rfl⟩ := hc
      subst h
      refine ⟨⟨par, lt, hF.d1⟩, rfl, ?_⟩
      rintro rest ⟨rs, h1, rfl⟩
      refine ⟨rs, h1, ?_⟩
      simp only [Task.p] at hlen
      simp only [Task.call, hlen]
      rfl
    | _ => simp only [Task.next, reduceCtorEq] at h
  | read p off id =>
    cases ans with
    | read chunks =>
      simp only [Task.next] at h
      simp only [Task.p] at hlen hF
      simp only [Task.stopOk] at hs
      split at h <;> simp only [Next.send.injEq, reduceCtorEq] at h
      rename_i off' hch
      obtain ⟨rfl, h1, h2⟩ := checkChunks_ok hch hs.2
      split at h
      · rename_i hlt
        subst h
        refine ⟨⟨par, lt, hlt⟩, rfl, ?_⟩
        rintro rest ⟨rs, g1, rfl⟩
        exact ⟨_, .more (by omega) (by rw [hlen]; exact hlt) h2 g1, rfl⟩
      · rename_i hlt
        subst h
        have he : off' = p.dataLen := by omega
        refine ⟨⟨par, lt, trivial⟩, rfl, ?_⟩
        rintro rest rfl
        rw [he] at h2 ⊢
        refine ⟨_, .last (chunks := chunks) (by rw [hlen]; exact hoff) ?_, ?_⟩
        · rw [h2, List.take_of_length_le (by rw [List.length_drop]; omega)]
        · simp only [Task.call, hlen]; rfl
    | _ => simp only [Task.next, reduceCtorEq] at h
  | delete p id =>
    cases ans <;> simp only [Task.next, reduceCtorEq] at h

theorem next_done {t : Task} {stop : Nat} {ans : Ans} (h : t.next c stop ans = .done) : Tail c t [(t.call c stop, ans)] := by
  cases t with
  | delete p id =>
    cases ans with
    | deleted => rfl
    | _ => simp [Task.next] at h
  | create | commit => cases ans <;> simp [Task.next] at h
  | write => cases ans <;> simp [Task.next] at h
  | inspect =>
    cases ans with
    | inspected => simp only [Task.next] at h; split at h <;> cases h
    | _ => simp [Task.next] at h
  | read =>
    cases ans with
    | read => simp only [Task.next] at h; split at h <;> cases h
    | _ => simp [Task.next] at h

/-! ## All objects -/

/-- the task a worker has -/
def W.task : W → Option Task
  | .busy t _ => some t
  | .dead t => some t
  | _ => none

/-- the task a worker is at -/
def W.live : W → Option Task
  | .busy t _ => some t
  | _ => none

def pend (s : St) : List Task := s.queue ++ s.workers.filterMap W.task

def pids (s : St) : List Nat := (pend s).map (fun t => t.p.pfx)

structure Inv (c : Cfg) (s : St) : Prop where
  ok : ∀ t ∈ pend s, TaskOk c t
  stops : ∀ t stop, .busy t stop ∈ s.workers → t.stopOk stop
  nodup : (pids s).Nodup
  count : s.deletes + (pids s).length = c.objects
  stage : ∀ t, t ∈ s.queue ∨ t ∈ s.workers.filterMap W.live → ∀ rest, Tail c t rest →
    Passed (key c t.p) c.lpage (data c t.p) (about (key c t.p) s.log ++ rest)
  passed : ∀ i, i < c.objects → i ∉ pids s → ∃ p, params c i = some p ∧ Passed (key c p) c.lpage (data c p) (about (key c p) s.log)
  compl : s.complete = true → s.deletes = c.objects
  exits : .exited ∈ s.workers → s.complete = true

theorem about_append {k : Bytes} {l l' : List (Call × Ans)} : about k (l ++ l') = about k l ++ about k l' := by simp [about]

theorem about_same {t : Task} {stop : Nat} {ans : Ans} {l : List (Call × Ans)} :
    about (key c t.p) (l ++ [(t.call c stop, ans)]) = about (key c t.p) l ++ [(t.call c stop, ans)] := by
  simp [about, call_key]

theorem about_other {t : Task} {p : Params} (hk : key c t.p ≠ key c p) {stop : Nat} {ans : Ans} {l : List (Call × Ans)} :
    about (key c p) (l ++ [(t.call c stop, ans)]) = about (key c p) l := by
  simp [about, call_key, hk]

theorem mapM_start : ∀ {l : List Nat} {q : List Task}, l.mapM (fun i => (params c i).map Task.create) = some q →
    q.map (fun t => t.p.pfx) = l ∧ ∀ t ∈ q, ∃ p, t = .create p ∧ params c p.pfx = some p := by
  intro l
  induction l with
  | nil => intro q h; simp only [List.mapM_nil, Option.pure_def, Option.some.injEq] at h; subst h; simp
  | cons x l ih =>
    intro q h
    simp only [List.mapM_cons, Option.bind_eq_bind, Option.bind_eq_some_iff, Option.pure_def, Option.some.injEq, Option.map_eq_some_iff] at h
    obtain ⟨b, ⟨p, h1, rfl⟩, r, h2, rfl⟩ := h
    obtain ⟨g1, g2⟩ := ih h2
    obtain ⟨e, _⟩ := params_facts h1
    refine ⟨by rw [List.map_cons, g1]; simp [Task.p, e], ?_⟩
    intro t ht
    rcases List.mem_cons.1 ht with rfl | ht
    · exact ⟨p, rfl, by rw [e]; exact h1⟩
    · exact g2 t ht

theorem filterMap_idle {β : Type} {f : W → Option β} (h : f .idle = none) (n : Nat) : (List.replicate n W.idle).filterMap f = [] := by
  induction n with
  | zero => rfl
  | succ n ih => simp [List.replicate_succ, h, ih]

theorem inv_start {q : List Task} {n : Nat} (h : tasks c = some q) : Inv c ⟨q, List.replicate n .idle, 0, false, []⟩ := by
  obtain ⟨h1, h2⟩ := mapM_start h
  have hp : pend ⟨q, List.replicate n .idle, 0, false, []⟩ = q := by
    simp only [pend, filterMap_idle (f := W.task) rfl, List.append_nil]
  have hi : pids ⟨q, List.replicate n .idle, 0, false, []⟩ = List.range c.objects := by simp only [pids, hp, h1]
  refine ⟨?_, ?_, ?_, ?_, ?_, ?_, by simp, ?_⟩
  · intro t ht
    rw [hp] at ht
    obtain ⟨p, rfl, e⟩ := h2 t ht
    refine ⟨e, ?_, trivial⟩
    have : (Task.create p).p.pfx ∈ List.range c.objects := by rw [← h1]; exact List.mem_map_of_mem ht
    simpa using this
  · intro t stop ht
    simp only [List.mem_replicate, reduceCtorEq, and_false] at ht
  · rw [hi]; exact List.nodup_range
  · rw [hi]; simp
  · intro t ht rest hr
    simp only [filterMap_idle (f := W.live) rfl, List.not_mem_nil, or_false] at ht
    obtain ⟨p, rfl, e⟩ := h2 t ht
    simpa [about, Task.p, Tail] using hr
  · intro i hi' hn; rw [hi] at hn; exact absurd (List.mem_range.2 hi') hn
  · intro h; simp only [List.mem_replicate, reduceCtorEq, and_false] at h

theorem inv_step (hl : 0 < c.lpage) (ho : c.objects ≤ 2 ^ 64) {s s' : St} {l : Lbl} (hi : Inv c s) (hs : Step c s l s') : Inv c s' := by
  have hkey : ∀ {t u : Task}, t.p.pfx < c.objects → u.p.pfx < c.objects → t.p.pfx ≠ u.p.pfx → key c t.p ≠ key c u.p :=
    fun h1 h2 hne h => hne (key_inj (by omega) (by omega) h)
  cases hs with
  | @take a b pre t post stop hw hq hstop =>
    have hperm : (pend { s with workers := a ++ .busy t stop :: b, queue := pre ++ post }).Perm (pend s) := by
      simp only [pend, hq, hw, List.filterMap_append, List.filterMap_cons, W.task, List.append_assoc, List.cons_append]
      refine List.Perm.append_left _ ?_
      rw [← List.append_assoc, ← List.append_assoc]
      exact List.perm_middle
    have hids := hperm.map (fun t : Task => t.p.pfx)
    refine ⟨fun u hu => hi.ok u (hperm.mem_iff.1 hu), ?_, hids.nodup_iff.2 hi.nodup, by
      have := hids.length_eq; have := hi.count; simp only [pids] at *; omega, ?_, ?_, hi.compl, ?_⟩
    · intro u st hu
      simp only [List.mem_append, List.mem_cons, W.busy.injEq] at hu
      rcases hu with hu | ⟨rfl, rfl⟩ | hu
      · exact hi.stops u st (by rw [hw]; simp [hu])
      · exact hstop
      · exact hi.stops u st (by rw [hw]; simp [hu])
    · intro u hu
      refine hi.stage u ?_
      simp only [hq, hw, List.filterMap_append, List.filterMap_cons, W.live, List.mem_append, List.mem_cons] at hu ⊢
      tauto
    · intro i h1 h2
      exact hi.passed i h1 (fun h => h2 (hids.mem_iff.2 h))
    · intro h
      exact hi.exits (by rw [hw]; simpa using h)
  | @exit a b hw hcm =>
    have hpd : pend { s with workers := a ++ .exited :: b } = pend s := by
      simp [pend, hw, List.filterMap_append, List.filterMap_cons, W.task]
    refine ⟨by rw [hpd]; exact hi.ok, ?_, by simp only [pids, hpd]; exact hi.nodup, by simp only [pids, hpd]; exact hi.count, ?_,
      by simp only [pids, hpd]; exact hi.passed, hi.compl, fun _ => hcm⟩
    · intro u st hu
      refine hi.stops u st ?_
      rw [hw]; simpa using hu
    · intro u hu
      refine hi.stage u ?_
      rw [hw]; simpa [W.live] using hu
  | @send a t stop b t' ans hw hn =>
    have hmem : t ∈ pend s := by simp [pend, hw, List.filterMap_append, List.filterMap_cons, W.task]
    have hst := hi.stops t stop (by rw [hw]; simp)
    obtain ⟨h1, h2, h3⟩ := next_send hl (hi.ok t hmem) hst hn
    have hperm : (pend { s with workers := a ++ .idle :: b, queue := s.queue ++ [t'], log := s.log ++ [(t.call c stop, ans)] }).Perm
        (t' :: (s.queue ++ (a.filterMap W.task ++ b.filterMap W.task))) := by
      simp only [pend, List.filterMap_append, List.filterMap_cons, W.task, List.append_assoc]
      exact List.perm_middle
    have hperm0 : (pend s).Perm (t :: (s.queue ++ (a.filterMap W.task ++ b.filterMap W.task))) := by
      simp only [pend, hw, List.filterMap_append, List.filterMap_cons, W.task]
      rw [← List.append_assoc, ← List.append_assoc]
      exact List.perm_middle
    have hids : (pids { s with workers := a ++ .idle :: b, queue := s.queue ++ [t'], log := s.log ++ [(t.call c stop, ans)] }).Perm (pids s) := by
      refine (hperm.map _).trans (List.Perm.trans ?_ (hperm0.map _).symm)
      simp only [List.map_cons, h2]
      exact List.Perm.refl _
    have hnd : ∀ u ∈ s.queue ++ (a.filterMap W.task ++ b.filterMap W.task), u.p.pfx ≠ t.p.pfx := by
      intro u hu he
      have := (hperm0.map (fun t : Task => t.p.pfx)).nodup_iff.1 hi.nodup
      simp only [List.map_cons, List.nodup_cons] at this
      exact this.1 (he ▸ List.mem_map_of_mem hu)
    refine ⟨?_, ?_, hids.nodup_iff.2 hi.nodup, by have := hids.length_eq; have := hi.count; simp only at *; omega, ?_, ?_, hi.compl, ?_⟩
    · intro u hu
      rcases List.mem_cons.1 (hperm.mem_iff.1 hu) with rfl | hu
      · exact h1
      · exact hi.ok u (hperm0.mem_iff.2 (List.mem_cons_of_mem _ hu))
    · intro u st hu
      refine hi.stops u st ?_
      simp only [List.mem_append, List.mem_cons, reduceCtorEq, false_or] at hu
      rw [hw]; simp only [List.mem_append, List.mem_cons]; tauto
    · intro u hu rest hr
      by_cases hu' : u = t'
      · subst hu'
        rw [h2, about_same, List.append_assoc]
        exact hi.stage t (Or.inr (by rw [hw]; simp [W.live])) _ (h3 rest hr)
      · have hu2 : u ∈ s.queue ∨ u ∈ a.filterMap W.live ++ b.filterMap W.live := by
          simp only [List.mem_append, List.mem_singleton, List.filterMap_append, List.filterMap_cons, W.live] at hu ⊢
          tauto
        have hu3 : u ∈ s.queue ++ (a.filterMap W.task ++ b.filterMap W.task) := by
          have hlt : ∀ l : List W, u ∈ l.filterMap W.live → u ∈ l.filterMap W.task := by
            intro l h
            obtain ⟨w, hw, e⟩ := List.mem_filterMap.1 h
            refine List.mem_filterMap.2 ⟨w, hw, ?_⟩
            cases w <;> simp_all [W.live, W.task]
          rcases hu2 with h | h
          · exact List.mem_append_left _ h
          · refine List.mem_append_right _ ?_
            rcases List.mem_append.1 h with h | h
            · exact List.mem_append_left _ (hlt _ h)
            · exact List.mem_append_right _ (hlt _ h)
        have huo := hi.ok u (hperm0.mem_iff.2 (List.mem_cons_of_mem _ hu3))
        rw [about_other (hkey (hi.ok t hmem).lt huo.lt (Ne.symm (hnd u hu3)))]
        refine hi.stage u ?_ rest hr
        rcases hu2 with h | h
        · exact Or.inl h
        · right
          rw [hw]
          simp only [List.filterMap_append, List.filterMap_cons, W.live, List.mem_append, List.mem_cons] at h ⊢
          tauto
    · intro i hi1 hi2
      have hi2' : i ∉ pids s := fun h => hi2 (hids.mem_iff.2 h)
      obtain ⟨p, e1, e2⟩ := hi.passed i hi1 hi2'
      refine ⟨p, e1, ?_⟩
      have hpi := (params_facts e1).1
      have hne : key c t.p ≠ key c p := by
        intro h
        have hto := (hi.ok t hmem).lt
        have := key_inj (by omega) (by omega) h
        refine hi2' ?_
        rw [← hpi, ← this]
        exact List.mem_map_of_mem hmem
      rw [about_other hne]
      exact e2
    · intro h
      refine hi.exits ?_
      rw [hw]; simpa using h
  | @done a t stop b ans hw hn =>
    have hmem : t ∈ pend s := by simp [pend, hw, List.filterMap_append, List.filterMap_cons, W.task]
    have hperm0 : (pend s).Perm (t :: (s.queue ++ (a.filterMap W.task ++ b.filterMap W.task))) := by
      simp only [pend, hw, List.filterMap_append, List.filterMap_cons, W.task]
      rw [← List.append_assoc, ← List.append_assoc]
      exact List.perm_middle
    have hpd : pend ⟨s.queue, a ++ .idle :: b, s.deletes + 1, s.complete || decide (s.deletes + 1 = c.objects),
        s.log ++ [(t.call c stop, ans)]⟩ = s.queue ++ (a.filterMap W.task ++ b.filterMap W.task) := by
      simp [pend, List.filterMap_append, List.filterMap_cons, W.task]
    have hnd0 := (hperm0.map (fun t : Task => t.p.pfx)).nodup_iff.1 hi.nodup
    simp only [List.map_cons, List.nodup_cons] at hnd0
    have hnd : ∀ u ∈ s.queue ++ (a.filterMap W.task ++ b.filterMap W.task), u.p.pfx ≠ t.p.pfx := by
      intro u hu he
      exact hnd0.1 (he ▸ List.mem_map_of_mem hu)
    refine ⟨?_, ?_, by simp only [pids, hpd]; exact hnd0.2, ?_, ?_, ?_, ?_, ?_⟩
    · intro u hu
      rw [hpd] at hu
      exact hi.ok u (hperm0.mem_iff.2 (List.mem_cons_of_mem _ hu))
    · intro u st hu
      refine hi.stops u st ?_
      simp only [List.mem_append, List.mem_cons, reduceCtorEq, false_or] at hu
      rw [hw]; simp only [List.mem_append, List.mem_cons]; tauto
    · have h1 := (hperm0.map (fun t : Task => t.p.pfx)).length_eq
      have h2 := hi.count
      simp only [pids, hpd, List.map_cons, List.length_cons] at *
      omega
    · intro u hu rest hr
      have hu2 : u ∈ s.queue ∨ u ∈ a.filterMap W.live ++ b.filterMap W.live := by
        simp only [List.mem_append, List.filterMap_append, List.filterMap_cons, W.live] at hu ⊢
        tauto
      have hu3 : u ∈ s.queue ++ (a.filterMap W.task ++ b.filterMap W.task) := by
        have hlt : ∀ l : List W, u ∈ l.filterMap W.live → u ∈ l.filterMap W.task := by
          intro l h
          obtain ⟨w, hw, e⟩ := List.mem_filterMap.1 h
          refine List.mem_filterMap.2 ⟨w, hw, ?_⟩
          cases w <;> simp_all [W.live, W.task]
        rcases hu2 with h | h
        · exact List.mem_append_left _ h
        · refine List.mem_append_right _ ?_
          rcases List.mem_append.1 h with h | h
          · exact List.mem_append_left _ (hlt _ h)
          · exact List.mem_append_right _ (hlt _ h)
      have huo := hi.ok u (hperm0.mem_iff.2 (List.mem_cons_of_mem _ hu3))
      rw [about_other (hkey (hi.ok t hmem).lt huo.lt (Ne.symm (hnd u hu3)))]
      refine hi.stage u ?_ rest hr
      rcases hu2 with h | h
      · exact Or.inl h
      · right
        rw [hw]
        simp only [List.filterMap_append, List.filterMap_cons, W.live, List.mem_append, List.mem_cons] at h ⊢
        tauto
    · intro i hi1 hi2
      by_cases he : i = t.p.pfx
      · subst he
        refine ⟨t.p, (hi.ok t hmem).par, ?_⟩
        rw [about_same]
        exact hi.stage t (Or.inr (by rw [hw]; simp [W.live])) _ (next_done hn)
      · have hi2' : i ∉ pids s := by
          intro h
          have h := (hperm0.map (fun t : Task => t.p.pfx)).mem_iff.1 h
          simp only [List.map_cons, List.mem_cons] at h
          rcases h with h | h
          · exact he h
          · exact hi2 (by simp only [pids, hpd]; exact h)
        obtain ⟨p, e1, e2⟩ := hi.passed i hi1 hi2'
        refine ⟨p, e1, ?_⟩
        have hpi := (params_facts e1).1
        have hne : key c t.p ≠ key c p := by
          intro h
          have hto := (hi.ok t hmem).lt
          have := key_inj (by omega) (by omega) h
          exact he (by omega)
        rw [about_other hne]
        exact e2
    · intro h
      simp only [Bool.or_eq_true, decide_eq_true_eq] at h
      rcases h with h | h
      · have h1 := hi.compl h
        have h2 := hi.count
        have h3 := (hperm0.map (fun t : Task => t.p.pfx)).length_eq
        simp only [pids, List.map_cons, List.length_cons] at *
        omega
      · exact h
    · intro h
      simp only [Bool.or_eq_true]
      left
      refine hi.exits ?_
      rw [hw]; simpa using h
  | @fail a t stop b ans hw hn =>
    have hmem : t ∈ pend s := by simp [pend, hw, List.filterMap_append, List.filterMap_cons, W.task]
    have hpd : pend { s with workers := a ++ .dead t :: b, log := s.log ++ [(t.call c stop, ans)] } = pend s := by
      simp [pend, hw, List.filterMap_append, List.filterMap_cons, W.task]
    have hperm0 : (pend s).Perm (t :: (s.queue ++ (a.filterMap W.task ++ b.filterMap W.task))) := by
      simp only [pend, hw, List.filterMap_append, List.filterMap_cons, W.task]
      rw [← List.append_assoc, ← List.append_assoc]
      exact List.perm_middle
    have hnd0 := (hperm0.map (fun t : Task => t.p.pfx)).nodup_iff.1 hi.nodup
    simp only [List.map_cons, List.nodup_cons] at hnd0
    have hnd : ∀ u ∈ s.queue ++ (a.filterMap W.task ++ b.filterMap W.task), u.p.pfx ≠ t.p.pfx := by
      intro u hu he
      exact hnd0.1 (he ▸ List.mem_map_of_mem hu)
    refine ⟨by rw [hpd]; exact hi.ok, ?_, by simp only [pids, hpd]; exact hi.nodup, by simp only [pids, hpd]; exact hi.count, ?_, ?_, hi.compl, ?_⟩
    · intro u st hu
      refine hi.stops u st ?_
      simp only [List.mem_append, List.mem_cons, reduceCtorEq, false_or] at hu
      rw [hw]; simp only [List.mem_append, List.mem_cons]; tauto
    · intro u hu rest hr
      have hu2 : u ∈ s.queue ∨ u ∈ a.filterMap W.live ++ b.filterMap W.live := by
        simp only [List.mem_append, List.filterMap_append, List.filterMap_cons, W.live] at hu ⊢
        tauto
      have hu3 : u ∈ s.queue ++ (a.filterMap W.task ++ b.filterMap W.task) := by
        have hlt : ∀ l : List W, u ∈ l.filterMap W.live → u ∈ l.filterMap W.task := by
          intro l h
          obtain ⟨w, hw, e⟩ := List.mem_filterMap.1 h
          refine List.mem_filterMap.2 ⟨w, hw, ?_⟩
          cases w <;> simp_all [W.live, W.task]
        rcases hu2 with h | h
        · exact List.mem_append_left _ h
        · refine List.mem_append_right _ ?_
          rcases List.mem_append.1 h with h | h
          · exact List.mem_append_left _ (hlt _ h)
          · exact List.mem_append_right _ (hlt _ h)
      have huo := hi.ok u (hperm0.mem_iff.2 (List.mem_cons_of_mem _ hu3))
      rw [about_other (hkey (hi.ok t hmem).lt huo.lt (Ne.symm (hnd u hu3)))]
      refine hi.stage u ?_ rest hr
      rcases hu2 with h | h
      · exact Or.inl h
      · right
        rw [hw]
        simp only [List.filterMap_append, List.filterMap_cons, W.live, List.mem_append, List.mem_cons] at h ⊢
        tauto
    · intro i hi1 hi2
      simp only [pids, hpd] at hi2
      obtain ⟨p, e1, e2⟩ := hi.passed i hi1 hi2
      refine ⟨p, e1, ?_⟩
      have hpi := (params_facts e1).1
      have hne : key c t.p ≠ key c p := by
        intro h
        have hto := (hi.ok t hmem).lt
        have := key_inj (by omega) (by omega) h
        refine hi2 ?_
        rw [← hpi, ← this]
        exact List.mem_map_of_mem (f := fun t : Task => t.p.pfx) hmem
      rw [about_other hne]
      exact e2
    · intro h
      refine hi.exits ?_
      rw [hw]; simpa using h
  | @crash a t stop b hw =>
    have hpd : pend { s with workers := a ++ .dead t :: b } = pend s := by
      simp [pend, hw, List.filterMap_append, List.filterMap_cons, W.task]
    refine ⟨by rw [hpd]; exact hi.ok, ?_, by simp only [pids, hpd]; exact hi.nodup, by simp only [pids, hpd]; exact hi.count, ?_,
      by simp only [pids, hpd]; exact hi.passed, hi.compl, ?_⟩
    · intro u st hu
      refine hi.stops u st ?_
      simp only [List.mem_append, List.mem_cons, reduceCtorEq, false_or] at hu
      rw [hw]; simp only [List.mem_append, List.mem_cons]; tauto
    · intro u hu
      refine hi.stage u ?_
      simp only [hw, List.filterMap_append, List.filterMap_cons, W.live, List.mem_append, List.mem_cons] at hu ⊢
      tauto
    · intro h
      refine hi.exits ?_
      rw [hw]; simpa using h

theorem reach_inv (hl : 0 < c.lpage) (ho : c.objects ≤ 2 ^ 64) {s : St} (h : Reach c s) : Inv c s := by
  induction h with
  | start n h => exact inv_start h
  | step _ hs ih => exact inv_step hl ho ih hs

end Stress
end Blobd
