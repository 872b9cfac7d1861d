import Verif.Spec.KvProgress
import Verif.Proofs.KvStoreReach
/-! # KV store: progress -/
set_option autoImplicit false
namespace Blobd
namespace Kv

/-- what progress depends on -/
structure Pip where
  preps : List Task
  ready : List Task
  queue : List Task
  pending : List Task
  fl : List (List Task × Bool)
  inserting : List Task
  applied : List Task
  issued : List Task

def St.pip (s : St) : Pip :=
  ⟨s.preps.map (·.task), s.ready, s.queue, s.pending, s.log.inflight.map (fun f => (f.tasks, f.done)), s.inserting, s.applied, s.issued⟩

inductive PStep : Pip → Pip → Prop
  | refl (p : Pip) : PStep p p
  | write (p : Pip) (t : Task) : PStep p { p with ready := p.ready ++ [t], issued := p.issued ++ [t] }
  | writeHeap (p : Pip) (t : Task) : PStep p { p with preps := p.preps ++ [t], issued := p.issued ++ [t] }
  | heapWritten (p : Pip) {pre post : List Task} {t : Task} : p.preps = pre ++ t :: post →
      PStep p { p with preps := pre ++ post, ready := p.ready ++ [t] }
  | send (p : Pip) {pre post : List Task} {t : Task} : p.ready = pre ++ t :: post →
      PStep p { p with ready := pre ++ post, queue := p.queue ++ [t] }
  | delete (p : Pip) (t : Task) : PStep p { p with queue := p.queue ++ [t], issued := p.issued ++ [t] }
  | recv (p : Pip) {t : Task} {q : List Task} : p.queue = t :: q → PStep p { p with queue := q, pending := p.pending ++ [t] }
  | flush (p : Pip) : p.pending ≠ [] → PStep p { p with pending := [], fl := p.fl ++ [(p.pending, false)] }
  | written (p : Pip) {i : Nat} {ts : List Task} : p.fl[i]? = some (ts, false) → PStep p { p with fl := p.fl.set i (ts, true) }
  | complete (p : Pip) {n : Nat} : p.inserting = [] → 0 < n → n ≤ p.fl.length →
      PStep p { p with fl := p.fl.drop n, inserting := (p.fl.take n).flatMap (·.1) }
  | apply (p : Pip) {t : Task} {r : List Task} : p.inserting = t :: r → PStep p { p with inserting := r, applied := p.applied ++ [t] }

theorem plan_shape {c : LogCfg} {s s' : LogSt} {j1 j2 : Nat → Byte} {ts : List Task} {f : Flush}
    (h : planFlush c s j1 j2 ts = some (s', f)) : s'.inflight = s.inflight ++ [f] ∧ f.tasks = ts ∧ f.done = false ∧
      s'.tail = s.tail ∧ s'.head = s.head := by
  unfold planFlush at h
  split at h
  · cases h
  · dsimp only at h
    split at h
    · split at h
      · split at h
        · split at h
          · cases h
          · cases h; exact ⟨rfl, rfl, rfl, rfl, rfl⟩
        · cases h
      · split at h
        · cases h
        · cases h; exact ⟨rfl, rfl, rfl, rfl, rfl⟩
    · cases h

theorem pip_step {c : StoreCfg} {s s' : St} (h : Step c s s') : PStep s.pip s'.pip := by
  cases h with
  | writeInline raw data h1 h2 => exact PStep.write s.pip _
  | @writeHeap raw data junk off sz a' h1 h2 h3 =>
    have := PStep.writeHeap s.pip ⟨Key.fromRaw c.H raw, some (.heap data.length off), some data⟩
    simpa [St.pip] using this
  | heapDevice heap' hh => exact PStep.refl _
  | @heapWritten pre p post hp =>
    have := PStep.heapWritten s.pip (pre := pre.map (·.task)) (post := post.map (·.task)) (t := p.task) (by simp [St.pip, hp])
    simpa [St.pip] using this
  | send hr => exact PStep.send s.pip hr
  | delete raw => exact PStep.delete s.pip _
  | recv hq => exact PStep.recv s.pip hq
  | flush j1 j2 hp hpl =>
    obtain ⟨e1, e2, e3, _⟩ := plan_shape hpl
    have := PStep.flush s.pip hp
    simpa [St.pip, e1, e2, e3] using this
  | logDevice data' hd => exact PStep.refl _
  | @logWritten i f hf hd =>
    have := PStep.written s.pip (i := i) (ts := f.tasks) (by simp [St.pip, hf, hd])
    simpa [St.pip, finishFlush, hf, List.map_set] using this
  | @complete log' ts n hi hcf =>
    unfold completeFlushes at hcf
    dsimp only at hcf
    split at hcf
    · cases hcf
    · rename_i l hl
      split at hcf
      · rename_i hd
        cases hcf
        have hn : 0 < n := by
          rcases Nat.eq_zero_or_pos n with rfl | h0
          · simp at hl
          · exact h0
        have hle : n ≤ s.log.inflight.length := by
          have := hd.2
          rw [List.length_take] at this
          omega
        have := PStep.complete s.pip (n := n) hi hn (by simpa [St.pip] using hle)
        simpa [St.pip, List.map_drop, ← List.map_take, List.flatMap_map] using this
      · cases hcf
  | apply hi => exact PStep.apply s.pip hi
  | commitStart h1 h2 h3 => exact PStep.refl _
  | group junk h1 h2 h3 h4 => exact PStep.refl _
  | groupPanic junk h1 h2 h3 h4 => exact PStep.refl _
  | moved h1 => exact PStep.refl _
  | movedAll h1 => exact PStep.refl _
  | bundleRead h1 h2 => exact PStep.refl _
  | bundleEntry h1 h2 => exact PStep.refl _
  | bundleSerialise junk h1 h2 h3 => exact PStep.refl _
  | readPanic h1 h2 => exact PStep.refl _
  | entryPanic h1 h2 => exact PStep.refl _
  | serialisePanic junk h1 h2 h3 => exact PStep.refl _
  | bundleWritten h1 => exact PStep.refl _
  | headWrite h1 => exact PStep.refl _
  | commitEnd h1 => exact PStep.refl _

/-! ### The line of calls handed to the log -/

def Pip.line (p : Pip) : List Task := p.applied ++ p.inserting ++ p.fl.flatMap (·.1) ++ p.pending ++ p.queue

theorem inLine_eq (s : St) : inLine s = s.pip.line := by
  simp [inLine, Pip.line, St.pip, List.flatMap_map]

theorem set_tasks {fl : List (List Task × Bool)} {i : Nat} {ts : List Task} (h : fl[i]? = some (ts, false)) :
    (fl.set i (ts, true)).flatMap (·.1) = fl.flatMap (·.1) := by
  induction fl generalizing i with
  | nil => rfl
  | cons x xs ih =>
    cases i with
    | zero => simp only [List.getElem?_cons_zero, Option.some.injEq] at h; subst h; rfl
    | succ i => simp only [List.getElem?_cons_succ] at h; simp [ih h]

theorem PStep.line {p p' : Pip} (h : PStep p p') : ∃ l, p'.line = p.line ++ l := by
  cases h with
  | refl => exact ⟨[], by simp⟩
  | write t => exact ⟨[], by simp [Pip.line]⟩
  | writeHeap t => exact ⟨[], by simp [Pip.line]⟩
  | heapWritten hp => exact ⟨[], by simp [Pip.line]⟩
  | @send pre post t hp => exact ⟨[t], by simp [Pip.line]⟩
  | delete t => exact ⟨[t], by simp [Pip.line]⟩
  | recv hq => exact ⟨[], by simp [Pip.line, hq]⟩
  | flush hp => exact ⟨[], by simp [Pip.line]⟩
  | written hf => exact ⟨[], by simp [Pip.line, set_tasks hf]⟩
  | @complete n hi hn hle =>
    refine ⟨[], ?_⟩
    have : p.fl.flatMap (·.1) = (p.fl.take n).flatMap (·.1) ++ (p.fl.drop n).flatMap (·.1) := by
      rw [← List.flatMap_append, List.take_append_drop]
    simp only [Pip.line, hi, this]
    simp
  | apply hi => exact ⟨[], by simp [Pip.line, hi]⟩

theorem PStep.applied {p p' : Pip} (h : PStep p p') : ∃ l, p'.applied = p.applied ++ l := by
  cases h with
  | @apply t r hi => exact ⟨[t], rfl⟩
  | _ => exact ⟨[], by simp⟩

/-- every flush under way has a call in it -/
def Pip.Full (p : Pip) : Prop := ∀ x ∈ p.fl, x.1 ≠ []

theorem PStep.full {p p' : Pip} (h : PStep p p') (hf : p.Full) : p'.Full := by
  cases h with
  | flush hp =>
    intro x hx
    rcases List.mem_append.1 hx with hx | hx
    · exact hf x hx
    · rw [List.mem_singleton] at hx; subst hx; exact hp
  | @written i ts hi =>
    intro x hx
    rcases List.mem_or_eq_of_mem_set hx with hx | rfl
    · exact hf x hx
    · exact hf (ts, false) (List.mem_of_getElem? hi)
  | complete hi hn hle => exact fun x hx => hf x (List.mem_of_mem_drop hx)
  | _ => exact hf

theorem reach_full {c : StoreCfg} {s : St} (h : Reach c s) : s.pip.Full := by
  induction h with
  | fresh h =>
    unfold fresh at h
    split at h
    · cases h
    · cases h; intro x hx; cases hx
  | step _ hs ih => exact (pip_step hs).full ih
  | restart _ hl ih =>
    unfold load at hl
    split at hl
    · split at hl
      · cases hl
      · cases hl; intro x hx; cases hx
    · cases hl

/-! ### Fair runs -/

section
variable {c : StoreCfg} {σ : Nat → St}

theorem Run.pip (h : Run c σ) (n : Nat) : PStep (σ n).pip (σ (n + 1)).pip := by
  rcases h.next n with e | hs
  · rw [e]; exact .refl _
  · exact pip_step hs

theorem Run.reach (h : Run c σ) (n : Nat) : Reach c (σ n) := by
  induction n with
  | zero => exact h.start
  | succ n ih =>
    rcases h.next n with e | hs
    · rw [e]; exact ih
    · exact ih.step hs

/-- something that holds and can only end by a step that does not happen keeps holding -/
theorem keeps {P : St → Prop} {n : Nat} (h0 : P (σ n)) (hs : ∀ m, n ≤ m → P (σ m) → P (σ (m + 1))) : ∀ m, n ≤ m → P (σ m) := by
  intro m hm
  induction m, hm using Nat.le_induction with
  | base => exact h0
  | succ m hm ih => exact hs m hm ih

theorem applied_mono (h : Run c σ) {n m : Nat} (hm : n ≤ m) : ∃ l, (σ m).applied = (σ n).applied ++ l := by
  induction m, hm using Nat.le_induction with
  | base => exact ⟨[], by simp⟩
  | succ m hm ih =>
    obtain ⟨l, hl⟩ := ih
    obtain ⟨l', hl'⟩ := (h.pip m).applied
    have hl' : (σ (m + 1)).applied = (σ m).applied ++ l' := hl'
    exact ⟨l ++ l', by rw [hl', hl]; simp⟩

theorem line_mono (h : Run c σ) {n m : Nat} (hm : n ≤ m) : ∃ l, inLine (σ m) = inLine (σ n) ++ l := by
  induction m, hm using Nat.le_induction with
  | base => exact ⟨[], by simp⟩
  | succ m hm ih =>
    obtain ⟨l, hl⟩ := ih
    obtain ⟨l', hl'⟩ := (h.pip m).line
    rw [← inLine_eq, ← inLine_eq] at hl'
    exact ⟨l ++ l', by rw [hl', hl]; simp⟩

/-- if nothing is ever answered after `n`, then nothing handed to the log is unanswered -/
theorem stalled (h : FairRun c σ) {n : Nat} (hroom : ∀ m, n ≤ m → LogRoom c (σ m))
    (hst : ∀ m, n ≤ m → (σ (m + 1)).applied = (σ m).applied) : inLine (σ n) = (σ n).applied := by
  -- the completer has nothing to apply
  have hins : ∀ m, n ≤ m → (σ m).inserting = [] := by
    intro m hm
    by_contra hne
    have hk : ∀ k, m ≤ k → (σ k).inserting ≠ [] := by
      refine keeps (P := fun s => s.inserting ≠ []) hne ?_
      intro k hk hi
      have hp := h.pip k
      have hsame := hst k (hm.trans hk)
      generalize hq : (σ k).pip = p at hp
      generalize hq' : (σ (k + 1)).pip = p' at hp
      have e1 : (σ k).inserting = p.inserting := by rw [← hq]; rfl
      have e2 : (σ (k + 1)).inserting = p'.inserting := by rw [← hq']; rfl
      have e3 : (σ k).applied = p.applied := by rw [← hq]; rfl
      have e4 : (σ (k + 1)).applied = p'.applied := by rw [← hq']; rfl
      rw [e3, e4] at hsame
      rw [e1] at hi
      rw [e2]
      cases hp with
      | complete hi' => exact absurd hi' hi
      | apply hi' => simp at hsame
      | _ => exact hi
    obtain ⟨k, hk1, hk2⟩ := h.apply m hk
    rw [hst k (hm.trans hk1)] at hk2
    exact absurd hk2 (Nat.lt_irrefl _)
  -- no flush is under way
  have hstep : ∀ m, n ≤ m → ∀ x xs, (σ m).pip.fl = x :: xs → ∃ b xs', (σ (m + 1)).pip.fl = (x.1, b) :: xs' ∧ (x.2 = true → b = true) := by
    intro m hm x xs hx
    have hp := h.pip m
    have hi1 := hins m hm
    have hi2 := hins (m + 1) (hm.trans (Nat.le_succ m))
    have hfull := reach_full (h.reach m)
    generalize hq : (σ m).pip = p at hp hx hfull
    generalize hq' : (σ (m + 1)).pip = p' at hp
    have e2 : (σ (m + 1)).inserting = p'.inserting := by rw [← hq']; rfl
    rw [e2] at hi2
    cases hp with
    | flush hpn => exact ⟨x.2, xs ++ [(p.pending, false)], by simp [hx], fun h => h⟩
    | @written i ts hf =>
      cases i with
      | zero =>
        rw [hx] at hf
        simp only [List.getElem?_cons_zero, Option.some.injEq] at hf
        subst hf
        exact ⟨true, xs, by simp [hx], fun _ => rfl⟩
      | succ i => exact ⟨x.2, xs.set i (ts, true), by simp [hx], fun h => h⟩
    | @complete k hi hn hle =>
      exfalso
      simp only at hi2
      rw [hx] at hi2
      cases k with
      | zero => exact absurd hn (Nat.lt_irrefl _)
      | succ k =>
        simp only [List.take_succ_cons, List.flatMap_cons, List.append_eq_nil_iff] at hi2
        exact hfull x (by rw [hx]; simp) hi2.1
    | _ => exact ⟨x.2, xs, by simp [hx], fun h => h⟩
  have hold : ∀ m b, Oldest (σ m) b ↔ ∃ ts xs, (σ m).pip.fl = (ts, b) :: xs := by
    intro m b
    constructor
    · rintro ⟨f, h1, rfl⟩
      obtain ⟨fs, h2⟩ := List.head?_eq_some_iff.1 h1
      exact ⟨f.tasks, fs.map (fun f => (f.tasks, f.done)), by simp [St.pip, h2]⟩
    · rintro ⟨ts, xs, h1⟩
      simp only [St.pip] at h1
      obtain ⟨f, fs, h2, h3, h4⟩ := List.map_eq_cons_iff.1 h1
      exact ⟨f, by simp [h2], by cases h3; rfl⟩
  have hfl : ∀ m, n ≤ m → (σ m).pip.fl = [] := by
    intro m hm
    by_contra hne
    have hno : ∀ k, m ≤ k → ¬ Oldest (σ k) true := by
      intro k hk ho
      have hk2 : ∀ j, k ≤ j → (σ j).inserting = [] ∧ Oldest (σ j) true := by
        intro j hj
        refine ⟨hins j (hm.trans (hk.trans hj)), ?_⟩
        refine keeps (P := fun s => Oldest s true) ho ?_ j hj
        intro i hi h1
        obtain ⟨ts, xs, h2⟩ := (hold i true).1 h1
        obtain ⟨b, xs', h3, h4⟩ := hstep i (hm.trans (hk.trans hi)) _ _ h2
        rw [h4 rfl] at h3
        exact (hold _ true).2 ⟨_, _, h3⟩
      obtain ⟨j, hj1, hj2⟩ := h.complete k hk2
      have hp := h.pip j
      have hi2 := hins (j + 1) (hm.trans (hk.trans (hj1.trans (Nat.le_succ j))))
      have hfull := reach_full (h.reach j)
      have e1 : (σ j).log.inflight.length = (σ j).pip.fl.length := by simp [St.pip]
      have e2 : (σ (j + 1)).log.inflight.length = (σ (j + 1)).pip.fl.length := by simp [St.pip]
      have e3 : (σ (j + 1)).inserting = (σ (j + 1)).pip.inserting := rfl
      rw [e1, e2] at hj2
      rw [e3] at hi2
      generalize (σ j).pip = p at hp hj2 hfull
      generalize (σ (j + 1)).pip = p' at hp hj2 hi2
      cases hp with
      | flush => simp only [List.length_append, List.length_singleton] at hj2; omega
      | written => simp at hj2
      | @complete k hi hn hle =>
        simp only at hi2
        rw [List.flatMap_eq_nil_iff] at hi2
        cases hq : p.fl with
        | nil => rw [hq] at hle; simp at hle; omega
        | cons x xs =>
          rw [hq] at hi2
          obtain ⟨k, rfl⟩ := Nat.exists_eq_succ_of_ne_zero (Nat.pos_iff_ne_zero.1 hn)
          exact hfull x (by rw [hq]; simp) (hi2 x (by simp))
      | _ => exact absurd hj2 (Nat.lt_irrefl _)
    have hyes : ∀ k, m ≤ k → Oldest (σ k) false := by
      intro k hk
      have : ∃ x xs, (σ k).pip.fl = x :: xs := by
        refine keeps (P := fun s => ∃ x xs, s.pip.fl = x :: xs) ?_ ?_ k hk
        · obtain ⟨x, xs, e⟩ := List.exists_cons_of_ne_nil hne
          exact ⟨x, xs, e⟩
        · rintro i hi ⟨x, xs, e⟩
          obtain ⟨b, xs', h3, _⟩ := hstep i (hm.trans hi) _ _ e
          exact ⟨_, _, h3⟩
      obtain ⟨⟨ts, b⟩, xs, e⟩ := this
      cases b with
      | true => exact absurd ((hold k true).2 ⟨ts, xs, e⟩) (hno k hk)
      | false => exact (hold k false).2 ⟨ts, xs, e⟩
    obtain ⟨k, hk1, _, hk2⟩ := h.device m hyes
    exact hno (k + 1) (hk1.trans (Nat.le_succ k)) hk2
  -- the flusher has nothing pending
  have hpen : ∀ m, n ≤ m → (σ m).pending = [] := by
    intro m hm
    by_contra hne
    have hk : ∀ k, m ≤ k → (σ k).pending ≠ [] := by
      refine keeps (P := fun s => s.pending ≠ []) hne ?_
      intro k hk hi
      have hp := h.pip k
      have hf := hfl (k + 1) (hm.trans (hk.trans (Nat.le_succ k)))
      have e1 : (σ k).pending = (σ k).pip.pending := rfl
      have e2 : (σ (k + 1)).pending = (σ (k + 1)).pip.pending := rfl
      rw [e1] at hi
      rw [e2]
      generalize (σ k).pip = p at hp hi
      generalize (σ (k + 1)).pip = p' at hp hf
      cases hp with
      | flush => exact absurd hf (by simp)
      | recv => simp
      | _ => exact hi
    obtain ⟨k, hk1, hk2, hk3⟩ := h.flush m (fun k hk' => ⟨hk k hk', hroom k (hm.trans hk')⟩)
    exact hk (k + 1) (hk1.trans (Nat.le_succ k)) hk3
  -- nor waiting
  have hque : (σ n).queue = [] := by
    by_contra hne
    have hk : ∀ k, n ≤ k → (σ k).queue ≠ [] := by
      refine keeps (P := fun s => s.queue ≠ []) hne ?_
      intro k hk hi
      have hp := h.pip k
      have hf := hpen (k + 1) (hk.trans (Nat.le_succ k))
      have e1 : (σ k).queue = (σ k).pip.queue := rfl
      have e2 : (σ (k + 1)).queue = (σ (k + 1)).pip.queue := rfl
      have e3 : (σ (k + 1)).pending = (σ (k + 1)).pip.pending := rfl
      rw [e1] at hi
      rw [e2]
      rw [e3] at hf
      generalize (σ k).pip = p at hp hi
      generalize (σ (k + 1)).pip = p' at hp hf
      cases hp with
      | recv => simp at hf
      | send => simp
      | delete => simp
      | _ => exact hi
    obtain ⟨k, hk1, hk2⟩ := h.recv n hk
    rw [hpen (k + 1) (hk1.trans (Nat.le_succ k))] at hk2
    simp at hk2
  have h1 := hins n (Nat.le_refl n)
  have h2 := hfl n (Nat.le_refl n)
  have h3 := hpen n (Nat.le_refl n)
  rw [inLine_eq]
  show (σ n).applied ++ (σ n).inserting ++ (σ n).pip.fl.flatMap (·.1) ++ (σ n).pending ++ (σ n).queue = (σ n).applied
  rw [h1, h2, h3, hque]
  simp

theorem answered_prefix (h : Run c σ) (n : Nat) : ∃ l, inLine (σ n) = (σ n).applied ++ l :=
  ⟨_, by unfold inLine; rw [List.append_assoc, List.append_assoc, List.append_assoc]⟩

/-- the calls handed to the log are answered, in the order they were handed over -/
theorem line_answered (h : FairRun c σ) {n : Nat} (hroom : ∀ m, n ≤ m → LogRoom c (σ m)) :
    ∃ m, n ≤ m ∧ inLine (σ n) <+: (σ m).applied := by
  have key : ∀ k, k ≤ (inLine (σ n)).length → ∃ m, n ≤ m ∧ k ≤ (σ m).applied.length := by
    intro k
    induction k with
    | zero => intro _; exact ⟨n, Nat.le_refl n, Nat.zero_le _⟩
    | succ k ih =>
      intro hk
      obtain ⟨m, hm1, hm2⟩ := ih (by omega)
      by_contra hno
      have hle : ∀ j, m ≤ j → (σ j).applied.length = k := by
        intro j hj
        obtain ⟨l, hl⟩ := applied_mono h.toRun hj
        have h1 : k ≤ (σ j).applied.length := by rw [hl, List.length_append]; omega
        have h2 : ¬ k + 1 ≤ (σ j).applied.length := fun h' => hno ⟨j, hm1.trans hj, h'⟩
        omega
      have hst : ∀ j, m ≤ j → (σ (j + 1)).applied = (σ j).applied := by
        intro j hj
        obtain ⟨l, hl⟩ := applied_mono h.toRun (Nat.le_succ j)
        have h1 := hle j hj
        have h2 := hle (j + 1) (hj.trans (Nat.le_succ j))
        rw [Nat.succ_eq_add_one] at hl
        rw [hl, List.length_append] at h2
        rw [hl, List.eq_nil_of_length_eq_zero (by omega : l.length = 0)]
        simp
      have hs := stalled h (fun j hj => hroom j (hm1.trans hj)) hst
      obtain ⟨l, hl⟩ := line_mono h.toRun hm1
      have := hle m (Nat.le_refl m)
      rw [← hs, hl, List.length_append] at this
      omega
  obtain ⟨m, hm1, hm2⟩ := key _ (Nat.le_refl _)
  refine ⟨m, hm1, ?_⟩
  obtain ⟨l, hl⟩ := line_mono h.toRun hm1
  obtain ⟨l', hl'⟩ := answered_prefix h.toRun m
  rw [hl] at hl'
  exact List.prefix_of_prefix_length_le ⟨l, rfl⟩ ⟨l', hl'.symm⟩ hm2

/-! ### When no more calls are made -/

def Pip.outs (p : Pip) : List Task := p.preps ++ p.ready ++ p.queue ++ p.pending ++ p.fl.flatMap (·.1) ++ p.inserting

theorem outs_eq (s : St) : outstanding s = s.pip.outs := by
  simp [outstanding, Pip.outs, St.pip, List.flatMap_map]

theorem issued_ne {l : List Task} {t : Task} : ¬ l ++ [t] = l := by simp

theorem PStep.perm {p p' : Pip} (h : PStep p p') (hi : p'.issued = p.issued) : (p'.applied ++ p'.outs).Perm (p.applied ++ p.outs) := by
  rw [List.perm_iff_count]
  intro a
  cases h with
  | refl => rfl
  | write t => exact absurd hi issued_ne
  | writeHeap t => exact absurd hi issued_ne
  | heapWritten hp => simp only [Pip.outs, hp, List.count_append, List.count_cons, List.count_nil]; omega
  | send hp => simp only [Pip.outs, hp, List.count_append, List.count_cons, List.count_nil]; omega
  | delete t => exact absurd hi issued_ne
  | recv hq => simp only [Pip.outs, hq, List.count_append, List.count_cons, List.count_nil]; omega
  | flush hp => simp [Pip.outs, List.count_append]; omega
  | written hf => simp [Pip.outs, List.count_append, set_tasks hf]
  | @complete n hins hn hle =>
    have : p.fl.flatMap (·.1) = (p.fl.take n).flatMap (·.1) ++ (p.fl.drop n).flatMap (·.1) := by
      rw [← List.flatMap_append, List.take_append_drop]
    simp only [Pip.outs, hins, this, List.count_append, List.count_nil]
    omega
  | apply hins => simp only [Pip.outs, hins, List.count_append, List.count_cons, List.count_nil]; omega

theorem perm_mono (h : Run c σ) {n m : Nat} (hq : NoCalls σ n) (hm : n ≤ m) :
    ((σ m).applied ++ outstanding (σ m)).Perm ((σ n).applied ++ outstanding (σ n)) := by
  induction m, hm using Nat.le_induction with
  | base => exact .refl _
  | succ m hm ih =>
    have := (h.pip m).perm (hq m hm)
    rw [← outs_eq, ← outs_eq] at this
    exact List.Perm.trans this ih

theorem preps_empty (h : FairRun c σ) {n : Nat} (hq : NoCalls σ n) : ∃ m, n ≤ m ∧ ∀ k, m ≤ k → (σ k).preps = [] := by
  have hdec : ∀ k, n ≤ k → (σ (k + 1)).preps.length ≤ (σ k).preps.length := by
    intro k hk
    have hp := h.pip k
    have hi := hq k hk
    have e1 : (σ k).preps.length = (σ k).pip.preps.length := by simp [St.pip]
    have e2 : (σ (k + 1)).preps.length = (σ (k + 1)).pip.preps.length := by simp [St.pip]
    rw [e1, e2]
    change (σ (k + 1)).pip.issued = (σ k).pip.issued at hi
    generalize (σ k).pip = p at hp hi
    generalize (σ (k + 1)).pip = p' at hp hi
    cases hp with
    | write t => exact absurd hi issued_ne
    | writeHeap t => exact absurd hi issued_ne
    | delete t => exact absurd hi issued_ne
    | heapWritten hp => simp [hp]
    | _ => exact Nat.le_refl _
  have key : ∀ L n', n ≤ n' → (σ n').preps.length ≤ L → ∃ m, n' ≤ m ∧ (σ m).preps.length = 0 := by
    intro L
    induction L with
    | zero => intro n' _ hl; exact ⟨n', Nat.le_refl _, by omega⟩
    | succ L ih =>
      intro n' hn' hl
      by_contra hno
      have hne : ∀ m, n' ≤ m → (σ m).preps ≠ [] := fun m hm e => hno ⟨m, hm, by rw [e]; rfl⟩
      obtain ⟨m, hm1, hm2⟩ := h.heap n' hne
      have hle : (σ m).preps.length ≤ (σ n').preps.length := by
        refine keeps (σ := σ) (P := fun s => s.preps.length ≤ (σ n').preps.length) (Nat.le_refl _) ?_ m hm1
        intro k hk h1
        exact (hdec k (hn'.trans hk)).trans h1
      obtain ⟨j, hj1, hj2⟩ := ih (m + 1) (by omega) (by omega)
      exact hno ⟨j, by omega, hj2⟩
  obtain ⟨m, hm1, hm2⟩ := key _ n (Nat.le_refl n) (Nat.le_refl _)
  refine ⟨m, hm1, keeps (P := fun s => s.preps = []) (List.eq_nil_of_length_eq_zero hm2) ?_⟩
  intro k hk h1
  have := hdec k (hm1.trans hk)
  rw [h1] at this
  exact List.eq_nil_of_length_eq_zero (by simpa using this)

theorem ready_empty (h : FairRun c σ) {n : Nat} (hq : NoCalls σ n) (hn : ∀ k, n ≤ k → (σ k).preps = []) :
    ∃ m, n ≤ m ∧ ∀ k, m ≤ k → (σ k).ready = [] := by
  have hdec : ∀ k, n ≤ k → (σ (k + 1)).ready.length ≤ (σ k).ready.length := by
    intro k hk
    have hp := h.pip k
    have hi := hq k hk
    have h0 : (σ k).pip.preps = [] := by simp [St.pip, hn k hk]
    change (σ (k + 1)).pip.ready.length ≤ (σ k).pip.ready.length
    change (σ (k + 1)).pip.issued = (σ k).pip.issued at hi
    generalize (σ k).pip = p at hp hi h0
    generalize (σ (k + 1)).pip = p' at hp hi
    cases hp with
    | write t => exact absurd hi issued_ne
    | writeHeap t => exact absurd hi issued_ne
    | delete t => exact absurd hi issued_ne
    | heapWritten hp => rw [h0] at hp; simp at hp
    | send hp => simp [hp]
    | _ => exact Nat.le_refl _
  have key : ∀ L n', n ≤ n' → (σ n').ready.length ≤ L → ∃ m, n' ≤ m ∧ (σ m).ready.length = 0 := by
    intro L
    induction L with
    | zero => intro n' _ hl; exact ⟨n', Nat.le_refl _, by omega⟩
    | succ L ih =>
      intro n' hn' hl
      by_contra hno
      have hne : ∀ m, n' ≤ m → (σ m).ready ≠ [] := fun m hm e => hno ⟨m, hm, by rw [e]; rfl⟩
      obtain ⟨m, hm1, hm2⟩ := h.send n' hne
      have hle : (σ m).ready.length ≤ (σ n').ready.length := by
        refine keeps (σ := σ) (P := fun s => s.ready.length ≤ (σ n').ready.length) (Nat.le_refl _) ?_ m hm1
        intro k hk h1
        exact (hdec k (hn'.trans hk)).trans h1
      obtain ⟨j, hj1, hj2⟩ := ih (m + 1) (by omega) (by omega)
      exact hno ⟨j, by omega, hj2⟩
  obtain ⟨m, hm1, hm2⟩ := key _ n (Nat.le_refl n) (Nat.le_refl _)
  refine ⟨m, hm1, keeps (P := fun s => s.ready = []) (List.eq_nil_of_length_eq_zero hm2) ?_⟩
  intro k hk h1
  have := hdec k (hm1.trans hk)
  rw [h1] at this
  exact List.eq_nil_of_length_eq_zero (by simpa using this)

theorem all_answered (h : FairRun c σ) {n : Nat} (hroom : ∀ m, n ≤ m → LogRoom c (σ m)) (hq : NoCalls σ n) :
    ∃ m, n ≤ m ∧ outstanding (σ m) = [] ∧ (σ m).applied.Perm ((σ n).applied ++ outstanding (σ n)) := by
  obtain ⟨m1, a1, a2⟩ := preps_empty h hq
  obtain ⟨m2, b1, b2⟩ := ready_empty h (n := m1) (fun k hk => hq k (a1.trans hk)) a2
  obtain ⟨m3, d1, d2⟩ := line_answered h (n := m2) (fun m hm => hroom m (a1.trans (b1.trans hm)))
  have hp2 := perm_mono h.toRun hq (a1.trans b1)
  have hp3 := perm_mono h.toRun hq (a1.trans (b1.trans d1))
  have hlen : (outstanding (σ m3)).length = 0 := by
    have h1 := (hp3.trans hp2.symm).length_eq
    have h2 : ((σ m2).applied ++ outstanding (σ m2)).length = (inLine (σ m2)).length := by
      unfold outstanding inLine
      rw [a2 m2 b1, b2 m2 (Nat.le_refl _)]
      simp only [List.length_append, List.map_nil, List.length_nil]
      omega
    have h3 := d2.length_le
    simp only [List.length_append] at h1 h2
    omega
  have he := List.eq_nil_of_length_eq_zero hlen
  rw [he, List.append_nil] at hp3
  exact ⟨m3, a1.trans (b1.trans d1), he, hp3⟩

/-! ### The background commit -/

def mu : Option Commit → Nat × Nat
  | none => (0, 0)
  | some ⟨_, .headWritten⟩ => (1, 0)
  | some ⟨_, .updating todo work comp⟩ => (2, (todo.map (fun g => 3 + g.2.length)).sum + (work.map (fun w => 2 + w.rest.length)).sum + comp.length)
  | some ⟨_, .moving ws _⟩ => (3, ws.length)
  | some ⟨_, .started⟩ => (4, 0)
  | some ⟨_, .dead⟩ => (5, 0)

def commitDead (s : St) : Prop := ∃ u, s.commit = some ⟨u, .dead⟩

theorem commit_step {s s' : St} (h : Step c s s') (hn : s.commit ≠ none) (hd : ¬ commitDead s') :
    s'.commit = s.commit ∨ Prod.Lex (· < ·) (· < ·) (mu s'.commit) (mu s.commit) := by
  cases h with
  | commitStart h1 h2 h3 => exact absurd h2 hn
  | group junk h1 h2 h3 h4 => right; simp only [h2, mu]; exact .left _ _ (by omega)
  | groupPanic junk h1 h2 h3 h4 => exact absurd ⟨_, rfl⟩ hd
  | moved h1 => right; simp only [h1, mu, List.length_append, List.length_cons]; exact .right _ (by omega)
  | movedAll h1 => right; simp only [h1, mu]; exact .left _ _ (by omega)
  | bundleRead h1 h2 => right; simp only [h1, mu]; refine .right _ ?_; simp; omega
  | bundleEntry h1 h2 => right; simp only [h1, mu]; refine .right _ ?_; simp <;> omega
  | bundleSerialise junk h1 h2 h3 => right; simp only [h1, mu]; refine .right _ ?_; simp; omega
  | readPanic h1 h2 => right; simp only [h1, mu]; refine .right _ ?_; simp; omega
  | entryPanic h1 h2 => right; simp only [h1, mu]; refine .right _ ?_; simp; omega
  | serialisePanic junk h1 h2 h3 => right; simp only [h1, mu]; refine .right _ ?_; simp <;> omega
  | bundleWritten h1 => right; simp only [h1, mu]; refine .right _ ?_; simp <;> omega
  | headWrite h1 => right; simp only [h1, mu]; exact .left _ _ (by omega)
  | commitEnd h1 => right; simp only [h1, mu]; exact .left _ _ (by omega)
  | _ => exact .inl rfl

theorem commit_ends (h : Run c σ) (hf : FairCommit σ) {n : Nat} (hd : ∀ m, n ≤ m → ¬ commitDead (σ m)) :
    ∃ m, n ≤ m ∧ (σ m).commit = none := by
  have wf : WellFounded (Prod.Lex (fun a b : Nat => a < b) (fun a b : Nat => a < b)) :=
    WellFounded.prod_lex Nat.lt_wfRel.wf Nat.lt_wfRel.wf
  have key : ∀ x : Nat × Nat, ∀ n', n ≤ n' → mu (σ n').commit = x → ∃ m, n' ≤ m ∧ (σ m).commit = none := by
    intro x
    induction x using wf.induction with
    | _ x ih =>
      intro n' hn' hx
      by_contra hno
      have hne : ∀ m, n' ≤ m → (σ m).commit ≠ none := fun m hm e => hno ⟨m, hm, e⟩
      -- the first moment the commit changes
      have hfirst : ∃ m, n' ≤ m ∧ (σ m).commit = (σ n').commit ∧ ¬ (σ (m + 1)).commit = (σ m).commit := by
        by_contra hnone
        have hsame : ∀ m, n' ≤ m → (σ m).commit = (σ n').commit := by
          refine keeps (P := fun s => s.commit = (σ n').commit) rfl ?_
          intro m hm e
          by_contra hch
          exact hnone ⟨m, hm, e, fun e' => hch (e'.trans e)⟩
        obtain ⟨m, hm1, hm2⟩ := hf n' hne
        exact hm2 ((hsame (m + 1) (by omega)).trans (hsame m hm1).symm)
      obtain ⟨m, hm1, hm2, hm3⟩ := hfirst
      rcases h.next m with e | hs
      · exact hm3 (by rw [e])
      · rcases commit_step hs (hne m hm1) (hd (m + 1) (by omega)) with e | hlt
        · exact hm3 e
        · rw [hm2, hx] at hlt
          obtain ⟨j, hj1, hj2⟩ := ih _ hlt (m + 1) (by omega) rfl
          exact hno ⟨j, by omega, hj2⟩
  exact key _ n (Nat.le_refl n) rfl

end

end Kv
end Blobd
