import Verif.Proofs.KvRoom
set_option autoImplicit false
/-!
# C68: KV: every call is answered

An answer is given when a call's task is applied to the overlay (`applied`); `outstanding` are the calls made and not
answered. Reads wait for nobody and are not considered.
-/
namespace Blobd
namespace Props
open Kv

variable {c : StoreCfg} {σ : Nat → St}

/-- In every fair run in which the log has room whenever the flusher needs it: once no more calls are made, all calls
under way are answered, whatever the schedule and however the device, the flusher, the completer and background commits
interleave. -/
theorem C68_every_call_answered_partial (h : FairRun c σ) {n : Nat} (hroom : ∀ m, n ≤ m → LogRoom c (σ m)) (hq : NoCalls σ n) :
    ∃ m, n ≤ m ∧ outstanding (σ m) = [] ∧ (σ m).applied.Perm ((σ n).applied ++ outstanding (σ n)) :=
  all_answered h hroom hq

/-- … and however many calls are made later, the calls handed to the log are answered, in the order they were handed
over. -/
theorem C68_answered_in_order_partial (h : FairRun c σ) {n : Nat} (hroom : ∀ m, n ≤ m → LogRoom c (σ m)) :
    ∃ m, n ≤ m ∧ inLine (σ n) <+: (σ m).applied :=
  line_answered h hroom

/-- In particular if the log has room for all of them at once, counting a page of padding for each and twice for a
wraparound, no matter whether a background commit ever frees anything. -/
theorem C68_answered_if_fits (hc : c.Ok) (h : FairRun c σ) (hf : ∀ m, (σ m).faults = []) (hk : ∀ m, NoEmptyKey (σ m)) {n : Nat}
    (hq : NoCalls σ n) (hu : logUse (σ n) + ((unlogged (σ n)).map (callRoom c)).sum < c.log.dataLen) :
    ∃ m, n ≤ m ∧ outstanding (σ m) = [] ∧ (σ m).applied.Perm ((σ n).applied ++ outstanding (σ n)) :=
  all_answered h (run_room hc h.toRun hf hk hq hu) hq

/-- A background commit, once started, ends, unless it panics for lack of heap space. -/
theorem C68_commit_ends_partial (h : Run c σ) (hf : FairCommit σ) {n : Nat} (hd : ∀ m, n ≤ m → ¬ ∃ u, (σ m).commit = some ⟨u, .dead⟩) :
    ∃ m, n ≤ m ∧ (σ m).commit = none :=
  commit_ends h hf hd

/-- Fairness asks nothing impossible: whenever one of the parties is expected to act it can. -/
theorem C68_never_blocked {s : St} (h : Reach c s) :
    (s.preps ≠ [] → ∃ s', Step c s s' ∧ s'.preps.length < s.preps.length) ∧
    (s.ready ≠ [] → ∃ s', Step c s s' ∧ s'.ready.length < s.ready.length) ∧
    (s.queue ≠ [] → ∃ s', Step c s s' ∧ s.pending.length < s'.pending.length) ∧
    (s.pending ≠ [] → LogRoom c s → ∃ s', Step c s s' ∧ s'.pending = []) ∧
    (Oldest s false → ∃ s', Step c s s' ∧ Oldest s' true) ∧
    (s.inserting = [] → Oldest s true → ∃ s', Step c s s' ∧ s'.log.inflight.length < s.log.inflight.length) ∧
    (s.inserting ≠ [] → ∃ s', Step c s s' ∧ s.applied.length < s'.applied.length) := by
  refine ⟨?_, ?_, ?_, ?_, ?_, ?_, ?_⟩
  · intro hn
    obtain ⟨p, ps, e⟩ := List.exists_cons_of_ne_nil hn
    exact ⟨_, .heapWritten (pre := []) (post := ps) e, by simp [e]⟩
  · intro hn
    obtain ⟨p, ps, e⟩ := List.exists_cons_of_ne_nil hn
    exact ⟨_, .send (pre := []) (post := ps) e, by simp [e]⟩
  · intro hn
    obtain ⟨p, ps, e⟩ := List.exists_cons_of_ne_nil hn
    exact ⟨_, .recv e, by simp⟩
  · intro hn hr
    obtain ⟨j1, j2, log', f, e⟩ := hr hn
    exact ⟨_, .flush j1 j2 hn e, rfl⟩
  · rintro ⟨f, e, hd⟩
    obtain ⟨fs, e2⟩ := List.head?_eq_some_iff.1 e
    refine ⟨_, .logWritten (i := 0) (f := f) (by simp [e2]) hd, ⟨{ f with done := true }, ?_, rfl⟩⟩
    simp [finishFlush, e2]
  · rintro hi ⟨f, e, hd⟩
    obtain ⟨fs, e2⟩ := List.head?_eq_some_iff.1 e
    have : completeFlushes s.log 1 = some ({ s.log with tail := f.newTail, inflight := fs }, f.tasks) := by
      simp [completeFlushes, e2, hd]
    exact ⟨_, .complete 1 hi this, by simp [e2]⟩
  · intro hn
    obtain ⟨p, ps, e⟩ := List.exists_cons_of_ne_nil hn
    exact ⟨_, .apply e, by simp⟩

/-- the same for background commits -/
theorem C68_commit_never_blocked {s : St} (hcom : s.commit.isSome = s.com.isSome) (hn : s.commit ≠ none)
    (hd : ¬ ∃ u, s.commit = some ⟨u, .dead⟩) : ∃ s', Step c s s' ∧ ¬ s'.commit = s.commit := by
  obtain ⟨⟨u, ph⟩, e⟩ := Option.ne_none_iff_exists'.1 hn
  cases ph with
  | dead => exact absurd ⟨u, e⟩ hd
  | headWritten => exact ⟨_, .commitEnd e, by simp [e]⟩
  | started =>
    rw [e] at hcom
    obtain ⟨g, hg⟩ := Option.isSome_iff_exists.1 hcom.symm
    cases hm : moveAll (fun _ => 0) s.alloc (s.gens g) with
    | mk a' r =>
      cases r with
      | none => exact ⟨_, .groupPanic (fun _ => 0) hg e (.refl _) hm, by simp [e]⟩
      | some x => exact ⟨_, .group (fun _ => 0) hg e (.refl _) hm, by simp [e]⟩
  | moving ws gs =>
    cases ws with
    | nil => exact ⟨_, .movedAll e, by simp [e]⟩
    | cons w ws =>
      refine ⟨_, .moved (pre := []) (post := ws) e, ?_⟩
      rw [e]
      intro h
      simp only [Option.some.injEq, Commit.mk.injEq, Phase.moving.injEq, true_and, and_true, List.nil_append] at h
      exact absurd (congrArg List.length h) (by simp)
  | updating todo work comp =>
    cases todo with
    | cons g todo =>
      cases hb : bundleDeserialise (s.pages g.1) with
      | none =>
        refine ⟨_, .readPanic (pre := []) (post := todo) e hb, ?_⟩
        rw [e]
        intro h
        simp only [Option.some.injEq, Commit.mk.injEq, Phase.updating.injEq, true_and, and_true, List.nil_append] at h
        exact absurd (congrArg List.length h) (by simp)
      | some ts =>
        refine ⟨_, .bundleRead (pre := []) (i := g.1) (es := g.2) (post := todo) e hb, ?_⟩
        rw [e]
        intro h
        simp only [Option.some.injEq, Commit.mk.injEq, Phase.updating.injEq, true_and, List.nil_append] at h
        exact absurd (congrArg List.length h.1) (by simp)
    | nil =>
      cases work with
      | cons w work =>
        obtain ⟨i, m, rest⟩ := w
        cases rest with
        | cons x rest =>
          cases ha : applyEntry s.alloc m x with
          | mk a' r =>
            cases r with
            | none =>
              refine ⟨_, .entryPanic (pre := []) (post := work) e ha, ?_⟩
              rw [e]
              intro h
              simp only [Option.some.injEq, Commit.mk.injEq, Phase.updating.injEq, true_and, and_true, List.nil_append] at h
              exact absurd (congrArg List.length h) (by simp)
            | some m' =>
              refine ⟨_, .bundleEntry (pre := []) (post := work) e ha, ?_⟩
              rw [e]
              intro h
              simp only [Option.some.injEq, Commit.mk.injEq, Phase.updating.injEq, true_and, and_true, List.nil_append, List.cons.injEq,
                Work.mk.injEq] at h
              exact absurd (congrArg List.length h.2) (by simp)
        | nil =>
          cases hp : serialiseBundle (2 ^ c.heap.pages.spage) (fun _ => 0) m with
          | none =>
            refine ⟨_, .serialisePanic (pre := []) (post := work) (fun _ => 0) e (.refl _) hp, ?_⟩
            rw [e]
            intro h
            simp only [Option.some.injEq, Commit.mk.injEq, Phase.updating.injEq, true_and, and_true, List.nil_append] at h
            exact absurd (congrArg List.length h) (by simp)
          | some page =>
            refine ⟨_, .bundleSerialise (pre := []) (post := work) (fun _ => 0) e (.refl _) hp, ?_⟩
            rw [e]
            intro h
            simp only [Option.some.injEq, Commit.mk.injEq, Phase.updating.injEq, true_and, List.nil_append] at h
            exact absurd (congrArg List.length h.1) (by simp)
      | nil =>
        cases comp with
        | nil => exact ⟨_, .headWrite e, by simp [e]⟩
        | cons x comp =>
          refine ⟨_, .bundleWritten (pre := []) (i := x.1) (page := x.2) (post := comp) e, ?_⟩
          rw [e]
          intro h
          simp only [Option.some.injEq, Commit.mk.injEq, Phase.updating.injEq, true_and, and_true, List.nil_append] at h
          exact absurd (congrArg List.length h) (by simp)

/-! ## Where the code falls short -/

/-- nothing has been logged, and what the flusher holds is longer than the log -/
structure Jam (c : StoreCfg) (s : St) : Prop where
  log : s.log.head = 0 ∧ s.log.tail = 0 ∧ s.log.vtail = 0 ∧ s.log.inflight = []
  big : ∀ b, encodeTasks s.pending = some b → c.log.dataLen ≤ b.length
  ins : s.inserting = []
  app : s.applied = []
  cm : ∀ u ph, s.commit = some ⟨u, ph⟩ → u = 0

theorem encode_append (a b : List Task) {r : List Byte} (h : encodeTasks (a ++ b) = some r) :
    ∃ x y, encodeTasks a = some x ∧ encodeTasks b = some y ∧ r = x ++ y := by
  induction a generalizing r with
  | nil => exact ⟨[], r, rfl, h, rfl⟩
  | cons t a ih =>
    simp only [List.cons_append, encodeTasks] at h ⊢
    split at h
    · rename_i x y hx hy
      cases h
      obtain ⟨x', y', h1, h2, h3⟩ := ih hy
      exact ⟨x ++ x', y', by simp [hx, h1], h2, by simp [h3]⟩
    · cases h

theorem plan_none {c : LogCfg} {s : LogSt} {j1 j2 : Nat → Byte} {ts : List Task} (h0 : s.head = 0)
    (hb : ∀ b, encodeTasks ts = some b → c.dataLen ≤ s.vtail + ceilPow2 b.length c.spage) : planFlush c s j1 j2 ts = none := by
  unfold planFlush
  split
  · rfl
  · rename_i b hb'
    have h1 := hb b hb'
    have h2 := padFlush_length c j1 b
    dsimp only
    rw [h0]
    split
    · split
      · split
        · rw [if_pos (by omega)]
        · rfl
      · rw [if_pos (by omega)]
    · rfl

theorem jam_step {s s' : St} (h : Jam c s) (hs : Step c s s') : Jam c s' := by
  obtain ⟨⟨l1, l2, l3, l4⟩, hb, hi, ha, hc⟩ := h
  have hcm : ∀ {u ph ph'}, s.commit = some ⟨u, ph⟩ → ∀ u' p', some (Commit.mk u ph') = some ⟨u', p'⟩ → u' = 0 := by
    intro u ph ph' e u' p' e'
    cases e'
    exact hc _ _ e
  cases hs with
  | recv hq =>
    refine ⟨⟨l1, l2, l3, l4⟩, ?_, hi, ha, hc⟩
    intro b hb'
    obtain ⟨x, y, h1, h2, h3⟩ := encode_append _ _ hb'
    have := hb x h1
    rw [h3, List.length_append]
    omega
  | @flush log' f j1 j2 hn hp =>
    rw [plan_none l1 (fun b hb' => by
      have h1 := hb b hb'
      have h2 := le_ceilPow2 b.length c.log.spage
      omega)] at hp
    cases hp
  | @logWritten i f hf hd => rw [l4] at hf; cases hf
  | @complete log' ts n hi' hcf => simp [completeFlushes, l4] at hcf
  | apply hi' => rw [hi] at hi'; cases hi'
  | commitStart h1 h2 h3 =>
    refine ⟨⟨l1, l2, l3, l4⟩, hb, hi, ha, ?_⟩
    intro u ph e
    cases e
    exact l2
  | group junk h1 h2 h3 h4 => exact ⟨⟨l1, l2, l3, l4⟩, hb, hi, ha, hcm h2⟩
  | groupPanic junk h1 h2 h3 h4 => exact ⟨⟨l1, l2, l3, l4⟩, hb, hi, ha, hcm h2⟩
  | moved h1 => exact ⟨⟨l1, l2, l3, l4⟩, hb, hi, ha, hcm h1⟩
  | movedAll h1 => exact ⟨⟨l1, l2, l3, l4⟩, hb, hi, ha, hcm h1⟩
  | bundleRead h1 h2 => exact ⟨⟨l1, l2, l3, l4⟩, hb, hi, ha, hcm h1⟩
  | bundleEntry h1 h2 => exact ⟨⟨l1, l2, l3, l4⟩, hb, hi, ha, hcm h1⟩
  | bundleSerialise junk h1 h2 h3 => exact ⟨⟨l1, l2, l3, l4⟩, hb, hi, ha, hcm h1⟩
  | readPanic h1 h2 => exact ⟨⟨l1, l2, l3, l4⟩, hb, hi, ha, hcm h1⟩
  | entryPanic h1 h2 => exact ⟨⟨l1, l2, l3, l4⟩, hb, hi, ha, hcm h1⟩
  | serialisePanic junk h1 h2 h3 => exact ⟨⟨l1, l2, l3, l4⟩, hb, hi, ha, hcm h1⟩
  | bundleWritten h1 => exact ⟨⟨l1, l2, l3, l4⟩, hb, hi, ha, hcm h1⟩
  | headWrite h1 => exact ⟨⟨hc _ _ h1, l2, l3, l4⟩, hb, hi, ha, hcm h1⟩
  | commitEnd h1 => exact ⟨⟨l1, l2, l3, l4⟩, hb, hi, ha, fun u ph e => by cases e⟩
  | _ => exact ⟨⟨l1, l2, l3, l4⟩, hb, hi, ha, hc⟩

def tDel (c : StoreCfg) : Task := ⟨Key.fromRaw c.H [1], none, none⟩

theorem puts {q : QSt} (n : Nat) : Steps c q.st (QSt.pend { q with issued := q.issued ++ List.replicate n (tDel c) } (List.replicate n (tDel c))) := by
  induction n with
  | zero =>
    rw [List.replicate_zero, List.append_nil]
    exact .refl _
  | succ n ih =>
    have := put_delete (c := c) { q with issued := q.issued ++ List.replicate n (tDel c) } (List.replicate n (tDel c)) [1]
    have e : ∀ l : List Task, l ++ List.replicate n (tDel c) ++ [tDel c] = l ++ List.replicate (n + 1) (tDel c) := by
      intro l; rw [List.replicate_succ', List.append_assoc]
    have e' := e []
    simp only [List.nil_append] at e'
    change Steps c _ (QSt.pend { q with issued := q.issued ++ List.replicate n (tDel c) ++ [tDel c] } (List.replicate n (tDel c) ++ [tDel c])) at this
    rw [e, e'] at this
    exact ih.trans this

theorem encode_replicate (n : Nat) : encodeTasks (List.replicate n (tDel c)) = some ((List.replicate n [2, 1, 1]).flatten) := by
  induction n with
  | zero => rfl
  | succ n ih =>
    have : encodeTask (tDel c) = some [2, 1, 1] := rfl
    simp [List.replicate_succ, encodeTasks, this, ih]

/-- The code breaks C68: for every configuration with a log of at most 128 MiB (the flusher sends off earlier if it has
received more), a burst of calls within the flusher's 10 ms can be longer than the log. Then the flusher panics: none
of these calls is ever answered, nor any later one. -/
theorem C68_violated_by_burst (hc : c.Ok) {heap logData : Mem} {s0 : St} (h0 : fresh c heap logData = some s0)
    (_h : c.log.dataLen ≤ 128 * 1024 * 1024) :
    ∃ s, Reach c s ∧ outstanding s = List.replicate c.log.dataLen (tDel c) ∧ 0 < c.log.dataLen ∧ ∀ s', Steps c s s' → s'.applied = [] := by
  have hr := Reach.fresh h0
  unfold fresh at h0
  split at h0
  · cases h0
  · rename_i a ha
    have h1 := puts (c := c) (q := qfresh c heap logData a) c.log.dataLen
    refine ⟨_, h1.reach (.fresh (fresh_q ha)), ?_, hc.logPos, ?_⟩
    · simp [outstanding, QSt.pend]
    · have hj : Jam c (QSt.pend { qfresh c heap logData a with issued := [] ++ List.replicate c.log.dataLen (tDel c) }
          (List.replicate c.log.dataLen (tDel c))) := by
        refine ⟨⟨rfl, rfl, rfl, rfl⟩, ?_, rfl, rfl, fun u ph e => by cases e⟩
        intro b hb
        have hb : encodeTasks (List.replicate c.log.dataLen (tDel c)) = some b := hb
        rw [encode_replicate, Option.some.injEq] at hb
        subst hb
        simp
        omega
      intro s' hs
      have : Jam c s' := by
        induction hs with
        | refl => exact hj
        | snoc _ hs ih => exact jam_step ih hs
      exact this.app

/-- the log is full but for one page, and that is not enough to start a commit -/
structure FullLog (c : StoreCfg) (l : List Task) (s : St) : Prop where
  log : s.log.head = 0 ∧ s.log.tail = c.log.dataLen - 2 ^ c.log.spage ∧ s.log.vtail = c.log.dataLen - 2 ^ c.log.spage ∧ s.log.inflight = []
  ins : s.inserting = []
  app : s.applied = l
  cm : s.commit = none

theorem encode_pos {ts : List Task} (hne : ts ≠ []) {b : List Byte} (h : encodeTasks ts = some b) : 0 < b.length := by
  cases ts with
  | nil => exact absurd rfl hne
  | cons t ts =>
    simp only [encodeTasks] at h
    split at h
    · rename_i x y hx hy
      cases h
      have := encodeTask_pos hx
      rw [List.length_append]; omega
    · cases h

theorem ceil_ge {n p : Nat} (h : 0 < n) : 2 ^ p ≤ ceilPow2 n p := by
  have h1 := le_ceilPow2 n p
  exact Nat.le_of_dvd (by omega) (ceilPow2_dvd n p)

theorem full_step (hc : c.Ok) (ht : c.log.dataLen - 2 ^ c.log.spage < c.commitThreshold) {l : List Task} {s s' : St} (h : FullLog c l s)
    (hs : Step c s s') : FullLog c l s' := by
  obtain ⟨⟨l1, l2, l3, l4⟩, hi, ha, hcm⟩ := h
  have hx : ∀ {p : Prop} {x : Commit}, s.commit = some x → p := by
    intro p x e; rw [hcm] at e; cases e
  cases hs with
  | @flush log' f j1 j2 hn hp =>
    have hge : 2 ^ c.log.spage ≤ c.log.dataLen := Nat.le_of_dvd hc.logPos hc.logPages
    rw [plan_none l1 (fun b hb' => by
      have h1 := ceil_ge (p := c.log.spage) (encode_pos hn hb')
      rw [l3]
      omega)] at hp
    cases hp
  | @logWritten i f hf hd => rw [l4] at hf; cases hf
  | @complete log' ts n hi' hcf => simp [completeFlushes, l4] at hcf
  | apply hi' => rw [hi] at hi'; cases hi'
  | commitStart h1 h2 h3 => rw [l1, l2] at h3; omega
  | group junk h1 h2 h3 h4 => exact hx h2
  | groupPanic junk h1 h2 h3 h4 => exact hx h2
  | moved h1 => exact hx h1
  | movedAll h1 => exact hx h1
  | bundleRead h1 h2 => exact hx h1
  | bundleEntry h1 h2 => exact hx h1
  | bundleSerialise junk h1 h2 h3 => exact hx h1
  | readPanic h1 h2 => exact hx h1
  | entryPanic h1 h2 => exact hx h1
  | serialisePanic junk h1 h2 h3 => exact hx h1
  | bundleWritten h1 => exact hx h1
  | headWrite h1 => exact hx h1
  | commitEnd h1 => exact hx h1
  | _ => exact ⟨⟨l1, l2, l3, l4⟩, hi, ha, hcm⟩

theorem full_later (hc : c.Ok) (ht : c.log.dataLen - 2 ^ c.log.spage < c.commitThreshold) {l : List Task} {s s' : St} (h : FullLog c l s)
    (hs : Later c s s') : FullLog c l s' := by
  induction hs with
  | refl => exact h
  | step _ hs ih => exact full_step hc ht ih hs
  | restart _ hl ih =>
    obtain ⟨⟨l1, l2, l3, l4⟩, hi, ha, hcm⟩ := ih
    unfold load at hl
    split at hl
    · split at hl
      · cases hl
      · cases hl
        exact ⟨⟨l1, l2, l2, rfl⟩, rfl, by simp [hi, ha], rfl⟩
    · cases hl

theorem batch_one (hsp : 2 ≤ c.log.spage) : batchLen c [tDel c] = 2 ^ c.log.spage := by
  unfold batchLen
  have : encodeTasks [tDel c] = some [2, 1, 1] := rfl
  rw [this]
  simp only [Option.map_some, Option.getD_some, padFlush_length, List.length_cons, List.length_nil]
  have h1 := ceil_ge (n := 3) (p := c.log.spage) (by decide)
  have h2 : 2 ^ 2 ≤ 2 ^ c.log.spage := Nat.pow_le_pow_right (by decide) hsp
  have h3 := ceilPow2_le_of_dvd (v := 3) (p := c.log.spage) (m := 2 ^ c.log.spage) (Nat.dvd_refl _) (by omega)
  simp only [Nat.zero_add, Nat.reduceAdd]
  omega

theorem fill (hc : c.Ok) (hsp : 2 ≤ c.log.spage) {heap logData : Mem} {a : KvAlloc}
    (ha : KvAlloc.new c.heap.base c.heap.heap c.heap.pages = some a) (k : Nat) (hk : k * 2 ^ c.log.spage < c.log.dataLen) :
    ∃ q : QSt, Reach c q.st ∧ q.head = 0 ∧ q.tail = k * 2 ^ c.log.spage ∧ q.applied = List.replicate k (tDel c) := by
  induction k with
  | zero => exact ⟨qfresh c heap logData a, .fresh (fresh_q ha), rfl, by simp [qfresh], rfl⟩
  | succ k ih =>
    rw [Nat.add_mul, Nat.one_mul] at hk
    obtain ⟨q, h1, h2, h3, h4⟩ := ih (Nat.lt_of_le_of_lt (Nat.le_add_right _ _) hk)
    have hb : batchLen c [tDel c] = 2 ^ c.log.spage := batch_one hsp
    have hbuf : 2 ^ c.log.spage ≤ c.log.bufSize := Nat.le_of_dvd hc.bufPos hc.bufPages
    have s1 := put_delete (c := c) q [] [1]
    have s2 := run_batch (c := c) { q with issued := q.issued ++ [tDel c] } [tDel c] (by simp) (buf := [2, 1, 1]) rfl
      (by rw [modPow2_eq, h3]; exact Nat.mul_mod_left _ _) (by rw [hb, h3]; exact hk) (by rw [hb]; exact hbuf)
    refine ⟨_, (s1.trans s2).reach h1, h2, ?_, ?_⟩
    · show q.tail + batchLen c [tDel c] = _
      rw [hb, h3, Nat.add_mul, Nat.one_mul]
    · show q.applied ++ [tDel c] = _
      rw [h4, List.replicate_succ']

/-- The code breaks C68: if commits start only when more than the log but one page is used (which the configuration
check allows), then a store whose log has filled up never answers a call again, through any number of restarts. -/
theorem C68_violated_by_full_log (hc : c.Ok) (hsp : 2 ≤ c.log.spage) (ht : c.log.dataLen - 2 ^ c.log.spage < c.commitThreshold)
    {heap logData : Mem} {s0 : St} (h0 : fresh c heap logData = some s0) :
    ∃ s l, Reach c s ∧ outstanding s = [] ∧ s.applied = l ∧ l.length + 1 = c.log.dataLen / 2 ^ c.log.spage ∧
      ∀ s', Later c s s' → s'.applied = l := by
  unfold fresh at h0
  split at h0
  · cases h0
  · rename_i a ha
    obtain ⟨n, hn⟩ := hc.logPages
    have hp := Nat.two_pow_pos c.log.spage
    have hn0 : n ≠ 0 := by
      rintro rfl
      have := hc.logPos
      omega
    obtain ⟨k, rfl⟩ := Nat.exists_eq_succ_of_ne_zero hn0
    have hk : c.log.dataLen = k * 2 ^ c.log.spage + 2 ^ c.log.spage := by rw [hn, Nat.mul_comm, Nat.succ_mul]
    obtain ⟨q, h1, h2, h3, h4⟩ := fill (heap := heap) (logData := logData) hc hsp ha k (by rw [hk]; exact Nat.lt_add_of_pos_right hp)
    refine ⟨q.st, _, h1, rfl, h4, ?_, ?_⟩
    · rw [List.length_replicate, hn, Nat.mul_div_cancel_left _ hp]
    · intro s' hs
      have hf : FullLog c (List.replicate k (tDel c)) q.st := by
        refine ⟨⟨h2, ?_, ?_, rfl⟩, rfl, h4, rfl⟩
        · show q.tail = _; omega
        · show q.tail = _; omega
      exact (full_later hc ht hf hs).app

/-! ## The hypotheses are met -/

theorem run_of_steps {s0 s1 : St} (hr : Reach c s0) (h : Steps c s0 s1) :
    ∃ σ, Run c σ ∧ σ 0 = s0 ∧ (∃ N, ∀ m, N ≤ m → σ m = s1) ∧ ∀ m, Steps c s0 (σ m) := by
  induction h with
  | refl => exact ⟨fun _ => s0, ⟨hr, fun _ => .inl rfl⟩, rfl, ⟨0, fun _ _ => rfl⟩, fun _ => .refl _⟩
  | @snoc a b h hs ih =>
    obtain ⟨σ, h1, h2, ⟨N, h3⟩, h4⟩ := ih
    refine ⟨fun m => if m ≤ N then σ m else b, ⟨?_, ?_⟩, ?_, ⟨N + 1, ?_⟩, ?_⟩
    · simpa using h1.start
    · intro n
      rcases Nat.lt_trichotomy n N with hl | hl | hl
      · simpa [show n ≤ N by omega, show n + 1 ≤ N by omega] using h1.next n
      · subst hl
        right
        simpa [h3 n (Nat.le_refl _), show ¬ n + 1 ≤ n by omega] using hs
      · simp [show ¬ n ≤ N by omega, show ¬ n + 1 ≤ N by omega]
    · simpa using h2
    · intro m hm
      simp [show ¬ m ≤ N by omega]
    · intro m
      by_cases hm : m ≤ N
      · simpa [hm] using h4 m
      · simpa [hm] using h.snoc hs

theorem steps_mono {s s' : St} (h : Steps c s s') : (∃ x, s'.faults = x ++ s.faults) ∧ ∃ y, s'.issued = s.issued ++ y := by
  induction h with
  | refl => exact ⟨⟨[], rfl⟩, ⟨[], (List.append_nil _).symm⟩⟩
  | snoc _ hs ih =>
    obtain ⟨⟨x, hx⟩, ⟨y, hy⟩⟩ := ih
    obtain ⟨⟨x', hx'⟩, ⟨y', hy'⟩⟩ := step_mono hs
    exact ⟨⟨x' ++ x, by rw [hx', hx, List.append_assoc]⟩, ⟨y ++ y', by rw [hy', hy, List.append_assoc]⟩⟩

/-- a run that comes to rest with everything answered is fair -/
theorem fair_at_rest {q : QSt} (h : Run c σ) {N : Nat} (hN : ∀ m, N ≤ m → σ m = q.st) : FairRun c σ ∧ FairCommit σ := by
  have key : ∀ {can act}, ¬ can q.st → Fair σ can act := by
    intro can act hcan n hall
    have := hall (max n N) (by omega)
    rw [hN _ (by omega)] at this
    exact absurd this hcan
  refine ⟨{ toRun := h, heap := ?_, send := ?_, recv := ?_, flush := ?_, device := ?_, complete := ?_, apply := ?_ }, ?_⟩
  · exact key (fun h => h rfl)
  · exact key (fun h => h rfl)
  · exact key (fun h => h rfl)
  · exact key (fun h => h.1 rfl)
  · exact key (by rintro ⟨f, e, _⟩; cases e)
  · exact key (by rintro ⟨_, f, e, _⟩; cases e)
  · exact key (fun h => h rfl)
  · exact key (fun h => h rfl)

theorem dead_steps {s s' : St} (h : Steps c s s') {u : Nat} (hd : s.commit = some ⟨u, .dead⟩) : s'.commit = some ⟨u, .dead⟩ := by
  induction h with
  | refl => exact hd
  | snoc _ hs ih => cases hs <;> simp_all

theorem head_step {s s' : St} (h : Step c s s') (h1 : s.commit = none) : s'.log.head = s.log.head := by
  cases h with
  | flush j1 j2 hn hp =>
    unfold planFlush at hp
    split at hp
    · cases hp
    · dsimp only at hp
      split at hp
      · split at hp
        · split at hp
          · split at hp <;> cases hp; rfl
          · cases hp
        · split at hp <;> cases hp; rfl
      · cases hp
  | complete n hi hcf =>
    unfold completeFlushes at hcf
    dsimp only at hcf
    split at hcf
    · cases hcf
    · split at hcf <;> cases hcf
      rfl
  | logWritten =>
    simp only [finishFlush]
    split <;> rfl
  | _ => simp_all

theorem few_steps (heap logData : Mem) : ∃ q : QSt,
    Steps wcfg (QSt.pend { qfresh wcfg heap logData a0 with issued := fewTasks } fewTasks) q.st ∧
    q.issued = fewTasks ∧ q.faults = [] ∧ q.head = 512 := by
  obtain ⟨buf, hbuf⟩ := Option.isSome_iff_exists.1 few_enc
  obtain ⟨page, hpage⟩ := Option.isSome_iff_exists.1 few_fits
  have h2 := run_batch (c := wcfg) { qfresh wcfg heap logData a0 with issued := fewTasks } fewTasks (by decide +kernel)
    hbuf (show modPow2 0 9 = 0 by decide) (by rw [few_len]; exact (by decide : 0 + 512 < 2 ^ 20))
    (by rw [few_len]; decide)
  rw [few_len] at h2
  obtain ⟨q, hq⟩ : ∃ q : QSt, q = { qfresh wcfg heap logData a0 with
      issued := fewTasks
      data := logData.writeAll [(0 % 2 ^ 20, padFlush wcfg.log (fun _ => 0) buf)]
      tail := 0 + 512
      gens := fun g => if g = 0 then insertAll [] fewTasks else []
      applied := [] ++ fewTasks
      ul := [] ++ fewTasks } := ⟨_, rfl⟩
  have h3 : Steps wcfg (QSt.pend { qfresh wcfg heap logData a0 with issued := fewTasks } fewTasks) q.st := by
    rw [hq]; exact h2
  have hg : q.gens q.cur = insertAll [] fewTasks := by rw [hq]; rfl
  have h4 := run_commit (c := wcfg) rfl q (by rw [hq]; exact (by decide : 0 + 512 - 0 ≥ 512))
    (by rw [hg]; decide +kernel)
    (by
      rw [hg]
      intro e he d hd
      rw [few_inline e he] at hd
      cases hd
      decide)
    (ts := []) (by rw [hq]; exact deser_zero _)
    (a' := q.alloc) (m' := (insertAll [] fewTasks).foldl putEntry [])
    (by
      rw [hg]
      apply applyAll_inline
      · simp [collectMap]
      · exact fun e he => ⟨_, few_inline e he⟩)
    hpage
  refine ⟨_, h3.trans h4, ?_, ?_, ?_⟩
  · show q.issued = _; rw [hq]
  · show q.faults = _; rw [hq]; rfl
  · show q.tail = _; rw [hq]

/-- The hypotheses are met: twelve calls are waiting at the flusher at moment 0, they are all answered and then moved to
their bundle by a commit. -/
example (heap logData : Mem) : ∃ σ, FairRun wcfg σ ∧ FairCommit σ ∧ NoCalls σ 0 ∧ (∀ m, (σ m).faults = []) ∧ (∀ m, NoEmptyKey (σ m)) ∧
    (∀ m, LogRoom wcfg (σ m)) ∧ outstanding (σ 0) = fewTasks ∧ fewTasks.length = 12 ∧
    logUse (σ 0) + ((unlogged (σ 0)).map (callRoom wcfg)).sum < wcfg.log.dataLen ∧ (∃ m, (σ m).commit ≠ none) ∧
    ∀ m, ¬ ∃ u, (σ m).commit = some ⟨u, .dead⟩ := by
  obtain ⟨q, h1, h2, h3, h4⟩ := few_steps heap logData
  have hr : Reach wcfg (QSt.pend { qfresh wcfg heap logData a0 with issued := fewTasks } fewTasks) := by
    have h1 := put_all (c := wcfg) fewWrites (qfresh wcfg heap logData a0) [] (by
      have : ∀ w ∈ fewWrites, w.2.length = 7 := by decide +kernel
      intro w hw
      rw [this w hw]
      decide)
    exact h1.reach (.fresh (fresh_q new_a0))
  obtain ⟨σ, r1, r2, ⟨N, r3⟩, r4⟩ := run_of_steps hr h1
  obtain ⟨f1, f2⟩ := fair_at_rest r1 r3
  have hmono : ∀ m k, Steps wcfg (σ m) (σ (m + k)) := by
    intro m k
    induction k with
    | zero => exact .refl _
    | succ k ih =>
      rcases r1.next (m + k) with e | e
      · rw [Nat.add_succ, e]; exact ih
      · exact ih.snoc e
  have hend : ∀ m, Steps wcfg (σ m) q.st := by
    intro m
    have := hmono m N
    rwa [r3 (m + N) (Nat.le_add_left _ _)] at this
  have hiss : ∀ m, (σ m).issued = fewTasks := by
    intro m
    obtain ⟨y, hy⟩ := (steps_mono (r4 m)).2
    obtain ⟨z, hz⟩ := (steps_mono (hend m)).2
    have hy : (σ m).issued = fewTasks ++ y := hy
    have hz : q.issued = (σ m).issued ++ z := hz
    rw [h2, hy] at hz
    have := congrArg List.length hz
    simp only [List.length_append] at this
    have : y = [] := List.eq_nil_of_length_eq_zero (by omega)
    rw [hy, this, List.append_nil]
  have hflt : ∀ m, (σ m).faults = [] := by
    intro m
    obtain ⟨x, hx⟩ := (steps_mono (hend m)).1
    have hx : q.faults = x ++ (σ m).faults := hx
    rw [h3] at hx
    exact (List.append_eq_nil_iff.1 hx.symm).2
  have hkey : ∀ m, NoEmptyKey (σ m) := by
    intro m t ht
    rw [hiss] at ht
    have : ∀ t ∈ fewTasks, t.key ≠ .literal [] := by decide +kernel
    exact this t ht
  have hq : NoCalls σ 0 := by
    intro m _
    rw [hiss, hiss]
  have huse : logUse (σ 0) + ((unlogged (σ 0)).map (callRoom wcfg)).sum < wcfg.log.dataLen := by
    have e : unlogged (σ 0) = fewTasks := by rw [r2]; rfl
    have e' : logUse (σ 0) = 0 := by rw [r2]; rfl
    rw [e, e']
    decide +kernel
  have hroom := run_room wcfg_ok r1 hflt hkey hq huse
  refine ⟨σ, f1, f2, hq, hflt, hkey, fun m => hroom m (by omega), by rw [r2]; simp [outstanding, QSt.pend], by decide +kernel, huse, ?_, ?_⟩
  · by_contra hno
    have hno : ∀ m, (σ m).commit = none := by simpa using hno
    have : ∀ m, (σ m).log.head = 0 := by
      intro m
      induction m with
      | zero => rw [r2]; rfl
      | succ m ih =>
        rcases r1.next m with e | e
        · rw [e, ih]
        · rw [head_step e (hno m), ih]
    have h5 := this N
    rw [r3 N (Nat.le_refl _)] at h5
    have h5 : q.head = 0 := h5
    omega
  · rintro m ⟨u, hu⟩
    cases dead_steps (hend m) hu

example (heap logData : Mem) : ∃ s0, wcfg.Ok ∧ fresh wcfg heap logData = some s0 ∧ wcfg.log.dataLen ≤ 128 * 1024 * 1024 :=
  ⟨_, wcfg_ok, fresh_q new_a0, by decide⟩

/-- a commit is started when all of the 1 MiB log but one byte is used -/
def lateCfg : StoreCfg := { wcfg with commitThreshold := 2 ^ 20 - 1 }

example (heap logData : Mem) : ∃ s0, lateCfg.Ok ∧ 2 ≤ lateCfg.log.spage ∧ lateCfg.log.dataLen - 2 ^ lateCfg.log.spage < lateCfg.commitThreshold ∧
    lateCfg.commitThreshold < lateCfg.log.dataLen ∧ fresh lateCfg heap logData = some s0 :=
  ⟨(qfresh lateCfg heap logData a0).st, ⟨wcfg_ok.hash, wcfg_ok.bundles, wcfg_ok.spage, wcfg_ok.lpage, wcfg_ok.base, wcfg_ok.heapEnd,
    wcfg_ok.logPos, wcfg_ok.logPages, wcfg_ok.bufPos, wcfg_ok.bufPages⟩, by decide, by decide, by decide, fresh_q new_a0⟩

end Props
end Blobd
