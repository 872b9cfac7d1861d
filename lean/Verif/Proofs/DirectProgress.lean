import Verif.Spec.DirectProgress
import Verif.Proofs.DirectDur4
set_option autoImplicit false
/-! # Direct store: every call ends -/
namespace Blobd
namespace Direct
open List

variable {c : SCfg} {σ : Nat → DSt}

/-- how far a call is from its end -/
def PC.rank : PC → Nat
  | .createData _ => 10
  | .createMeta _ _ _ => 9
  | .createInsert _ _ => 8
  | .createTuple _ _ => 7
  | .commitClaimed _ _ => 6
  | .commitSealed _ _ => 5
  | .commitPublished _ _ _ => 4
  | .commitTuple _ _ _ => 3
  | .reap _ _ => 2
  | .reapTuple _ _ _ _ => 1
  | .dead => 0

/-- what a step does to the calls under way -/
theorem thread_step {s s' : DSt} (h : Step c s s') :
    s'.threads = s.threads ∨ (∃ st pc, s'.threads = s.threads ++ [⟨s.nextCall, st, pc⟩]) ∨
    (∃ pre th post pc', s.threads = pre ++ th :: post ∧ s'.threads = pre ++ withPc th pc' :: post ∧ pc'.rank < th.pc.rank) ∨
    (∃ pre th post, s.threads = pre ++ th :: post ∧ s'.threads = pre ++ post ∧ Answers s' th.call ∧ 0 < th.pc.rank) := by
  cases h with
  | createData key size created h1 h2 h3 h4 => exact .inr (.inl ⟨_, _, rfl⟩)
  | createDataPanic size h1 h2 => exact .inr (.inl ⟨_, _, rfl⟩)
  | createMeta junk ht hp h1 h2 h3 h4 => exact .inr (.inr (.inl ⟨_, _, _, _, ht, rfl, by rw [hp]; simp [PC.rank]⟩))
  | createMetaPanic ht hp h1 => exact .inr (.inr (.inl ⟨_, _, _, _, ht, rfl, by rw [hp]; simp [PC.rank]⟩))
  | metaWritten ht hp => exact .inr (.inr (.inl ⟨_, _, _, _, ht, rfl, by rw [hp]; simp [PC.rank]⟩))
  | createInsert ht hp h1 => exact .inr (.inr (.inl ⟨_, _, _, _, ht, rfl, by rw [hp]; simp [PC.rank]⟩))
  | createInsertPanic ht hp h1 => exact .inr (.inr (.inl ⟨_, _, _, _, ht, rfl, by rw [hp]; simp [PC.rank]⟩))
  | created ht hp h1 => exact .inr (.inr (.inr ⟨_, _, _, ht, rfl, ⟨_, mem_append_right _ (mem_singleton.2 rfl), rfl⟩, by rw [hp]; simp [PC.rank]⟩))
  | commitClaim id ifne h1 => exact .inr (.inl ⟨_, _, rfl⟩)
  | commitSeal ht hp => exact .inr (.inr (.inl ⟨_, _, _, _, ht, rfl, by rw [hp]; simp [PC.rank]⟩))
  | commitKept ht hp h1 h2 => exact .inr (.inr (.inl ⟨_, _, _, _, ht, rfl, by rw [hp]; simp [PC.rank]⟩))
  | commitPublish ht hp h1 h2 h3 => exact .inr (.inr (.inl ⟨_, _, _, _, ht, rfl, by rw [hp]; simp [PC.rank]⟩))
  | commitUpdate ht hp h1 => exact .inr (.inr (.inl ⟨_, _, _, _, ht, rfl, by rw [hp]; simp [PC.rank]⟩))
  | commitUpdatePanic ht hp h1 => exact .inr (.inr (.inl ⟨_, _, _, _, ht, rfl, by rw [hp]; simp [PC.rank]⟩))
  | commitDone ht hp h1 => exact .inr (.inr (.inr ⟨_, _, _, ht, rfl, ⟨_, mem_append_right _ (mem_singleton.2 rfl), rfl⟩, by rw [hp]; simp [PC.rank]⟩))
  | commitReap ht hp h1 => exact .inr (.inr (.inl ⟨_, _, _, _, ht, rfl, by rw [hp]; simp [PC.rank]⟩))
  | delete k want h1 h2 => exact .inr (.inl ⟨_, _, rfl⟩)
  | reapTuple ht hp h1 => exact .inr (.inr (.inl ⟨_, _, _, _, ht, rfl, by rw [hp]; simp [PC.rank]⟩))
  | reapPanic ht hp h1 => exact .inr (.inr (.inl ⟨_, _, _, _, ht, rfl, by rw [hp]; simp [PC.rank]⟩))
  | reaped ht hp h1 h2 => exact .inr (.inr (.inr ⟨_, _, _, ht, rfl, ⟨_, mem_append_right _ (mem_singleton.2 rfl), rfl⟩, by rw [hp]; simp [PC.rank]⟩))
  | _ => exact .inl rfl

theorem at_iff {s : DSt} (hn : (s.threads.map (·.call)).Nodup) {i : Nat} {pc : PC} :
    at? s i = some pc ↔ ∃ th ∈ s.threads, th.call = i ∧ th.pc = pc := by
  unfold at?
  constructor
  · intro h
    obtain ⟨th, h1, h2⟩ := Option.map_eq_some_iff.1 h
    exact ⟨th, mem_of_find?_eq_some h1, by simpa using find?_some h1, h2⟩
  · rintro ⟨th, h1, rfl, rfl⟩
    rw [Option.map_eq_some_iff]
    refine ⟨th, ?_, rfl⟩
    cases hf : s.threads.find? (fun x => x.call = th.call) with
    | none => exact absurd (find?_eq_none.1 hf th h1) (by simp)
    | some x =>
      have h2 : x.call = th.call := by simpa using find?_some hf
      rw [inj_on_of_nodup_map hn (mem_of_find?_eq_some hf) h1 h2]

theorem at_none {s : DSt} {i : Nat} : at? s i = none ↔ ∀ th ∈ s.threads, th.call ≠ i := by
  unfold at?
  rw [Option.map_eq_none_iff, find?_eq_none]
  simp

theorem step_at {s s' : DSt} (hr : Reach c s) (h : Step c s s') {i : Nat} {pc : PC} (ha : at? s i = some pc) :
    at? s' i = some pc ∨ (∃ pc', at? s' i = some pc' ∧ pc'.rank < pc.rank) ∨ (at? s' i = none ∧ Answers s' i ∧ 0 < pc.rank) := by
  have hn := (reach_lin hr).calls
  have hn' := (reach_lin (hr.step h)).calls
  obtain ⟨th, h1, rfl, rfl⟩ := (at_iff hn).1 ha
  rcases thread_step h with e | ⟨st, pc, e⟩ | ⟨pre, x, post, pc', e1, e2, e3⟩ | ⟨pre, x, post, e1, e2, e3⟩
  · left
    unfold at? at ha ⊢
    rw [e, ha]
  · left
    exact (at_iff hn').2 ⟨th, by rw [e]; exact mem_append_left _ h1, rfl, rfl⟩
  · rw [e1] at h1
    rcases mem_append.1 h1 with h1 | h1
    · exact .inl ((at_iff hn').2 ⟨th, by rw [e2]; exact mem_append_left _ h1, rfl, rfl⟩)
    · rcases mem_cons.1 h1 with rfl | h1
      · exact .inr (.inl ⟨pc', (at_iff hn').2 ⟨withPc th pc', by rw [e2]; exact mem_append_right _ (mem_cons_self), rfl, rfl⟩, e3⟩)
      · exact .inl ((at_iff hn').2 ⟨th, by rw [e2]; exact mem_append_right _ (mem_cons_of_mem _ h1), rfl, rfl⟩)
  · rw [e1] at h1 hn
    have : ∀ y ∈ pre ++ post, y.call ≠ x.call := by
      rw [map_append, map_cons] at hn
      have := nodup_middle.1 hn
      intro y hy e
      refine (nodup_cons.1 this).1 ?_
      rw [← e, ← map_append]
      exact mem_map_of_mem hy
    rcases mem_append.1 h1 with h1 | h1
    · exact .inl ((at_iff hn').2 ⟨th, by rw [e2]; exact mem_append_left _ h1, rfl, rfl⟩)
    · rcases mem_cons.1 h1 with rfl | h1
      · exact .inr (.inr ⟨at_none.2 (by rw [e2]; exact this), e3.1, e3.2⟩)
      · exact .inl ((at_iff hn').2 ⟨th, by rw [e2]; exact mem_append_right _ h1, rfl, rfl⟩)

/-! ### Runs -/

theorem Run.reach (h : Run c σ) (n : Nat) : Reach c (σ n) := by
  induction n with
  | zero => exact h.start
  | succ n ih =>
    rcases h.next n with e | e
    · rw [e]; exact ih
    · exact ih.step e

theorem keeps {P : DSt → Prop} {n : Nat} (h0 : P (σ n)) (hs : ∀ m, n ≤ m → P (σ m) → P (σ (m + 1))) : ∀ m, n ≤ m → P (σ m) := by
  intro m hm
  induction m with
  | zero =>
    have : n = 0 := by omega
    subst this; exact h0
  | succ m ih =>
    rcases Nat.lt_or_ge m n with hl | hl
    · have : n = m + 1 := by omega
      subst this; exact h0
    · exact hs m hl (ih hl)

/-- a property no step destroys -/
theorem Run.keep (h : Run c σ) {P : DSt → Prop} (hs : ∀ s s', Reach c s → P s → Step c s s' → P s') {n : Nat} (h0 : P (σ n)) :
    ∀ m, n ≤ m → P (σ m) := by
  refine keeps h0 ?_
  intro m _ hp
  rcases h.next m with e | e
  · rw [e]; exact hp
  · exact hs _ _ (h.reach m) hp e

/-- the first moment at which something changes -/
theorem Run.first (h : Run c σ) {P : DSt → Prop} {n : Nat} (h0 : P (σ n)) (hex : ∃ m, n ≤ m ∧ ¬ P (σ m)) :
    ∃ m, n ≤ m ∧ (∀ k, n ≤ k → k ≤ m → P (σ k)) ∧ ¬ P (σ (m + 1)) ∧ Step c (σ m) (σ (m + 1)) := by
  classical
  obtain ⟨m, hm, hx⟩ := hex
  induction m with
  | zero =>
    have : n = 0 := by omega
    subst this; exact absurd h0 hx
  | succ m ih =>
    rcases Nat.lt_or_ge m n with hl | hl
    · have : n = m + 1 := by omega
      subst this; exact absurd h0 hx
    · by_cases hp : ∀ k, n ≤ k → k ≤ m → P (σ k)
      · refine ⟨m, hl, hp, hx, ?_⟩
        rcases h.next m with e | e
        · rw [e] at hx; exact absurd (hp m hl (Nat.le_refl _)) hx
        · exact e
      · simp only [not_forall] at hp
        obtain ⟨k, h1, h2, h3⟩ := hp
        clear hx
        -- the first such moment is before `m`
        by_cases hk : P (σ m)
        · obtain ⟨k', hk'⟩ : ∃ k', k' = Nat.find (p := fun j => n ≤ j ∧ ¬ P (σ j)) ⟨k, h1, h3⟩ := ⟨_, rfl⟩
          have hs := Nat.find_spec (p := fun j => n ≤ j ∧ ¬ P (σ j)) ⟨k, h1, h3⟩
          rw [← hk'] at hs
          have hmin : ∀ j, j < k' → ¬ (n ≤ j ∧ ¬ P (σ j)) := fun j hj => Nat.find_min (p := fun j => n ≤ j ∧ ¬ P (σ j)) ⟨k, h1, h3⟩ (hk' ▸ hj)
          have hne : k' ≠ n := by rintro rfl; exact hs.2 h0
          obtain ⟨j, rfl⟩ : ∃ j, k' = j + 1 := ⟨k' - 1, by omega⟩
          have hall : ∀ i, n ≤ i → i ≤ j → P (σ i) := fun i h1 h2 => by_contra fun hc => hmin i (by omega) ⟨h1, hc⟩
          refine ⟨j, by omega, hall, hs.2, ?_⟩
          rcases h.next j with e | e
          · rw [e] at hs; exact absurd (hall j (by omega) (Nat.le_refl _)) hs.2
          · exact e
        · exact ih hl hk

/-! ### Tickets fire -/

theorem ts_step {s s' : DSt} (h : Step c s s') : s'.ts = s.ts ∨ TS.Step c.max c.n s.ts s'.ts := by
  cases h with
  | createInsert ht hp hi => exact .inr (.insert _ hi)
  | commitUpdate ht hp hu => exact .inr (.update _ _ _ hu)
  | reapTuple ht hp hd => exact .inr (.delete _ _ hd)
  | bg hb => exact .inr (.bg hb)
  | _ => exact .inl rfl

theorem fired_step {s s' : DSt} (h : Step c s s') {t : Nat} (ht : t ∈ s.ts.fired) : t ∈ s'.ts.fired := by
  rcases ts_step h with e | e
  · rw [e]; exact ht
  · cases e with
    | insert o h => obtain ⟨b, hm, _⟩ := insert_memOp h; rw [hm.fired]; exact ht
    | update cur new st h => obtain ⟨b, hm, _⟩ := update_memOp h; rw [hm.fired]; exact ht
    | delete id t h => obtain ⟨b, hm, _⟩ := delete_memOp h; rw [hm.fired]; exact ht
    | bg h =>
      generalize s'.ts = ts' at h ⊢
      cases h with
      | snapshot hb => exact ht
      | write i h =>
        obtain ⟨ws, sig, b, ts, _, _, e⟩ := writePage_eq h
        rw [e]; exact ht
      | signal h =>
        obtain ⟨sig, _, e⟩ := signal_eq h
        rw [e]; exact mem_append_left _ ht

/-- what a step does to the background loop's current batch -/
theorem batch_step {s s' : DSt} (hr : Reach c s) (h : Step c s s') :
    (s'.ts.batch = s.ts.batch ∧ ∀ t ∈ s.ts.waiting, t ∈ s'.ts.waiting) ∨
    (s.ts.batch = none ∧ ∃ ws, s'.ts.batch = some (ws, s.ts.waiting)) ∨
    (∃ ws ws' sig, s.ts.batch = some (ws, sig) ∧ s'.ts.batch = some (ws', sig) ∧ ws'.length < ws.length ∧ s'.ts.waiting = s.ts.waiting) ∨
    (∃ sig, s.ts.batch = some ([], sig) ∧ s'.ts.batch = none ∧ s'.ts.fired = s.ts.fired ++ sig ∧ s'.ts.waiting = s.ts.waiting) := by
  have hT := (reach_t hr).1
  rcases ts_step h with e | e
  · rw [e]; exact .inl ⟨rfl, fun _ h => h⟩
  · cases e with
    | insert o h =>
      obtain ⟨b, hm, _⟩ := insert_memOp h
      exact .inl ⟨hm.batch, fun t ht => by rw [hm.waiting]; exact mem_append_left _ ht⟩
    | update cur new st h =>
      obtain ⟨b, hm, _⟩ := update_memOp h
      exact .inl ⟨hm.batch, fun t ht => by rw [hm.waiting]; exact mem_append_left _ ht⟩
    | delete id t h =>
      obtain ⟨b, hm, _⟩ := delete_memOp h
      exact .inl ⟨hm.batch, fun t ht => by rw [hm.waiting]; exact mem_append_left _ ht⟩
    | bg h =>
      generalize s'.ts = ts' at h ⊢
      cases h with
      | snapshot hb =>
        by_cases hw : ((List.range c.n).filter s.ts.dirty).map (fun b => (b, s.ts.bundles b)) = []
        · have hno : s.ts.waiting = [] := by
            by_contra hne
            obtain ⟨b, hd⟩ := hT.wait hne
            simp only [map_eq_nil_iff, filter_eq_nil_iff, mem_range] at hw
            exact hw b (hT.dirtyLt b hd) hd
          refine .inl ⟨?_, ?_⟩
          · simp [TS.snapshot, hw, hb]
          · rw [hno]; simp
        · refine .inr (.inl ⟨hb, ((List.range c.n).filter s.ts.dirty).map (fun b => (b, s.ts.bundles b)), ?_⟩)
          simp only [TS.snapshot, List.isEmpty_iff, hw, if_false]
      | write i h =>
        obtain ⟨ws, sig, b, ts, h1, h2, e⟩ := writePage_eq h
        refine .inr (.inr (.inl ⟨ws, _, sig, h1, by rw [e], ?_, by rw [e]⟩))
        have := (List.getElem?_eq_some_iff.1 h2).1
        rw [length_eraseIdx_of_lt this]
        omega
      | signal h =>
        obtain ⟨sig, h1, e⟩ := signal_eq h
        exact .inr (.inr (.inr ⟨sig, h1, by rw [e], by rw [e], by rw [e]⟩))

/-- a batch ends and its signals are fired; what waits keeps waiting -/
theorem batch_ends (h : FairRun c σ) (t : Nat) (k : Nat) : ∀ {n : Nat} {ws sig}, (σ n).ts.batch = some (ws, sig) → ws.length = k →
    ∃ m, n ≤ m ∧ (σ m).ts.batch = none ∧ (∀ x ∈ sig, x ∈ (σ m).ts.fired) ∧ (t ∈ (σ n).ts.waiting → t ∈ (σ m).ts.waiting) := by
  induction k using Nat.strongRecOn with
  | ind k ih =>
    intro n ws sig hb hk
    have hex : ∃ m, n ≤ m ∧ ¬ (σ m).ts.batch = some (ws, sig) := by
      by_contra hno
      have hall : ∀ m, n ≤ m → (σ m).ts.batch = some (ws, sig) := fun m hm => by_contra fun hx => hno ⟨m, hm, hx⟩
      obtain ⟨m, hm, hx⟩ := h.loop n (fun m hm => .inl (by rw [hall m hm]; simp))
      exact hx (by rw [hall m hm, hall (m + 1) (by omega)])
    obtain ⟨m, hm, h1, h2, h3⟩ := h.toRun.first (P := fun s => s.ts.batch = some (ws, sig)) hb hex
    have hw : t ∈ (σ n).ts.waiting → t ∈ (σ m).ts.waiting := by
      intro ht
      have : ∀ j, n ≤ j → j ≤ m → t ∈ (σ j).ts.waiting := by
        intro j hj hjm
        induction j with
        | zero =>
          have : n = 0 := by omega
          subst this; exact ht
        | succ j ihj =>
          rcases Nat.lt_or_ge j n with hl | hl
          · have : n = j + 1 := by omega
            subst this; exact ht
          · have hj' := ihj hl (by omega)
            rcases h.next j with e | e
            · rw [e]; exact hj'
            · rcases batch_step (h.toRun.reach j) e with ⟨_, e2⟩ | ⟨e1, _⟩ | ⟨_, _, _, _, _, _, e2⟩ | ⟨_, _, _, _, e2⟩
              · exact e2 t hj'
              · rw [h1 j hl (by omega)] at e1; cases e1
              · rw [e2]; exact hj'
              · rw [e2]; exact hj'
      exact this m hm (Nat.le_refl _)
    have hbm := h1 m hm (Nat.le_refl _)
    rcases batch_step (h.toRun.reach m) h3 with ⟨e1, _⟩ | ⟨e1, _⟩ | ⟨ws1, ws', sig', e1, e2, e3, e4⟩ | ⟨sig', e1, e2, e3, e4⟩
    · rw [hbm] at e1; exact absurd e1 h2
    · rw [hbm] at e1; cases e1
    · rw [hbm] at e1
      cases e1
      obtain ⟨m', g1, g2, g3, g4⟩ := ih _ (by omega) e2 rfl
      exact ⟨m', by omega, g2, g3, fun ht => g4 (by rw [e4]; exact hw ht)⟩
    · rw [hbm] at e1
      cases e1
      exact ⟨m + 1, by omega, e2, fun x hx => by rw [e3]; exact mem_append_right _ hx, fun ht => by rw [e4]; exact hw ht⟩

theorem sig_fires (h : FairRun c σ) {n t : Nat} (ht : t ∈ (σ n).ts.sig) : ∃ m, n ≤ m ∧ t ∈ (σ m).ts.fired := by
  unfold TS.sig at ht
  split at ht
  · rename_i ws sig hb
    obtain ⟨m, h1, _, h3, _⟩ := batch_ends h t _ hb rfl
    exact ⟨m, h1, h3 t ht⟩
  · cases ht

theorem wait_fires (h : FairRun c σ) {n t : Nat} (hb : (σ n).ts.batch = none) (ht : t ∈ (σ n).ts.waiting) : ∃ m, n ≤ m ∧ t ∈ (σ m).ts.fired := by
  have hstep : ∀ {j}, t ∈ (σ j).ts.waiting ∧ (σ j).ts.batch = none → Step c (σ j) (σ (j + 1)) →
      (t ∈ (σ (j + 1)).ts.waiting ∧ (σ (j + 1)).ts.batch = none) ∨ t ∈ (σ (j + 1)).ts.sig := by
    rintro j ⟨h1, h2⟩ e
    rcases batch_step (h.toRun.reach j) e with ⟨e1, e2⟩ | ⟨_, ws, e2⟩ | ⟨_, _, _, e1, _⟩ | ⟨_, e1, _⟩
    · exact .inl ⟨e2 t h1, by rw [e1, h2]⟩
    · right
      simp only [TS.sig, e2]
      exact h1
    · rw [h2] at e1; cases e1
    · rw [h2] at e1; cases e1
  have hex : ∃ m, n ≤ m ∧ ¬ (t ∈ (σ m).ts.waiting ∧ (σ m).ts.batch = none) := by
    by_contra hno
    have hall : ∀ m, n ≤ m → (t ∈ (σ m).ts.waiting ∧ (σ m).ts.batch = none) := fun m hm => by_contra fun hx => hno ⟨m, hm, hx⟩
    obtain ⟨m, hm, hx⟩ := h.loop n (fun m hm => by
      have hT := (reach_t (h.toRun.reach m)).1
      obtain ⟨b, hd⟩ := hT.wait (List.ne_nil_of_mem (hall m hm).1)
      exact .inr ⟨b, hT.dirtyLt b hd, hd⟩)
    exact hx (by rw [(hall m hm).2, (hall (m + 1) (by omega)).2])
  obtain ⟨m, hm, h1, h2, h3⟩ := h.toRun.first (P := fun s => t ∈ s.ts.waiting ∧ s.ts.batch = none) ⟨ht, hb⟩ hex
  rcases hstep (h1 m hm (Nat.le_refl _)) h3 with e | e
  · exact absurd e h2
  · obtain ⟨m', g1, g2⟩ := sig_fires h e
    exact ⟨m', by omega, g2⟩

/-- every ticket handed out fires -/
theorem ticket_fires (h : FairRun c σ) {n t : Nat} (ht : t < (σ n).ts.next) : ∃ m, n ≤ m ∧ ∀ k, m ≤ k → t ∈ (σ k).ts.fired := by
  have key : ∃ m, n ≤ m ∧ t ∈ (σ m).ts.fired := by
    rcases (reach_t (h.toRun.reach n)).2.some t ht with h1 | h1 | h1
    · cases hb : (σ n).ts.batch with
      | none => exact wait_fires h hb h1
      | some x =>
        obtain ⟨ws, sig⟩ := x
        obtain ⟨m, g1, g2, _, g4⟩ := batch_ends h t _ hb rfl
        obtain ⟨m', g5, g6⟩ := wait_fires h g2 (g4 h1)
        exact ⟨m', by omega, g6⟩
    · exact sig_fires h h1
    · exact ⟨n, Nat.le_refl _, h1⟩
  obtain ⟨m, h1, h2⟩ := key
  exact ⟨m, h1, h.toRun.keep (P := fun s => t ∈ s.ts.fired) (fun s s' _ hp hs => fired_step hs hp) h2⟩

/-! ### What calls wait for -/

def PC.ticket : PC → List Nat
  | .createTuple _ t => [t]
  | .commitTuple _ _ t => [t]
  | .reapTuple _ _ t _ => [t]
  | _ => []

def PC.closing : PC → List Nat
  | .commitSealed o _ => [o.id]
  | _ => []

structure PInv (s : DSt) : Prop where
  tk : ∀ th ∈ s.threads, ∀ t ∈ th.pc.ticket, t < s.ts.next
  sld : ∀ th ∈ s.threads, ∀ id ∈ th.pc.closing, id ∈ s.sealed
  nm : ∃ B, ∀ id, B ≤ id → s.names id = none

theorem next_step {s s' : DSt} (h : Step c s s') : s.ts.next ≤ s'.ts.next := by
  rcases ts_step h with e | e
  · rw [e]
  · cases e with
    | insert o h => obtain ⟨b, hm, _⟩ := insert_memOp h; rw [hm.next]; omega
    | update cur new st h => obtain ⟨b, hm, _⟩ := update_memOp h; rw [hm.next]; omega
    | delete id t h => obtain ⟨b, hm, _⟩ := delete_memOp h; rw [hm.next]; omega
    | bg h =>
      generalize s'.ts = ts' at h ⊢
      cases h with
      | snapshot hb => exact Nat.le_refl _
      | write i h => obtain ⟨ws, sig, b, ts, _, _, e⟩ := writePage_eq h; rw [e]
      | signal h => obtain ⟨sig, _, e⟩ := signal_eq h; rw [e]

theorem PInv.same {s s' : DSt} (h : PInv s) (hn : s.ts.next ≤ s'.ts.next) (hs : ∀ id ∈ s.sealed, id ∈ s'.sealed) (hnm : ∃ B, ∀ id, B ≤ id → s'.names id = none)
    (ht : ∀ th ∈ s'.threads, th ∈ s.threads ∨ ((∀ t ∈ th.pc.ticket, t < s'.ts.next) ∧ ∀ id ∈ th.pc.closing, id ∈ s'.sealed)) : PInv s' := by
  refine ⟨?_, ?_, hnm⟩
  · intro th hth t htk
    rcases ht th hth with h1 | h1
    · exact Nat.lt_of_lt_of_le (h.tk th h1 t htk) hn
    · exact h1.1 t htk
  · intro th hth id hid
    rcases ht th hth with h1 | h1
    · exact hs _ (h.sld th h1 id hid)
    · exact h1.2 id hid

theorem swapped {s : DSt} {l : List Thread} {pre post : List Thread} {th : Thread} {pc : PC} {P : PC → Prop} (ht : s.threads = pre ++ th :: post)
    (hl : l = pre ++ withPc th pc :: post) (hp : P pc) : ∀ x ∈ l, x ∈ s.threads ∨ P x.pc := by
  subst hl
  intro x hx
  rw [ht]
  rcases mem_append.1 hx with h | h
  · exact .inl (mem_append_left _ h)
  · rcases mem_cons.1 h with rfl | h
    · exact .inr hp
    · exact .inl (mem_append_right _ (mem_cons_of_mem _ h))

theorem dropped {s : DSt} {l : List Thread} {pre post : List Thread} {th : Thread} {P : PC → Prop} (ht : s.threads = pre ++ th :: post)
    (hl : l = pre ++ post) : ∀ x ∈ l, x ∈ s.threads ∨ P x.pc := by
  subst hl
  intro x hx
  rw [ht]
  rcases mem_append.1 hx with h | h
  · exact .inl (mem_append_left _ h)
  · exact .inl (mem_append_right _ (mem_cons_of_mem _ h))

theorem added {s : DSt} {l : List Thread} {th : Thread} {P : PC → Prop} (hl : l = s.threads ++ [th]) (hp : P th.pc) :
    ∀ x ∈ l, x ∈ s.threads ∨ P x.pc := by
  subst hl
  intro x hx
  rcases mem_append.1 hx with h | h
  · exact .inl h
  · rw [mem_singleton.1 h]; exact .inr hp

theorem fin_upd {names : Nat → Option (Nat × Meta)} (h : ∃ B, ∀ id, B ≤ id → names id = none) (i : Nat) (v : Option (Nat × Meta)) :
    ∃ B, ∀ id, B ≤ id → upd names i v id = none := by
  obtain ⟨B, hB⟩ := h
  refine ⟨max B (i + 1), fun id hid => ?_⟩
  rw [upd_ne (by omega)]
  exact hB id (by omega)

theorem pInv_step {s s' : DSt} (hr : Reach c s) (h : PInv s) (hs : Step c s s') : PInv s' := by
  have hnx := next_step hs
  cases hs with
  | createData key size created h1 h2 h3 h4 =>
    exact h.same hnx (fun _ h => h) h.nm (added (P := fun pc => (∀ t ∈ pc.ticket, t < _) ∧ ∀ id ∈ pc.closing, id ∈ _) rfl (by simp [PC.ticket, PC.closing]))
  | createDataPanic size h1 h2 =>
    exact h.same hnx (fun _ h => h) h.nm (added (P := fun pc => (∀ t ∈ pc.ticket, t < _) ∧ ∀ id ∈ pc.closing, id ∈ _) rfl (by simp [PC.ticket, PC.closing]))
  | createMeta junk ht hp h1 h2 h3 h4 =>
    exact h.same hnx (fun _ h => h) (fin_upd h.nm _ _)
      (swapped (P := fun pc => (∀ t ∈ pc.ticket, t < _) ∧ ∀ id ∈ pc.closing, id ∈ _) ht rfl (by simp [PC.ticket, PC.closing]))
  | createMetaPanic ht hp h1 =>
    exact h.same hnx (fun _ h => h) h.nm (swapped (P := fun pc => (∀ t ∈ pc.ticket, t < _) ∧ ∀ id ∈ pc.closing, id ∈ _) ht rfl (by simp [PC.ticket, PC.closing]))
  | metaWritten ht hp =>
    exact h.same hnx (fun _ h => h) h.nm (swapped (P := fun pc => (∀ t ∈ pc.ticket, t < _) ∧ ∀ id ∈ pc.closing, id ∈ _) ht rfl (by simp [PC.ticket, PC.closing]))
  | createInsert ht hp h1 =>
    obtain ⟨b, hm, _⟩ := insert_memOp h1
    refine h.same hnx (fun _ h => h) h.nm (swapped (P := fun pc => (∀ t ∈ pc.ticket, t < _) ∧ ∀ id ∈ pc.closing, id ∈ _) ht rfl ?_)
    simp [PC.ticket, PC.closing, hm.next]
  | createInsertPanic ht hp h1 =>
    exact h.same hnx (fun _ h => h) h.nm (swapped (P := fun pc => (∀ t ∈ pc.ticket, t < _) ∧ ∀ id ∈ pc.closing, id ∈ _) ht rfl (by simp [PC.ticket, PC.closing]))
  | created ht hp h1 => exact h.same hnx (fun _ h => h) h.nm (dropped (P := fun pc => (∀ t ∈ pc.ticket, t < _) ∧ ∀ id ∈ pc.closing, id ∈ _) ht rfl)
  | commitClaim id ifne h1 =>
    exact h.same hnx (fun _ h => h) h.nm (added (P := fun pc => (∀ t ∈ pc.ticket, t < _) ∧ ∀ id ∈ pc.closing, id ∈ _) rfl (by simp [PC.ticket, PC.closing]))
  | commitSeal ht hp =>
    exact h.same hnx (fun _ h => mem_cons_of_mem _ h) h.nm
      (swapped (P := fun pc => (∀ t ∈ pc.ticket, t < _) ∧ ∀ id ∈ pc.closing, id ∈ _) ht rfl (by simp [PC.ticket, PC.closing]))
  | commitKept ht hp h1 h2 =>
    exact h.same hnx (fun _ h => h) h.nm (swapped (P := fun pc => (∀ t ∈ pc.ticket, t < _) ∧ ∀ id ∈ pc.closing, id ∈ _) ht rfl (by simp [PC.ticket, PC.closing]))
  | commitPublish ht hp h1 h2 h3 =>
    exact h.same hnx (fun _ h => h) (fin_upd h.nm _ _)
      (swapped (P := fun pc => (∀ t ∈ pc.ticket, t < _) ∧ ∀ id ∈ pc.closing, id ∈ _) ht rfl (by simp [PC.ticket, PC.closing]))
  | commitUpdate ht hp h1 =>
    obtain ⟨b, hm, _⟩ := update_memOp h1
    refine h.same hnx (fun _ h => h) h.nm (swapped (P := fun pc => (∀ t ∈ pc.ticket, t < _) ∧ ∀ id ∈ pc.closing, id ∈ _) ht rfl ?_)
    simp [PC.ticket, PC.closing, hm.next]
  | commitUpdatePanic ht hp h1 =>
    exact h.same hnx (fun _ h => h) h.nm (swapped (P := fun pc => (∀ t ∈ pc.ticket, t < _) ∧ ∀ id ∈ pc.closing, id ∈ _) ht rfl (by simp [PC.ticket, PC.closing]))
  | commitDone ht hp h1 => exact h.same hnx (fun _ h => h) h.nm (dropped (P := fun pc => (∀ t ∈ pc.ticket, t < _) ∧ ∀ id ∈ pc.closing, id ∈ _) ht rfl)
  | commitReap ht hp h1 =>
    exact h.same hnx (fun _ h => h) h.nm (swapped (P := fun pc => (∀ t ∈ pc.ticket, t < _) ∧ ∀ id ∈ pc.closing, id ∈ _) ht rfl (by simp [PC.ticket, PC.closing]))
  | delete k want h1 h2 =>
    exact h.same hnx (fun _ h => h) h.nm (added (P := fun pc => (∀ t ∈ pc.ticket, t < _) ∧ ∀ id ∈ pc.closing, id ∈ _) rfl (by simp [PC.ticket, PC.closing]))
  | reapTuple ht hp h1 =>
    obtain ⟨b, hm, _⟩ := delete_memOp h1
    refine h.same hnx (fun _ h => h) h.nm (swapped (P := fun pc => (∀ t ∈ pc.ticket, t < _) ∧ ∀ id ∈ pc.closing, id ∈ _) ht rfl ?_)
    simp [PC.ticket, PC.closing, hm.next]
  | reapPanic ht hp h1 =>
    exact h.same hnx (fun _ h => h) h.nm (swapped (P := fun pc => (∀ t ∈ pc.ticket, t < _) ∧ ∀ id ∈ pc.closing, id ∈ _) ht rfl (by simp [PC.ticket, PC.closing]))
  | reaped ht hp h1 h2 => exact h.same hnx (fun _ h => h) h.nm (dropped (P := fun pc => (∀ t ∈ pc.ticket, t < _) ∧ ∀ id ∈ pc.closing, id ∈ _) ht rfl)
  | _ => exact h.same hnx (fun _ h => h) h.nm (fun _ h => .inl h)

theorem reach_p {s : DSt} (h : Reach c s) : PInv s := by
  induction h with
  | fresh h =>
    unfold fresh at h
    split at h
    · simp at h
    · cases h
      exact ⟨by simp, by simp, ⟨0, fun _ _ => rfl⟩⟩
  | step hr hs ih => exact pInv_step hr ih hs
  | restart order hr hp hl ih =>
    obtain ⟨a0, l, _, h1, hok, rfl⟩ := load_some hl
    exact ⟨by simp, by simp, ih.nm⟩

/-! ### Writers leave -/

theorem sealed_step {s s' : DSt} (h : Step c s s') {id : Nat} (hs : id ∈ s.sealed) : id ∈ s'.sealed ∧
    (s'.writers.filter (fun w => w.id = id)).length ≤ (s.writers.filter (fun w => w.id = id)).length := by
  cases h with
  | writeStart data h1 h2 h3 h4 =>
    refine ⟨hs, ?_⟩
    rw [filter_append, filter_cons_of_neg]
    · simp
    · simp only [decide_eq_true_eq]
      rintro rfl
      exact h2 hs
  | writeDone hw =>
    refine ⟨hs, ?_⟩
    rw [hw]
    exact ((Sublist.refl _).append (sublist_cons_self _ _)).filter _ |>.length_le
  | writeCancel hw =>
    refine ⟨hs, ?_⟩
    rw [hw]
    exact ((Sublist.refl _).append (sublist_cons_self _ _)).filter _ |>.length_le
  | commitSeal ht hp => exact ⟨mem_cons_of_mem _ hs, Nat.le_refl _⟩
  | _ => exact ⟨hs, Nat.le_refl _⟩

/-- writers of a sealed object finish, and no others come -/
theorem writers_leave (h : FairRun c σ) {id : Nat} (k : Nat) : ∀ {n : Nat}, id ∈ (σ n).sealed →
    ((σ n).writers.filter (fun w => w.id = id)).length = k → ∃ m, n ≤ m ∧ ∀ j, m ≤ j → ∀ w ∈ (σ j).writers, w.id ≠ id := by
  induction k using Nat.strongRecOn with
  | ind k ih =>
    intro n hs hk
    have hmono : ∀ m, n ≤ m → id ∈ (σ m).sealed ∧ ((σ m).writers.filter (fun w => w.id = id)).length ≤ k := by
      refine h.toRun.keep (P := fun s => id ∈ s.sealed ∧ (s.writers.filter (fun w => w.id = id)).length ≤ k) ?_ ⟨hs, by omega⟩
      rintro s s' _ ⟨h1, h2⟩ hst
      have := sealed_step hst h1
      exact ⟨this.1, by omega⟩
    by_cases hall : ∀ m, n ≤ m → ∃ w ∈ (σ m).writers, w.id = id
    · obtain ⟨m, hm, hlt⟩ := h.device id n hall
      have h1 := hmono m hm
      have h2 := hmono (m + 1) (by omega)
      obtain ⟨m', g1, g2⟩ := ih _ (by omega) h2.1 rfl
      exact ⟨m', by omega, g2⟩
    · simp only [not_forall, not_exists] at hall
      obtain ⟨m, hm, hno⟩ := hall
      refine ⟨m, hm, ?_⟩
      have := h.toRun.keep (n := m) (P := fun s => id ∈ s.sealed ∧ (s.writers.filter (fun w => w.id = id)).length ≤ 0) (fun s s' _ ⟨h1, h2⟩ hst => by
        have := sealed_step hst h1
        exact ⟨this.1, by omega⟩) ⟨(hmono m hm).1, by
          rw [Nat.le_zero, length_eq_zero_iff, filter_eq_nil_iff]
          intro w hw
          simpa using fun e => hno w ⟨hw, e⟩⟩
      intro j hj w hw e
      have := (this j hj).2
      rw [Nat.le_zero, length_eq_zero_iff, filter_eq_nil_iff] at this
      exact this w hw (by simpa using e)

/-! ### A call that can go on -/

/-- call `i` can make a step -/
def CanGo (c : SCfg) (s : DSt) (i : Nat) : Prop := ∃ s', Step c s s' ∧ at? s' i ≠ at? s i

theorem canGo {s s' : DSt} (hr : Reach c s) (h : Step c s s') {pre post : List Thread} {th : Thread} (ht : s.threads = pre ++ th :: post)
    (ht' : (∃ pc, s'.threads = pre ++ withPc th pc :: post ∧ pc.rank < th.pc.rank) ∨ s'.threads = pre ++ post) : CanGo c s th.call := by
  have hn := (reach_lin hr).calls
  have hn' := (reach_lin (hr.step h)).calls
  refine ⟨s', h, ?_⟩
  rw [(at_iff hn).2 ⟨th, by rw [ht]; simp, rfl, rfl⟩]
  rcases ht' with ⟨pc, e, hl⟩ | e
  · have hx : at? s' th.call = some pc := (at_iff hn').2 ⟨withPc th pc, by rw [e]; simp, rfl, rfl⟩
    rw [hx]
    intro e
    rw [Option.some.injEq] at e
    rw [e] at hl
    omega
  · have : at? s' th.call = none := by
      rw [at_none, e]
      rw [ht, map_append, map_cons] at hn
      have := nodup_middle.1 hn
      intro y hy e
      refine (nodup_cons.1 this).1 ?_
      rw [← e, ← map_append]
      exact mem_map_of_mem hy
    rw [this]
    simp

theorem mem_split {s : DSt} {th : Thread} (h : th ∈ s.threads) : ∃ pre post, s.threads = pre ++ th :: post := append_of_mem h

theorem release_ok (hc : c.Ok) {s : DSt} (hr : Reach c s) (hf : PageFaultFree s) {th : Thread} (hth : th ∈ s.threads) {o : Obj} {t : Tuple} {tk : Nat}
    {why : Why} (hp : th.pc = .reapTuple o t tk why) : ∃ a', s.alloc.releaseAll (o.m.dataPages c.pages ++ [(t.metaOff, t.metaPow2)]) = some a' := by
  have hS := reach_safe hc hr hf.1 hf.2.1 hf.2.2
  obtain ⟨lk, hi⟩ := hS.A.alloc
  have h1 := hS.R.thr th hth
  rw [hp] at h1
  obtain ⟨_, b, _, hrec, _⟩ := h1
  have hperm := filter_perm hS.R.nd hrec
  have hi2 := hi.perm ((hperm.flatMap_right (regs c)).append_right _)
  simp only [flatMap_cons] at hi2
  have hi3 : Buddy.Inv c.heap s.alloc ((o.m.dataPages c.pages ++ [(t.metaOff, t.metaPow2)]) ++
      ((s.recs.filter (fun x => x.mo ≠ t.metaOff)).flatMap (regs c) ++ (s.threads.flatMap (fun th => th.pc.pages c) ++ lk))) := by
    refine hi2.perm ?_
    simp only [regs, objPages, append_assoc]
    refine Perm.trans ?_ perm_middle.symm
    simp
  obtain ⟨a2, e2, _⟩ := releaseAll_inv hi3
  exact ⟨a2, e2⟩

/-- a call can go on unless it has panicked, waits for its ticket, or waits for writers -/
theorem can_go (hc : c.Ok) {s : DSt} (hr : Reach c s) (hf : PageFaultFree s) {th : Thread} (hth : th ∈ s.threads) (hd : th.pc ≠ .dead)
    (htk : ∀ t ∈ th.pc.ticket, t ∈ s.ts.fired) (hw : ∀ id ∈ th.pc.closing, ∀ w ∈ s.writers, w.id ≠ id) : CanGo c s th.call := by
  obtain ⟨pre, post, ht⟩ := mem_split hth
  obtain ⟨B, hB⟩ := (reach_p hr).nm
  cases hp : th.pc with
  | dead => exact absurd hp hd
  | createData m =>
    rcases Nat.lt_or_ge (2 ^ c.pages.lpage) m.enc.length with hl | hl
    · exact canGo hr (.createMetaPanic ht hp (.inl ⟨hl, rfl⟩)) ht (.inl ⟨_, rfl, by rw [hp]; simp [PC.rank]⟩)
    · obtain ⟨lk, hi⟩ := (reach_safe hc hr hf.1 hf.2.1 hf.2.2).A.alloc
      rcases hi.alloc m.enc.length (request_le hc.sl hl) with ⟨n, b', e, _⟩ | ⟨b', e, _⟩
      · have hle : m.enc.length ≤ MetaPage.directPageSize c.pages m.enc.length := by
          unfold MetaPage.directPageSize
          exact Nat.le_trans (le_ceilPow2 _ _) (Nat.le_max_right _ _)
        exact canGo hr (.createMeta (id := B) (List.replicate (MetaPage.directPageSize c.pages m.enc.length - m.enc.length) 0) ht hp hl e
          (hB B (Nat.le_refl _)) (by rw [length_replicate]; omega)) ht (.inl ⟨_, rfl, by rw [hp]; simp [PC.rank]⟩)
      · exact canGo hr (.createMetaPanic ht hp (.inr ⟨hl, e⟩)) ht (.inl ⟨_, rfl, by rw [hp]; simp [PC.rank]⟩)
  | createMeta o t page => exact canGo hr (.metaWritten ht hp) ht (.inl ⟨_, rfl, by rw [hp]; simp [PC.rank]⟩)
  | createInsert o t =>
    cases hi : s.ts.insertObject c.max c.n t with
    | none => exact canGo hr (.createInsertPanic ht hp hi) ht (.inl ⟨_, rfl, by rw [hp]; simp [PC.rank]⟩)
    | some ts' => exact canGo hr (.createInsert ht hp hi) ht (.inl ⟨_, rfl, by rw [hp]; simp [PC.rank]⟩)
  | createTuple o tk => exact canGo hr (.created ht hp (htk tk (by rw [hp]; simp [PC.ticket]))) ht (.inr rfl)
  | commitClaimed o ifne => exact canGo hr (.commitSeal ht hp) ht (.inl ⟨_, rfl, by rw [hp]; simp [PC.rank]⟩)
  | commitSealed o ifne =>
    have hw' : ∀ w ∈ s.writers, w.id ≠ o.id := hw o.id (by rw [hp]; simp [PC.closing])
    by_cases hk : ifne = true ∧ s.committed o.m.key ≠ none
    · obtain ⟨rfl, hk⟩ := hk
      exact canGo hr (.commitKept ht hp hw' hk) ht (.inl ⟨_, rfl, by rw [hp]; simp [PC.rank]⟩)
    · exact canGo hr (.commitPublish (newId := B) ht hp hw' (fun h1 => by_contra fun h2 => hk ⟨h1, h2⟩) (hB B (Nat.le_refl _))) ht
        (.inl ⟨_, rfl, by rw [hp]; simp [PC.rank]⟩)
  | commitPublished old o ex =>
    cases hi : s.ts.updateObject c.max old o.id .committed with
    | none => exact canGo hr (.commitUpdatePanic ht hp hi) ht (.inl ⟨_, rfl, by rw [hp]; simp [PC.rank]⟩)
    | some ts' => exact canGo hr (.commitUpdate ht hp hi) ht (.inl ⟨_, rfl, by rw [hp]; simp [PC.rank]⟩)
  | commitTuple o ex tk =>
    have hfi := htk tk (by rw [hp]; simp [PC.ticket])
    cases ex with
    | none => exact canGo hr (.commitDone ht hp hfi) ht (.inr rfl)
    | some e => exact canGo hr (.commitReap ht hp hfi) ht (.inl ⟨_, rfl, by rw [hp]; simp [PC.rank]⟩)
  | reap o why =>
    cases hi : s.ts.deleteObject o.id with
    | none => exact canGo hr (.reapPanic ht hp hi) ht (.inl ⟨_, rfl, by rw [hp]; simp [PC.rank]⟩)
    | some x => exact canGo hr (.reapTuple ht hp hi) ht (.inl ⟨_, rfl, by rw [hp]; simp [PC.rank]⟩)
  | reapTuple o t tk why =>
    obtain ⟨a', ha⟩ := release_ok hc hr hf hth hp
    exact canGo hr (.reaped ht hp (htk tk (by rw [hp]; simp [PC.ticket])) ha) ht (.inr rfl)

/-- a call does not stay where it is -/
theorem moves_on (hc : c.Ok) (h : FairRun c σ) (hf : ∀ m, PageFaultFree (σ m)) {n i : Nat} {pc : PC} (ha : at? (σ n) i = some pc)
    (hd : pc ≠ .dead) : ∃ m, n ≤ m ∧ at? (σ m) i ≠ some pc := by
  by_contra hno
  have hall : ∀ m, n ≤ m → at? (σ m) i = some pc := fun m hm => by_contra fun hx => hno ⟨m, hm, hx⟩
  have hth : ∀ m, n ≤ m → ∃ th ∈ (σ m).threads, th.call = i ∧ th.pc = pc := fun m hm => (at_iff (reach_lin (h.toRun.reach m)).calls).1 (hall m hm)
  have hA : ∃ a, n ≤ a ∧ ∀ m, a ≤ m → ∀ t ∈ pc.ticket, t ∈ (σ m).ts.fired := by
    obtain ⟨th, h1, _, h2⟩ := hth n (Nat.le_refl _)
    have hlt := (reach_p (h.toRun.reach n)).tk th h1
    rw [h2] at hlt
    have hone : pc.ticket = [] ∨ ∃ t, pc.ticket = [t] := by cases pc <;> simp [PC.ticket]
    rcases hone with e | ⟨t, e⟩
    · exact ⟨n, Nat.le_refl _, by rw [e]; simp⟩
    · obtain ⟨a, g1, g2⟩ := ticket_fires h (hlt t (by rw [e]; simp))
      exact ⟨a, g1, fun m hm x hx => by rw [e, mem_singleton] at hx; rw [hx]; exact g2 m hm⟩
  have hB : ∃ b, n ≤ b ∧ ∀ m, b ≤ m → ∀ id ∈ pc.closing, ∀ w ∈ (σ m).writers, w.id ≠ id := by
    obtain ⟨th, h1, _, h2⟩ := hth n (Nat.le_refl _)
    have hse := (reach_p (h.toRun.reach n)).sld th h1
    rw [h2] at hse
    have hone : pc.closing = [] ∨ ∃ t, pc.closing = [t] := by cases pc <;> simp [PC.closing]
    rcases hone with e | ⟨t, e⟩
    · exact ⟨n, Nat.le_refl _, by rw [e]; simp⟩
    · obtain ⟨a, g1, g2⟩ := writers_leave h _ (hse t (by rw [e]; simp)) rfl
      exact ⟨a, g1, fun m hm x hx => by rw [e, mem_singleton] at hx; rw [hx]; exact g2 m hm⟩
  obtain ⟨a, ha1, ha2⟩ := hA
  obtain ⟨b, hb1, hb2⟩ := hB
  obtain ⟨m, hm, hx⟩ := h.calls i (max a b) (fun m hm => by
    obtain ⟨th, h1, h2, h3⟩ := hth m (by omega)
    have := can_go hc (h.toRun.reach m) (hf m) h1 (by rw [h3]; exact hd) (by rw [h3]; exact ha2 m (by omega)) (by rw [h3]; exact hb2 m (by omega))
    rw [h2] at this
    exact ⟨by rw [hall m (by omega)]; simp, this⟩)
  exact hx (by rw [hall m (by omega), hall (m + 1) (by omega)])

/-- every call ends: it is answered, or it panics -/
theorem call_ends (hc : c.Ok) (h : FairRun c σ) (hf : ∀ m, PageFaultFree (σ m)) {i : Nat} (k : Nat) : ∀ {n : Nat} {pc : PC},
    at? (σ n) i = some pc → pc.rank = k → ∃ m, n ≤ m ∧ (Answers (σ m) i ∨ at? (σ m) i = some .dead) := by
  induction k using Nat.strongRecOn with
  | ind k ih =>
    intro n pc ha hk
    by_cases hd : pc = .dead
    · subst hd; exact ⟨n, Nat.le_refl _, .inr ha⟩
    · obtain ⟨m, hm, h1, h2, h3⟩ := h.toRun.first (P := fun s => at? s i = some pc) ha (moves_on hc h hf ha hd)
      rcases step_at (h.toRun.reach m) h3 (h1 m hm (Nat.le_refl _)) with e | ⟨pc', e, hl⟩ | ⟨_, e, _⟩
      · exact absurd e h2
      · obtain ⟨m', g1, g2⟩ := ih _ (by omega) e rfl
        exact ⟨m', by omega, g2⟩
      · exact ⟨m + 1, by omega, .inl e⟩

/-! ### Panics -/

theorem insert_none {max n : Nat} {ts : TS} (hT : TInv max n ts) {t : Tuple} (hid : ∀ b, ∀ u ∈ ts.bundles b, u.id ≠ t.id)
    (h : ts.insertObject max n t = none) : ∀ b, b < n → ts.free b = false ∧ ts.freeDirty b = false := by
  have hno : (bmMin n ts.freeDirty).or (bmMin n ts.free) = none := by
    cases hch : (bmMin n ts.freeDirty).or (bmMin n ts.free) with
    | none => rfl
    | some b =>
      exfalso
      obtain ⟨h1, h2⟩ := choose_lt hT hch
      have htb : ts.toBundle t.id = none := by
        cases hb : ts.toBundle t.id with
        | none => rfl
        | some b' =>
          obtain ⟨_, u, hu, e⟩ := (hT.idx _ _).1 hb
          exact absurd e (hid _ u hu)
      have hany : (ts.bundles b).any (fun u => u.id == t.id) = false := by
        rw [any_eq_false]
        intro u hu
        simpa using hid b u hu
      simp only [TS.insertObject, hch, Option.bind_eq_bind, Option.bind_some, htb, hany, Option.isSome_none, length_append, length_singleton] at h
      rw [if_neg (by simp), if_neg (by simp), if_neg (by omega)] at h
      cases h
  rw [Option.or_eq_none_iff] at hno
  have key : ∀ f : Nat → Bool, bmMin n f = none → ∀ b, b < n → f b = false := by
    intro f hf b hb
    unfold bmMin at hf
    rw [find?_eq_none] at hf
    simpa using hf b (mem_range.2 hb)
  exact fun b hb => ⟨key _ hno.2 b hb, key _ hno.1 b hb⟩

theorem insert_new (hc : c.Ok) {s : DSt} (hr : Reach c s) (hf : PageFaultFree s) {th : Thread} (hth : th ∈ s.threads) {o : Obj} {t : Tuple}
    (hp : th.pc = .createInsert o t) : ∀ b, ∀ u ∈ s.ts.bundles b, u.id ≠ t.id := by
  have hS := reach_safe hc hr hf.1 hf.2.1 hf.2.2
  have h1 := hS.R.thr th hth
  rw [hp] at h1
  obtain ⟨h2, h3⟩ := h1
  intro b u hu e
  obtain ⟨m, h4, h5⟩ := (hS.R.mem b).tup u hu
  rw [e, ((reach_k hr).ins th hth o t [] (.inr hp)).1, h2, Option.some.injEq, Prod.mk.injEq] at h4
  rcases h5 with h5 | ⟨h5, _⟩
  · have := rec_uniq hS.R.nd h3 h5 h4.1
    rw [Rec.mk.injEq] at this
    cases this.2.2.2
  · cases h5

/-- why a call panics -/
theorem why_panics (hc : c.Ok) {s s' : DSt} (hr : Reach c s) (hf : PageFaultFree s) (hs : Step c s s') {i : Nat} {pc : PC}
    (ha : at? s i = some pc) (hd : pc ≠ .dead) (ha' : at? s' i = some .dead) : NoRoom c s pc ∨ Races s pc := by
  have hn := (reach_lin hr).calls
  have hn' := (reach_lin (hr.step hs)).calls
  have hT := (reach_t hr).1
  have hK := reach_k hr
  obtain ⟨x, hx, hxi, hxp⟩ := (at_iff hn').1 ha'
  -- the call was not dead before
  have hno : x ∉ s.threads := by
    intro hx'
    have := (at_iff hn).2 ⟨x, hx', hxi, rfl⟩
    rw [ha, hxp] at this
    exact hd (Option.some.inj this)
  have hsame : ∀ {pre post th pc'}, s.threads = pre ++ th :: post → s'.threads = pre ++ withPc th pc' :: post → x = withPc th pc' ∧ th.pc = pc ∧ pc' = .dead := by
    intro pre post th pc' e e'
    rw [e'] at hx
    have hxe : x = withPc th pc' := by
      rcases mem_append.1 hx with h | h
      · exact absurd (by rw [e]; exact mem_append_left _ h) hno
      · rcases mem_cons.1 h with h | h
        · exact h
        · exact absurd (by rw [e]; exact mem_append_right _ (mem_cons_of_mem _ h)) hno
    subst hxe
    have := (at_iff hn).2 ⟨th, by rw [e]; simp, hxi, rfl⟩
    rw [ha] at this
    exact ⟨rfl, (Option.some.inj this).symm, hxp⟩
  have hdrop : ∀ {pre post th}, s.threads = pre ++ th :: post → s'.threads = pre ++ post → False := by
    intro pre post th e e'
    rw [e'] at hx
    refine hno ?_
    rw [e]
    rcases mem_append.1 hx with h | h
    · exact mem_append_left _ h
    · exact mem_append_right _ (mem_cons_of_mem _ h)
  have hsnoc : ∀ {th}, s'.threads = s.threads ++ [th] → th.call = s.nextCall → False := by
    intro th e e2
    rw [e] at hx
    rcases mem_append.1 hx with h | h
    · exact hno h
    · rw [mem_singleton] at h
      subst h
      obtain ⟨y, hy, hyi, _⟩ := (at_iff hn).1 ha
      have := ((reach_lin hr).lt y hy).1
      omega
  have hmem : ∀ {pre post : List Thread} {th : Thread}, s.threads = pre ++ th :: post → th ∈ s.threads := fun e => by rw [e]; simp
  cases hs with
  | createData key size created h1 h2 h3 h4 => exact (hsnoc rfl rfl).elim
  | createDataPanic size h1 h2 => exact (hsnoc rfl rfl).elim
  | createMeta junk ht hp h1 h2 h3 h4 => exact nomatch (hsame ht rfl).2.2
  | createMetaPanic ht hp h1 =>
    obtain ⟨_, e, _⟩ := hsame ht rfl
    rw [hp] at e
    subst e
    left
    rcases h1 with h1 | h1
    · exact .inl h1.1
    · exact .inr (by rw [h1.2])
  | metaWritten ht hp => exact nomatch (hsame ht rfl).2.2
  | createInsert ht hp h1 => exact nomatch (hsame ht rfl).2.2
  | createInsertPanic ht hp h1 =>
    obtain ⟨_, e, _⟩ := hsame ht rfl
    rw [hp] at e
    subst e
    exact .inl (insert_none hT (insert_new hc hr hf (hmem ht) hp) h1)
  | created ht hp h1 => exact (hdrop ht rfl).elim
  | commitClaim id ifne h1 => exact (hsnoc rfl rfl).elim
  | commitSeal ht hp => exact nomatch (hsame ht rfl).2.2
  | commitKept ht hp h1 h2 => exact nomatch (hsame ht rfl).2.2
  | commitPublish ht hp h1 h2 h3 => exact nomatch (hsame ht rfl).2.2
  | commitUpdate ht hp h1 => exact nomatch (hsame ht rfl).2.2
  | @commitUpdatePanic pre th post old o ex ht hp h1 =>
    refine absurd h1 (update_ok hT (hK.tk old ?_) (hK.pm o.id ?_))
    · exact mem_flatMap.2 ⟨th, hmem ht, by rw [hp]; simp [PC.tmem]⟩
    · exact mem_flatMap.2 ⟨th, hmem ht, by rw [hp]; simp [PC.pnew]⟩
  | commitDone ht hp h1 => exact (hdrop ht rfl).elim
  | commitReap ht hp h1 => exact nomatch (hsame ht rfl).2.2
  | delete k want h1 h2 => exact (hsnoc rfl rfl).elim
  | reapTuple ht hp h1 => exact nomatch (hsame ht rfl).2.2
  | @reapPanic pre th post o why ht hp h1 =>
    obtain ⟨_, e, _⟩ := hsame ht rfl
    rw [hp] at e
    subst e
    right
    refine ⟨o, why, rfl, ?_, ?_⟩
    · rintro rfl
      exact absurd h1 (delete_ok hT (hK.tk o.id (mem_flatMap.2 ⟨th, hmem ht, by rw [hp]; simp [PC.tmem]⟩)))
    · have : why ≠ .kept := by
        rintro rfl
        exact absurd h1 (delete_ok hT (hK.tk o.id (mem_flatMap.2 ⟨th, hmem ht, by rw [hp]; simp [PC.tmem]⟩)))
      have hv : o ∈ s.threads.flatMap (fun th => th.pc.vobj) := by
        refine mem_flatMap.2 ⟨th, hmem ht, ?_⟩
        rw [hp]
        cases why with
        | kept => exact absurd rfl this
        | _ => simp [PC.vobj]
      rcases hK.vk o hv with h2 | ⟨y, hy, old, ex, h2⟩
      · exact absurd h1 (delete_ok hT h2)
      · exact ⟨y.call, old, ex, (at_iff hn).2 ⟨y, hy, rfl, h2⟩⟩
  | reaped ht hp h1 h2 => exact (hdrop ht rfl).elim
  | _ => exact absurd hx hno

theorem dead_step {s s' : DSt} (hr : Reach c s) (hs : Step c s s') {i : Nat} (hd : at? s i = some .dead) : at? s' i = some .dead := by
  rcases step_at hr hs hd with e | ⟨pc', _, e⟩ | ⟨_, _, e⟩
  · exact e
  · simp [PC.rank] at e
  · simp [PC.rank] at e

/-- an answered call is over -/
structure Over (s : DSt) : Prop where
  lt : ∀ a ∈ s.acks, a.call < s.nextCall
  no : ∀ a ∈ s.acks, at? s a.call = none

theorem over_step {s s' : DSt} (hr : Reach c s) (h : Over s) (hs : Step c s s') : Over s' := by
  have hL := reach_lin hr
  have hL' := reach_lin (hr.step hs)
  have key : s.nextCall ≤ s'.nextCall ∧ (∀ a ∈ s'.acks, a ∈ s.acks ∨ (a.call = s.nextCall ∧ s'.threads = s.threads ∧ s.nextCall < s'.nextCall) ∨
      ∃ pre th post, s.threads = pre ++ th :: post ∧ s'.threads = pre ++ post ∧ a.call = th.call) := by
    cases hs with
    | created ht hp h1 =>
      refine ⟨Nat.le_refl _, fun a ha => ?_⟩
      rcases mem_append.1 ha with ha | ha
      · exact .inl ha
      · rw [mem_singleton] at ha; subst ha; exact .inr (.inr ⟨_, _, _, ht, rfl, rfl⟩)
    | commitDone ht hp h1 =>
      refine ⟨Nat.le_refl _, fun a ha => ?_⟩
      rcases mem_append.1 ha with ha | ha
      · exact .inl ha
      · rw [mem_singleton] at ha; subst ha; exact .inr (.inr ⟨_, _, _, ht, rfl, rfl⟩)
    | reaped ht hp h1 h2 =>
      refine ⟨Nat.le_refl _, fun a ha => ?_⟩
      rcases mem_append.1 ha with ha | ha
      · exact .inl ha
      · rw [mem_singleton] at ha; subst ha; exact .inr (.inr ⟨_, _, _, ht, rfl, rfl⟩)
    | commitRefused id h1 =>
      refine ⟨Nat.le_succ _, fun a ha => ?_⟩
      rcases mem_append.1 ha with ha | ha
      · exact .inl ha
      · rw [mem_singleton] at ha; subst ha; exact .inr (.inl ⟨rfl, rfl, Nat.lt_succ_self _⟩)
    | missing k want h1 =>
      refine ⟨Nat.le_succ _, fun a ha => ?_⟩
      rcases mem_append.1 ha with ha | ha
      · exact .inl ha
      · rw [mem_singleton] at ha; subst ha; exact .inr (.inl ⟨rfl, rfl, Nat.lt_succ_self _⟩)
    | inspect k want h1 h2 =>
      refine ⟨Nat.le_succ _, fun a ha => ?_⟩
      rcases mem_append.1 ha with ha | ha
      · exact .inl ha
      · rw [mem_singleton] at ha; subst ha; exact .inr (.inl ⟨rfl, rfl, Nat.lt_succ_self _⟩)
    | createData key size created h1 h2 h3 h4 => exact ⟨Nat.le_succ _, fun a ha => .inl ha⟩
    | createDataPanic size h1 h2 => exact ⟨Nat.le_succ _, fun a ha => .inl ha⟩
    | commitClaim id ifne h1 => exact ⟨Nat.le_succ _, fun a ha => .inl ha⟩
    | delete k want h1 h2 => exact ⟨Nat.le_succ _, fun a ha => .inl ha⟩
    | _ => exact ⟨Nat.le_refl _, fun a ha => .inl ha⟩
  refine ⟨?_, ?_⟩
  · intro a ha
    rcases key.2 a ha with h1 | ⟨h1, _, h2⟩ | ⟨pre, th, post, h1, _, h2⟩
    · exact Nat.lt_of_lt_of_le (h.lt a h1) key.1
    · omega
    · have := (hL.lt th (by rw [h1]; simp)).1
      omega
  · intro a ha
    rcases key.2 a ha with h1 | ⟨h1, h2, _⟩ | ⟨pre, th, post, h1, h2, h3⟩
    · have h0 := at_none.1 (h.no a h1)
      have hlt := h.lt a h1
      rw [at_none]
      rcases thread_step hs with e | ⟨st, pc, e⟩ | ⟨pre, x, post, pc', e1, e2, _⟩ | ⟨pre, x, post, e1, e2, _⟩
      · rw [e]; exact h0
      · rw [e]
        intro y hy
        rcases mem_append.1 hy with hy | hy
        · exact h0 y hy
        · rw [mem_singleton] at hy; subst hy
          show s.nextCall ≠ a.call
          omega
      · rw [e2]
        intro y hy
        rcases mem_append.1 hy with hy | hy
        · exact h0 y (by rw [e1]; exact mem_append_left _ hy)
        · rcases mem_cons.1 hy with rfl | hy
          · exact h0 x (by rw [e1]; simp)
          · exact h0 y (by rw [e1]; exact mem_append_right _ (mem_cons_of_mem _ hy))
      · rw [e2]
        intro y hy
        refine h0 y ?_
        rw [e1]
        rcases mem_append.1 hy with hy | hy
        · exact mem_append_left _ hy
        · exact mem_append_right _ (mem_cons_of_mem _ hy)
    · rw [at_none, h2, h1]
      intro y hy e
      have := (hL.lt y hy).1
      omega
    · rw [at_none, h2, h3]
      have hn := hL.calls
      rw [h1, map_append, map_cons] at hn
      have := nodup_middle.1 hn
      intro y hy e
      refine (nodup_cons.1 this).1 ?_
      rw [← e, ← map_append]
      exact mem_map_of_mem hy

theorem reach_over {s : DSt} (h : Reach c s) : Over s := by
  induction h with
  | fresh h =>
    unfold fresh at h
    split at h
    · simp at h
    · cases h
      exact ⟨by simp, by simp⟩
  | step hr hs ih => exact over_step hr ih hs
  | restart order hr hp hl ih =>
    obtain ⟨a0, l, _, h1, hok, rfl⟩ := load_some hl
    exact ⟨by simp, by simp⟩

end Direct
end Blobd
