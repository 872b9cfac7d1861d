import Verif.Spec.DirectRoom
import Verif.Proofs.DirectProgress
import Verif.Proofs.Room
set_option autoImplicit false
/-! Creates succeed while there is room. -/
namespace Blobd
namespace Direct
open List

variable {c : SCfg} {σ : Nat → DSt}

theorem at_swap {s s' : DSt} (hr : Reach c s) (hr' : Reach c s') {pre post : List Thread} {th : Thread} {pc pc' : PC} {i : Nat}
    (e : s.threads = pre ++ th :: post) (e' : s'.threads = pre ++ withPc th pc' :: post) (ha : at? s i = some pc) :
    (th.call = i ∧ th.pc = pc ∧ at? s' i = some pc') ∨ (th.call ≠ i ∧ at? s' i = some pc) := by
  have hn := (reach_lin hr).calls
  have hn' := (reach_lin hr').calls
  by_cases hi : th.call = i
  · left
    have h1 := (at_iff hn).2 ⟨th, by rw [e]; simp, hi, rfl⟩
    rw [ha, Option.some.injEq] at h1
    exact ⟨hi, h1.symm, (at_iff hn').2 ⟨withPc th pc', by rw [e']; simp, hi, rfl⟩⟩
  · right
    obtain ⟨x, hx, hxi, hxp⟩ := (at_iff hn).1 ha
    refine ⟨hi, (at_iff hn').2 ⟨x, ?_, hxi, hxp⟩⟩
    rw [e] at hx
    rw [e']
    rcases mem_append.1 hx with h | h
    · exact mem_append_left _ h
    · rcases mem_cons.1 h with rfl | h
      · exact absurd hxi hi
      · exact mem_append_right _ (mem_cons_of_mem _ h)

theorem at_drop {s s' : DSt} (hr : Reach c s) (hr' : Reach c s') {pre post : List Thread} {th : Thread} {pc : PC} {i : Nat}
    (e : s.threads = pre ++ th :: post) (e' : s'.threads = pre ++ post) (ha : at? s i = some pc) :
    (th.call = i ∧ th.pc = pc) ∨ (th.call ≠ i ∧ at? s' i = some pc) := by
  have hn := (reach_lin hr).calls
  have hn' := (reach_lin hr').calls
  by_cases hi : th.call = i
  · left
    have h1 := (at_iff hn).2 ⟨th, by rw [e]; simp, hi, rfl⟩
    rw [ha, Option.some.injEq] at h1
    exact ⟨hi, h1.symm⟩
  · right
    obtain ⟨x, hx, hxi, hxp⟩ := (at_iff hn).1 ha
    refine ⟨hi, (at_iff hn').2 ⟨x, ?_, hxi, hxp⟩⟩
    rw [e] at hx
    rw [e']
    rcases mem_append.1 hx with h | h
    · exact mem_append_left _ h
    · rcases mem_cons.1 h with rfl | h
      · exact absurd hxi hi
      · exact mem_append_right _ h

theorem at_keep {s s' : DSt} (hr : Reach c s) (hr' : Reach c s') {pc : PC} {i : Nat} (hsub : ∀ x ∈ s.threads, x ∈ s'.threads)
    (ha : at? s i = some pc) : at? s' i = some pc := by
  obtain ⟨x, hx, hxi, hxp⟩ := (at_iff (reach_lin hr).calls).1 ha
  exact (at_iff (reach_lin hr').calls).2 ⟨x, hsub x hx, hxi, hxp⟩

/-- what becomes of a create call in one step -/
theorem create_step {s s' : DSt} (hr : Reach c s) (hs : Step c s s') {i : Nat} {pc : PC} {m : Meta} (ha : at? s i = some pc)
    (hm : pc.making = some m) :
    (∃ pc', at? s' i = some pc' ∧ (pc'.making = some m ∨ pc' = .dead)) ∨ Begun s' i m := by
  have hr' := hr.step hs
  have swap : ∀ {pre post th pc'}, s.threads = pre ++ th :: post → s'.threads = pre ++ withPc th pc' :: post →
      (th.pc = pc → pc'.making = some m ∨ pc' = .dead) → (∃ pc', at? s' i = some pc' ∧ (pc'.making = some m ∨ pc' = .dead)) := by
    intro pre post th pc' e e' h
    rcases at_swap hr hr' e e' ha with ⟨_, h2, h3⟩ | ⟨_, h3⟩
    · exact ⟨_, h3, h h2⟩
    · exact ⟨_, h3, .inl hm⟩
  have keep : (∀ x ∈ s.threads, x ∈ s'.threads) → (∃ pc', at? s' i = some pc' ∧ (pc'.making = some m ∨ pc' = .dead)) :=
    fun h => ⟨pc, at_keep hr hr' h ha, .inl hm⟩
  cases hs with
  | createMeta junk ht hp h1 h2 h3 h4 =>
    refine .inl (swap ht rfl ?_)
    rintro rfl
    rw [hp] at hm
    exact .inl hm
  | createMetaPanic ht hp h1 => exact .inl (swap ht rfl (fun _ => .inr rfl))
  | metaWritten ht hp => exact .inl (swap ht rfl (by rintro rfl; rw [hp] at hm; exact .inl hm))
  | createInsert ht hp h1 => exact .inl (swap ht rfl (by rintro rfl; rw [hp] at hm; exact .inl hm))
  | createInsertPanic ht hp h1 => exact .inl (swap ht rfl (fun _ => .inr rfl))
  | created ht hp h1 =>
    rcases at_drop hr hr' ht rfl ha with ⟨h2, h3⟩ | ⟨_, h3⟩
    · right
      subst h3
      rw [hp] at hm
      cases hm
      refine ⟨_, mem_append_right _ (mem_singleton.2 rfl), h2, _, rfl, ?_⟩
      simp [upd]
    · exact .inl ⟨_, h3, .inl hm⟩
  | commitSeal ht hp => exact .inl (swap ht rfl (by rintro rfl; rw [hp] at hm; cases hm))
  | commitKept ht hp h1 h2 => exact .inl (swap ht rfl (by rintro rfl; rw [hp] at hm; cases hm))
  | commitPublish ht hp h1 h2 h3 => exact .inl (swap ht rfl (by rintro rfl; rw [hp] at hm; cases hm))
  | commitUpdate ht hp h1 => exact .inl (swap ht rfl (by rintro rfl; rw [hp] at hm; cases hm))
  | commitUpdatePanic ht hp h1 => exact .inl (swap ht rfl (by rintro rfl; rw [hp] at hm; cases hm))
  | commitReap ht hp h1 => exact .inl (swap ht rfl (by rintro rfl; rw [hp] at hm; cases hm))
  | reapTuple ht hp h1 => exact .inl (swap ht rfl (by rintro rfl; rw [hp] at hm; cases hm))
  | reapPanic ht hp h1 => exact .inl (swap ht rfl (by rintro rfl; rw [hp] at hm; cases hm))
  | commitDone ht hp h1 =>
    rcases at_drop hr hr' ht rfl ha with ⟨h2, h3⟩ | ⟨_, h3⟩
    · rw [← h3, hp] at hm; cases hm
    · exact .inl ⟨_, h3, .inl hm⟩
  | reaped ht hp h1 h2 =>
    rcases at_drop hr hr' ht rfl ha with ⟨h2, h3⟩ | ⟨_, h3⟩
    · rw [← h3, hp] at hm; cases hm
    · exact .inl ⟨_, h3, .inl hm⟩
  | createData key size created h1 h2 h3 h4 => exact .inl (keep (fun x hx => mem_append_left _ hx))
  | createDataPanic size h1 h2 => exact .inl (keep (fun x hx => mem_append_left _ hx))
  | commitClaim id ifne h1 => exact .inl (keep (fun x hx => mem_append_left _ hx))
  | delete k want h1 h2 => exact .inl (keep (fun x hx => mem_append_left _ hx))
  | _ => exact .inl (keep (fun x hx => hx))

/-- a create that finds room at each of its steps is answered -/
theorem create_begun (hc : c.Ok) (h : FairRun c σ) (hf : ∀ m, PageFaultFree (σ m)) {n i : Nat} {pc : PC} {m : Meta}
    (hi : at? (σ n) i = some pc) (hm : pc.making = some m)
    (hroom : ∀ j, n ≤ j → ∀ q, at? (σ j) i = some q → q.making = some m → ¬ NoRoom c (σ j) q) :
    ∃ j, n ≤ j ∧ (∀ k, n ≤ k → k < j → ∃ q, at? (σ k) i = some q ∧ q.making = some m) ∧ Begun (σ j) i m := by
  have hend : ∃ j, n ≤ j ∧ ¬ ∃ q, at? (σ j) i = some q ∧ q.making = some m := by
    obtain ⟨j, hj, h1⟩ := call_ends hc h hf _ hi rfl
    refine ⟨j, hj, ?_⟩
    rintro ⟨q, h2, h3⟩
    rcases h1 with ⟨a, h1, h4⟩ | h1
    · have := (reach_over (h.toRun.reach j)).no a h1
      rw [h4, h2] at this
      cases this
    · rw [h1] at h2
      cases h2
      cases h3
  obtain ⟨j, hj, h1, h2, h3⟩ := h.toRun.first (P := fun s => ∃ q, at? s i = some q ∧ q.making = some m) ⟨pc, hi, hm⟩ hend
  obtain ⟨q, hq, hqm⟩ := h1 j hj (Nat.le_refl _)
  have hr := h.toRun.reach j
  rcases create_step hr h3 hq hqm with ⟨q', e, h4 | rfl⟩ | h4
  · exact absurd ⟨q', e, h4⟩ h2
  · exfalso
    rcases why_panics hc hr (hf j) h3 hq (by rintro rfl; cases hqm) e with h5 | ⟨o, why, h5, _⟩
    · exact hroom j hj q hq hqm h5
    · rw [h5] at hqm; cases hqm
  · exact ⟨j + 1, by omega, fun k hk hl => h1 k hk (by omega), h4⟩

/-! ### One create while the other calls are commits and deletes -/

theorem whole_eq {s : DSt} {live : List (Nat × Nat)} (h : Buddy.Inv c.heap s.alloc live) : largePages c s = (Buddy.wholeFree s.alloc).card := by
  unfold largePages Buddy.wholeFree
  rw [h.hpages]
  rfl

/-- only creates take pages -/
theorem large_step (hc : c.Ok) {s s' : DSt} (hr : Reach c s) (hf : PageFaultFree s') (hs : Step c s s')
    (hno : ∀ th ∈ s'.threads, (∀ m, th.pc = .createData m → th ∈ s.threads) ∧ (∀ o t p, th.pc = .createMeta o t p → th ∈ s.threads) ∧
      (th.pc = .dead → th ∈ s.threads)) : largePages c s ≤ largePages c s' := by
  have hf0 : PageFaultFree s := ⟨fun h => hf.1 (faults_step hs _ h), fun h => hf.2.1 (faults_step hs _ h), fun h => hf.2.2 (faults_step hs _ h)⟩
  have hS := reach_safe hc hr hf0.1 hf0.2.1 hf0.2.2
  have hnodup := (reach_lin hr).calls
  have hnew : ∀ {pre post : List Thread} {th : Thread} {pc : PC}, s.threads = pre ++ th :: post → withPc th pc ∈ s.threads → th.pc = pc := by
    intro pre post th pc e h
    have : withPc th pc = th := inj_on_of_nodup_map hnodup h (by rw [e]; simp) rfl
    rw [← this]; rfl
  cases hs with
  | createData key size created h1 h2 h3 h4 =>
    exfalso
    have hx := (hno _ (mem_append_right _ (mem_singleton.2 rfl))).1 _ rfl
    have := ((reach_lin hr).lt _ hx).1
    exact absurd this (Nat.lt_irrefl _)
  | createDataPanic size h1 h2 =>
    exfalso
    have hx := (hno _ (mem_append_right _ (mem_singleton.2 rfl))).2.2 rfl
    have := ((reach_lin hr).lt _ hx).1
    exact absurd this (Nat.lt_irrefl _)
  | createMeta junk ht hp h1 h2 h3 h4 =>
    exfalso
    have hx := (hno _ (mem_append_right _ (mem_cons_self))).2.1 _ _ _ rfl
    rw [hnew ht hx] at hp
    cases hp
  | createMetaPanic ht hp h1 =>
    exfalso
    have hx := (hno _ (mem_append_right _ (mem_cons_self))).2.2 rfl
    rw [hnew ht hx] at hp
    cases hp
  | @reaped pre th post o t ticket why a' ht hp hft ha =>
    obtain ⟨lk, hi⟩ := hS.A.alloc
    have hth := hS.R.thr th (by rw [ht]; simp)
    rw [hp] at hth
    obtain ⟨_, b, _, hrec, _⟩ := hth
    have hperm := filter_perm hS.R.nd hrec
    have hi2 := hi.perm ((hperm.flatMap_right (regs c)).append_right _)
    simp only [flatMap_cons] at hi2
    have hi3 : Buddy.Inv c.heap s.alloc ((o.m.dataPages c.pages ++ [(t.metaOff, t.metaPow2)]) ++
        ((s.recs.filter (fun x => x.mo ≠ t.metaOff)).flatMap (regs c) ++ (s.threads.flatMap (fun th => th.pc.pages c) ++ lk))) := by
      refine hi2.perm ?_
      simp only [regs, objPages, append_assoc]
      refine Perm.trans ?_ perm_middle.symm
      simp
    obtain ⟨a2, e2, h2⟩ := releaseAll_inv hi3
    rw [ha] at e2
    cases e2
    rw [whole_eq hi3]
    refine Nat.le_trans (Buddy.whole_mono hi3 hc.sl h2 (fun a ha => mem_append_right _ ha)) ?_
    unfold largePages Buddy.wholeFree
    rw [h2.hpages]
    exact Nat.le_refl _
  | _ => exact Nat.le_refl _

/-- only inserting a tuple can use up the known slots -/
theorem slot_step {s s' : DSt} (hs : Step c s s') (hk : SlotKnown c s) :
    SlotKnown c s' ∨ ∃ pre th post o t, s.threads = pre ++ th :: post ∧ th.pc = .createInsert o t ∧
      s'.threads = pre ++ withPc th (.createTuple o s.ts.next) :: post := by
  obtain ⟨b, hb, hf⟩ := hk
  cases hs with
  | createInsert ht hp h1 => exact .inr ⟨_, _, _, _, _, ht, hp, rfl⟩
  | commitUpdate ht hp h1 =>
    refine .inl ⟨b, hb, ?_⟩
    simp only [TS.updateObject, Option.bind_eq_bind, Option.bind_eq_some_iff] at h1
    obtain ⟨b1, _, t, _, h2⟩ := h1
    split at h2
    · cases h2
    · split at h2
      · cases h2
      · cases h2; exact hf
  | reapTuple ht hp h1 =>
    refine .inl ⟨b, hb, ?_⟩
    simp only [TS.deleteObject, Option.bind_eq_bind, Option.bind_eq_some_iff] at h1
    obtain ⟨b1, _, t, _, h2⟩ := h1
    cases h2
    exact hf
  | bg h1 =>
    refine .inl ⟨b, hb, ?_⟩
    cases h1 with
    | snapshot h => exact hf
    | write j h =>
      unfold TS.writePage at h
      split at h
      · cases h
      · split at h
        · cases h
        · cases h; exact hf
    | signal h =>
      unfold TS.signal at h
      split at h
      · cases h; exact hf
      · cases h
  | _ => exact .inl ⟨b, hb, hf⟩

theorem nextCall_step {s s' : DSt} (hs : Step c s s') : s.nextCall ≤ s'.nextCall := by
  cases hs <;> first | exact Nat.le_refl _ | exact Nat.le_succ _

theorem thread_mem {s s' : DSt} (hs : Step c s s') {x : Thread} (hx : x ∈ s'.threads) :
    x ∈ s.threads ∨ x.call = s.nextCall ∨ ∃ y ∈ s.threads, y.call = x.call ∧ x.pc.rank < y.pc.rank := by
  rcases thread_step hs with e | ⟨st, pc, e⟩ | ⟨pre, y, post, pc', e1, e2, e3⟩ | ⟨pre, y, post, e1, e2, _⟩
  · exact .inl (e ▸ hx)
  · rw [e] at hx
    rcases mem_append.1 hx with h | h
    · exact .inl h
    · rw [mem_singleton] at h; subst h; exact .inr (.inl rfl)
  · rw [e2] at hx
    rcases mem_append.1 hx with h | h
    · exact .inl (by rw [e1]; exact mem_append_left _ h)
    · rcases mem_cons.1 h with rfl | h
      · exact .inr (.inr ⟨y, by rw [e1]; simp, rfl, e3⟩)
      · exact .inl (by rw [e1]; exact mem_append_right _ (mem_cons_of_mem _ h))
  · rw [e2] at hx
    rw [e1]
    rcases mem_append.1 hx with h | h
    · exact .inl (mem_append_left _ h)
    · exact .inl (mem_append_right _ (mem_cons_of_mem _ h))

/-- what the create still needs -/
def Enough (c : SCfg) (s : DSt) (i : Nat) : Prop :=
  (∀ m, at? s i = some (.createData m) → 0 < largePages c s) ∧
  (∀ q, at? s i = some q → (∀ o t, q ≠ .createTuple o t) → q.making ≠ none → SlotKnown c s)

theorem enough_step (hc : c.Ok) {s s' : DSt} (hr : Reach c s) (hf : PageFaultFree s') (hs : Step c s s') {i : Nat} {pc : PC} {m : Meta}
    (hi : at? s i = some pc) (hm : pc.making = some m) (ho : ∀ j q, j ≠ i → at? s j = some q → q.changes)
    (ho' : ∀ j q, j ≠ i → at? s' j = some q → q.changes) (he : Enough c s i) : Enough c s' i := by
  have hr' := hr.step hs
  have hn := (reach_lin hr).calls
  have hn' := (reach_lin hr').calls
  have hlt : i < s.nextCall := by
    obtain ⟨y, hy, hyi, _⟩ := (at_iff hn).1 hi
    have := ((reach_lin hr).lt y hy).1
    omega
  constructor
  · intro m' hi'
    have hpc : pc = .createData m' := by
      rcases step_at hr hs hi with e | ⟨q, e, hl⟩ | ⟨e, _⟩
      · rw [hi'] at e; cases e; rfl
      · rw [hi'] at e
        cases e
        cases pc <;> simp [PC.rank] at hl
      · rw [hi'] at e; cases e
    subst hpc
    refine Nat.lt_of_lt_of_le (he.1 m' hi) (large_step hc hr hf hs ?_)
    intro x hx
    have hxa : at? s' x.call = some x.pc := (at_iff hn').2 ⟨x, hx, rfl, rfl⟩
    by_cases hxi : x.call = i
    · rw [hxi, hi'] at hxa
      have hxp : x.pc = .createData m' := (Option.some.inj hxa).symm
      refine ⟨?_, ?_, ?_⟩
      · intro _ _
        rcases thread_mem hs hx with h | h | ⟨y, hy, h1, h2⟩
        · exact h
        · omega
        · exfalso
          have := (at_iff hn).2 ⟨y, hy, h1.trans hxi, rfl⟩
          rw [hi] at this
          rw [← Option.some.inj this, hxp] at h2
          exact Nat.lt_irrefl _ h2
      · intro o t p e; rw [hxp] at e; cases e
      · intro e; rw [hxp] at e; cases e
    · have := ho' _ _ hxi hxa
      refine ⟨?_, ?_, ?_⟩
      · intro _ e; rw [e] at this; exact this.elim
      · intro o t p e; rw [e] at this; exact this.elim
      · intro e; rw [e] at this; exact this.elim
  · intro q hq hnt hmk
    have hsl : SlotKnown c s := by
      refine he.2 pc hi ?_ (by rw [hm]; simp)
      rintro o t rfl
      rcases step_at hr hs hi with e | ⟨q', e, hl⟩ | ⟨e, _⟩
      · rw [hq] at e; cases e; exact hnt _ _ rfl
      · rw [hq] at e
        cases e
        cases q <;> first | (simp [PC.rank] at hl; done) | exact hmk rfl
      · rw [hq] at e; cases e
    rcases slot_step hs hsl with h | ⟨pre, th, post, o, t, h1, h2, h3⟩
    · exact h
    · exfalso
      rcases at_swap hr hr' h1 h3 hi with ⟨h4, h5, h6⟩ | ⟨h4, h5⟩
      · rw [hq] at h6; cases h6; exact hnt _ _ rfl
      · have := ho _ _ h4 ((at_iff hn).2 ⟨th, by rw [h1]; simp, rfl, rfl⟩)
        rw [h2] at this
        exact this

theorem enough_room (hc : c.Ok) {s : DSt} (hr : Reach c s) (hf : PageFaultFree s) {i : Nat} {q : PC} {m : Meta} (hq : at? s i = some q)
    (hm : q.making = some m) (hl : m.enc.length ≤ 2 ^ c.pages.lpage) (he : Enough c s i) : ¬ NoRoom c s q := by
  intro hno
  cases q with
  | createData m' =>
    cases hm
    rcases hno with h | h
    · omega
    · have hS := reach_safe hc hr hf.1 hf.2.1 hf.2.2
      obtain ⟨lk, hi⟩ := hS.A.alloc
      have hw := he.1 _ hq
      rw [whole_eq hi] at hw
      obtain ⟨n, b', e, _⟩ := Buddy.whole_alloc hi hc.sl (request_le hc.sl hl) hw
      rw [e] at h
      cases h
  | createInsert o t =>
    obtain ⟨b, hb, h⟩ := he.2 _ hq (by simp) (by simp [PC.making])
    rw [(hno b hb).1] at h
    cases h
  | _ => exact hno

/-- a create among commits and deletes -/
theorem sole_create (hc : c.Ok) (h : FairRun c σ) (hf : ∀ m, PageFaultFree (σ m)) {n i : Nat} {pc : PC} {m : Meta}
    (hi : at? (σ n) i = some pc) (hm : pc.making = some m) (hl : m.enc.length ≤ 2 ^ c.pages.lpage) (he : Enough c (σ n) i)
    (ho : ∀ k, n ≤ k → at? (σ k) i ≠ none → ∀ j q, j ≠ i → at? (σ k) j = some q → q.changes) :
    ∃ j, n ≤ j ∧ Begun (σ j) i m := by
  have key : ∀ k, n ≤ k → ((∃ q, at? (σ k) i = some q ∧ q.making = some m) → Enough c (σ k) i) := by
    intro k hk
    induction k with
    | zero =>
      have : n = 0 := by omega
      subst this
      exact fun _ => he
    | succ k ih =>
      rcases Nat.lt_or_ge k n with hl | hl
      · have : n = k + 1 := by omega
        subst this
        exact fun _ => he
      · rintro ⟨q, hq, hqm⟩
        rcases h.toRun.next k with e | hs
        · rw [e] at hq ⊢
          exact ih hl ⟨q, hq, hqm⟩
        · have hr := h.toRun.reach k
          obtain ⟨p, hp, hpm⟩ : ∃ p, at? (σ k) i = some p ∧ p.making = some m := by
            have hn := (reach_lin hr).calls
            have hn' := (reach_lin (hr.step hs)).calls
            obtain ⟨x, hx, hxi, hxp⟩ := (at_iff hn').1 hq
            have hlt : i < (σ k).nextCall := by
              obtain ⟨y, hy, hyi, _⟩ := (at_iff (reach_lin (h.toRun.reach n)).calls).1 hi
              have h1 := ((reach_lin (h.toRun.reach n)).lt y hy).1
              have h2 := h.toRun.keep (P := fun s => i < s.nextCall) (fun s s' _ hp hs => Nat.lt_of_lt_of_le hp (nextCall_step hs)) (by omega) k hl
              exact h2
            rcases thread_mem hs hx with h1 | h1 | ⟨y, hy, h1, h2⟩
            · exact ⟨q, (at_iff hn).2 ⟨x, h1, hxi, hxp⟩, hqm⟩
            · omega
            · refine ⟨y.pc, (at_iff hn).2 ⟨y, hy, h1.trans hxi, rfl⟩, ?_⟩
              have hy' := (at_iff hn).2 ⟨y, hy, h1.trans hxi, rfl⟩
              rcases Option.eq_none_or_eq_some (y.pc.making) with h3 | ⟨m', h3⟩
              · exfalso
                rw [hxp] at h2
                generalize y.pc = p at *
                cases q <;> cases p <;> first | (simp [PC.making] at hqm; done) | (simp [PC.making] at h3; done) | (simp [PC.rank] at h2; done)
              · rcases create_step hr hs hy' h3 with ⟨q', h4, h5 | h5⟩ | ⟨a, h4, h5, _⟩
                · rw [hq] at h4
                  cases h4
                  rw [h5] at hqm
                  rw [h3, hqm]
                · rw [hq] at h4
                  cases h4
                  subst h5
                  cases hqm
                · have := (reach_over (hr.step hs)).no a h4
                  rw [h5, hq] at this
                  cases this
          exact enough_step hc hr (hf _) hs hp hpm (ho k hl (by rw [hp]; simp)) (ho (k + 1) (by omega) (by rw [hq]; simp)) (ih hl ⟨p, hp, hpm⟩)
  obtain ⟨j, hj, _, hb⟩ := create_begun hc h hf hi hm (fun j hj q hq hqm => enough_room hc (h.toRun.reach j) (hf j) hq hqm hl (key j hj ⟨q, hq, hqm⟩))
  exact ⟨j, hj, hb⟩

end Direct
end Blobd
