import Verif.Spec.DirectCluster
import Verif.Props.DirectDurable
/-! The partitions of a direct store together behave like one store. -/
set_option autoImplicit false
namespace Blobd
namespace Direct
open List

/-- the key an event's effect depends on -/
def Ev.visKey : Ev → Option (List Byte)
  | .published _ _ m _ => some m.key
  | .kept _ m => some m.key
  | e => e.callKey

theorem lin_ext {c : SCfg} {s s' : DSt} (h : Step c s s') : s'.lin = s.lin ++ s'.lin.drop s.lin.length := by
  cases h <;> simp

theorem base_step {c : SCfg} {s s' : DSt} (h : Step c s s') : s'.base = s.base := by cases h <;> rfl

/-- a step is a run of the abstract store -/
theorem step_abs {c : SCfg} {s s' : DSt} (hr : Reach c s) (h : Step c s s') :
    absRun ⟨s.committed, s.incomplete⟩ ((s'.lin.drop s.lin.length).map (·.2)) = some ⟨s'.committed, s'.incomplete⟩ := by
  have h1 := (reach_lin hr).abs
  have h2 := (reach_lin (.step hr h)).abs
  rw [base_step h, lin_ext h, map_append] at h2
  obtain ⟨m, e1, e2⟩ := Props.absRun_split h2
  rw [h1] at e1
  cases e1
  exact e2

/-- keys of the names a partition has ever used -/
structure RtInv (ok : List Byte → Prop) (s : DSt) : Prop where
  names : ∀ id mo m, s.names id = some (mo, m) → ok m.key
  thr : ∀ th ∈ s.threads, ∀ m, th.pc = .createData m → ok m.key

theorem RtInv.same {ok : List Byte → Prop} {s s' : DSt} (h : RtInv ok s) (ht : ∀ th ∈ s'.threads, th ∈ s.threads ∨ th.pc.createKey = none)
    (hn : s'.names = s.names) : RtInv ok s' := by
  refine ⟨by rw [hn]; exact h.names, ?_⟩
  intro th hth m hm
  rcases ht th hth with h1 | h1
  · exact h.thr th h1 m hm
  · rw [hm] at h1; simp [PC.createKey] at h1

theorem thr_swap {s : DSt} {pre post : List Thread} {th : Thread} {pc : PC} (ht : s.threads = pre ++ th :: post) (hc : pc.createKey = none) :
    ∀ x ∈ pre ++ withPc th pc :: post, x ∈ s.threads ∨ x.pc.createKey = none := by
  intro x hx
  rw [ht]
  simp only [mem_append, mem_cons] at hx ⊢
  rcases hx with hx | rfl | hx
  · exact Or.inl (Or.inl hx)
  · exact Or.inr hc
  · exact Or.inl (Or.inr (Or.inr hx))

theorem thr_drop {s : DSt} {pre post : List Thread} {th : Thread} (ht : s.threads = pre ++ th :: post) :
    ∀ x ∈ pre ++ post, x ∈ s.threads ∨ x.pc.createKey = none := by
  intro x hx
  rw [ht]
  simp only [mem_append, mem_cons] at hx ⊢
  exact Or.inl (hx.imp id Or.inr)

theorem thr_snoc {s : DSt} {th : Thread} (hc : th.pc.createKey = none) :
    ∀ x ∈ s.threads ++ [th], x ∈ s.threads ∨ x.pc.createKey = none := by
  intro x hx
  simp only [mem_append, mem_singleton] at hx
  rcases hx with hx | rfl
  · exact Or.inl hx
  · exact Or.inr hc

theorem rt_step {ok : List Byte → Prop} {c : SCfg} {s s' : DSt} (h : RtInv ok s) (hs : Step c s s') (hk : ∀ k ∈ callKeys s s', ok k) :
    RtInv ok s' := by
  cases hs with
  | @createData lay offs a' key size created h1 h2 h3 h4 =>
    refine ⟨h.names, ?_⟩
    intro th hth m hm
    simp only [mem_append, mem_singleton] at hth
    rcases hth with hth | rfl
    · exact h.thr th hth m hm
    · refine hk m.key ?_
      simp only at hm
      simp [callKeys, PC.createKey, ← PC.createData.inj hm]
  | createDataPanic size h1 h2 => exact h.same (thr_snoc rfl) rfl
  | @createMeta pre th post m mo a' id junk ht hp hl ha hn hj =>
    have h0 := h.same (s' := { s with threads := _ }) (thr_swap ht (pc := .createMeta ⟨id, m⟩
          ⟨.incomplete, id, mo, MetaPage.directRecorded c.pages m.enc.length⟩ (m.enc ++ junk)) rfl) rfl
    refine ⟨?_, h0.thr⟩
    intro i mo' m' hi
    simp only [upd] at hi
    split at hi
    · cases hi; exact h.thr th (ht ▸ mem_mid) m hp
    · exact h.names i mo' m' hi
  | createMetaPanic ht hp ha => exact h.same (thr_swap ht rfl) rfl
  | device d hd => exact h.same (fun _ hx => Or.inl hx) rfl
  | metaWritten ht hp => exact h.same (thr_swap ht rfl) rfl
  | createInsert ht hp hi => exact h.same (thr_swap ht rfl) rfl
  | createInsertPanic ht hp hi => exact h.same (thr_swap ht rfl) rfl
  | created ht hp hft => exact h.same (thr_drop ht) rfl
  | openHandle id ho => exact h.same (fun _ hx => Or.inl hx) rfl
  | writeStart data h1 h2 h3 h4 => exact h.same (fun _ hx => Or.inl hx) rfl
  | writeDone hw => exact h.same (fun _ hx => Or.inl hx) rfl
  | writeCancel hw => exact h.same (fun _ hx => Or.inl hx) rfl
  | orphanDone hw => exact h.same (fun _ hx => Or.inl hx) rfl
  | commitClaim id ifne ho => exact h.same (thr_snoc rfl) rfl
  | commitRefused id ho => exact h.same (fun _ hx => Or.inl hx) rfl
  | commitSeal ht hp => exact h.same (thr_swap ht rfl) rfl
  | commitKept ht hp hw hcm => exact h.same (thr_swap ht rfl) rfl
  | @commitPublish pre th post o ifne newId ht hp hw hif hnone =>
    have h0 := h.same (s' := { s with threads := _ }) (thr_swap ht (pc := .commitPublished o.id ⟨newId, o.m⟩ (s.committed o.m.key)) rfl) rfl
    refine ⟨?_, h0.thr⟩
    intro i mo' m' hi
    simp only [upd] at hi
    split at hi
    · exact h.names o.id mo' m' hi
    · exact h.names i mo' m' hi
  | commitUpdate ht hp hu => exact h.same (thr_swap ht rfl) rfl
  | commitUpdatePanic ht hp hu => exact h.same (thr_swap ht rfl) rfl
  | commitDone ht hp hft => exact h.same (thr_drop ht) rfl
  | commitReap ht hp hft => exact h.same (thr_swap ht rfl) rfl
  | delete k want ho hw => exact h.same (thr_snoc rfl) rfl
  | missing k want hm => exact h.same (fun _ hx => Or.inl hx) rfl
  | inspect k want ho hw => exact h.same (fun _ hx => Or.inl hx) rfl
  | reapTuple ht hp hd => exact h.same (thr_swap ht rfl) rfl
  | reapPanic ht hp hd => exact h.same (thr_swap ht rfl) rfl
  | reaped ht hp hft ha => exact h.same (thr_drop ht) rfl
  | bg hb => exact h.same (fun _ hx => Or.inl hx) rfl

theorem rt_load {ok : List Byte → Prop} {c : SCfg} {s s' : DSt} {order : List Tuple} (h : RtInv ok s) (hl : load c s order = some s') : RtInv ok s' := by
  obtain ⟨a0, l, _, _, _, rfl⟩ := load_some hl
  exact ⟨h.names, by simp⟩

/-- the keys new events concern -/
theorem ev_key {ok : List Byte → Prop} {c : SCfg} {s s' : DSt} (hN : NInv s) (h : RtInv ok s) (hs : Step c s s') (hk : ∀ k ∈ callKeys s s', ok k) :
    ∀ e ∈ s'.lin.drop s.lin.length, ∀ k, e.2.visKey = some k → ok k := by
  intro e he k hek
  by_cases hc : e.2.callKey = some k
  · exact hk k (mem_append_right _ (mem_filterMap.2 ⟨e, he, hc⟩))
  · cases hs with
    | @commitKept pre th post o ht hp hw hcm =>
      simp only [drop_left, mem_singleton] at he
      subst he
      simp only [Ev.visKey, Option.some.injEq] at hek
      subst hek
      obtain ⟨mo, hn⟩ := hN.thr th (ht ▸ mem_mid) o (by rw [hp]; simp [PC.objs])
      exact h.names _ _ _ hn
    | @commitPublish pre th post o ifne newId ht hp hw hif hnone =>
      simp only [drop_left, mem_singleton] at he
      subst he
      simp only [Ev.visKey, Option.some.injEq] at hek
      subst hek
      obtain ⟨mo, hn⟩ := hN.thr th (ht ▸ mem_mid) o (by rw [hp]; simp [PC.objs])
      exact h.names _ _ _ hn
    | _ =>
      simp only [drop_left, drop_length, mem_singleton, not_mem_nil] at he
      try (subst he; simp_all [Ev.visKey, Ev.callKey])

/-- events of partition `i` on the whole map -/
theorem gRun_lift {own : List Byte → Prop} {i : Nat} : ∀ {l : List Ev} {a b : Abs} {g : GAbs}, absRun a l = some b →
    (∀ e ∈ l, ∀ k, e.visKey = some k → own k) → (∀ k, own k → g.vis k = a.vis k) → g.tokens i = a.tokens →
    ∃ g', gRun g (l.map (fun e => (i, e))) = some g' ∧ (∀ k, own k → g'.vis k = b.vis k) ∧ (∀ k, ¬ own k → g'.vis k = g.vis k) ∧
      g'.tokens = upd g.tokens i b.tokens := by
  intro l
  induction l with
  | nil =>
    intro a b g h _ hv ht
    simp only [absRun, foldlM_nil] at h
    cases h
    refine ⟨g, rfl, hv, fun _ _ => rfl, ?_⟩
    rw [← ht]; funext j
    simp only [upd]; split
    · rename_i e; rw [e]
    · rfl
  | cons e l ih =>
    intro a b g h hk hv ht
    simp only [absRun, foldlM_cons, Option.bind_eq_bind, Option.bind_eq_some_iff] at h
    obtain ⟨a1, h1, h2⟩ := h
    obtain ⟨v1, e1, e2, e3⟩ : ∃ v1, absStep ⟨g.vis, g.tokens i⟩ e = some ⟨v1, a1.tokens⟩ ∧ (∀ k, own k → v1 k = a1.vis k) ∧
        (∀ k, ¬ own k → v1 k = g.vis k) := by
      rw [ht]
      have hk0 := hk e (by simp)
      cases e with
      | created id m => simp only [absStep] at h1 ⊢; split at h1 <;> cases h1; rename_i hh; rw [if_pos hh]; exact ⟨_, rfl, hv, fun _ _ => rfl⟩
      | claimed id m => simp only [absStep] at h1 ⊢; split at h1 <;> cases h1; rename_i hh; rw [if_pos hh]; exact ⟨_, rfl, hv, fun _ _ => rfl⟩
      | refused id => simp only [absStep] at h1 ⊢; split at h1 <;> cases h1; rename_i hh; rw [if_pos hh]; exact ⟨_, rfl, hv, fun _ _ => rfl⟩
      | published old id m ifne =>
        have hm := hk0 m.key rfl
        simp only [absStep] at h1 ⊢
        rw [hv _ hm]
        split at h1 <;> cases h1
        rename_i hh
        rw [if_neg hh]
        refine ⟨_, rfl, ?_, ?_⟩
        · intro k hk'
          simp only [updKey]; split
          · rfl
          · exact hv k hk'
        · intro k hk'
          simp only [updKey]; split
          · rename_i e; subst e; exact absurd hm hk'
          · rfl
      | kept id m =>
        have hm := hk0 m.key rfl
        simp only [absStep] at h1 ⊢
        split at h1 <;> cases h1
        rename_i hh
        rw [if_pos (by rw [hv _ hm]; exact hh)]
        exact ⟨_, rfl, hv, fun _ _ => rfl⟩
      | removed k want id =>
        have hm := hk0 k rfl
        simp only [absStep] at h1 ⊢
        rw [hv _ hm]
        split at h1
        · split at h1 <;> cases h1
          rename_i o ho hh
          rw [if_pos hh]
          refine ⟨_, rfl, ?_, ?_⟩
          · intro k hk'
            simp only [updKey]; split
            · rfl
            · exact hv k hk'
          · intro k hk'
            simp only [updKey]; split
            · rename_i e; subst e; exact absurd hm hk'
            · rfl
        · cases h1
      | missing k want =>
        have hm := hk0 k rfl
        simp only [absStep] at h1 ⊢
        rw [hv _ hm]
        split at h1
        · split at h1 <;> cases h1
          rename_i o ho hh
          rw [if_neg hh]
          exact ⟨_, rfl, hv, fun _ _ => rfl⟩
        · cases h1
          exact ⟨_, rfl, hv, fun _ _ => rfl⟩
      | found k want id m =>
        have hm := hk0 k rfl
        simp only [absStep] at h1 ⊢
        rw [hv _ hm]
        split at h1
        · split at h1 <;> cases h1
          rename_i o ho hh
          rw [if_pos hh]
          exact ⟨_, rfl, hv, fun _ _ => rfl⟩
        · cases h1
    obtain ⟨g', f1, f2, f3, f4⟩ := ih (g := ⟨v1, upd g.tokens i a1.tokens⟩) h2 (fun e he => hk e (by simp [he])) e2 (by simp [upd])
    refine ⟨g', ?_, f2, fun k hk' => (f3 k hk').trans (e3 k hk'), ?_⟩
    · simp only [map_cons, gRun, foldlM_cons, Option.bind_eq_bind, Option.bind_eq_some_iff]
      exact ⟨_, by simp only [gStep, e1, Option.map_some], f1⟩
    · rw [f4]; funext j
      simp only [upd]; split <;> rfl

end Direct
end Blobd
