import Verif.Proofs.DirectDur2
/-! Durability of the direct store (C28), part 3: all steps. -/
set_option autoImplicit false
namespace Blobd
namespace Direct
open List

variable {c : SCfg}

/-- once the committed tuple of an object is everywhere, its old, incomplete, tuple is nowhere -/
theorem no_old {s : DSt} (hR : RInv c s) {id new : Nat} (hd : DurO c.n s.ts new .committed) (hn : s.names id = s.names new) :
    Imgs (fun t => t.state = .incomplete → t.id ≠ id) s.ts := by
  obtain ⟨b, hb, ⟨u, hu, hui, hus⟩, h2, ⟨w, hw, hwi, hws⟩⟩ := hd
  have key : ∀ {b' : Nat} {dy dy' : Bool} {l l' : List Tuple} {t v : Tuple}, ImgOk c.max s.names s.recs b' dy l → t ∈ l →
      ImgOk c.max s.names s.recs b dy' l' → v ∈ l' → v.id = new → t.id = id → b' = b ∧ t.metaOff = v.metaOff := by
    intro b' dy dy' l l' t v hl ht hl' hv e1 e2
    obtain ⟨m, h3, h4⟩ := hl.tup t ht
    obtain ⟨m', h5, h6⟩ := hl'.tup v hv
    rw [e2, hn, ← e1, h5] at h3
    simp only [Option.some.injEq, Prod.mk.injEq] at h3
    have : ∀ r ∈ s.recs, ∀ r' ∈ s.recs, r.mo = r'.mo → r = r' := fun r hr r' hr' he => rec_uniq hR.nd hr hr' he
    refine ⟨?_, h3.1.symm⟩
    rcases h4 with h4 | ⟨_, h4⟩ <;> rcases h6 with h6 | ⟨_, h6⟩ <;> have e := this _ h4 _ h6 h3.1.symm <;> simp_all
  refine ⟨?_, ?_, ?_⟩
  · intro b' t ht hst he
    obtain ⟨rfl, e⟩ := key (hR.mem b') ht (hR.mem b) hu hui he
    have := inj_on_of_nodup_map (hR.mem b').nd ht hu e
    subst this; rw [hus] at hst; cases hst
  · rintro ⟨b', l⟩ hl t ht hst he
    obtain ⟨rfl, e⟩ := key (hR.fly _ hl) ht (hR.mem b) hu hui he
    obtain ⟨v, hv, hvi, hvs⟩ := h2 l hl
    obtain ⟨_, e⟩ := key (hR.fly _ hl) ht (hR.fly _ hl) hv hvi he
    have := inj_on_of_nodup_map (hR.fly _ hl).nd ht hv e
    subst this; rw [hvs] at hst; cases hst
  · intro b' t ht hst he
    obtain ⟨rfl, e⟩ := key (hR.disk b') ht (hR.disk b) hw hwi he
    have := inj_on_of_nodup_map (hR.disk b').nd ht hw e
    subst this; rw [hws] at hst; cases hst

theorem DurO.hasTuple {n : Nat} {ts : TS} {id : Nat} {st : ObjState} (h : DurO n ts id st) : HasTuple ts id st := by
  obtain ⟨b, _, ⟨t, ht, h1, h2⟩, _⟩ := h
  exact ⟨b, t, ht, h1, h2⟩

theorem OwnTok.move {lin : List (Nat × Ev)} {th : Thread} {pc : PC} {id : Nat} (h : OwnTok lin th id)
    (h1 : ∀ o tk, th.pc ≠ .createTuple o tk) (h2 : pc.cstage) : OwnTok lin (withPc th pc) id := by
  rcases h with ⟨o, tk, h, _⟩ | ⟨_, m, h⟩
  · exact absurd h (h1 o tk)
  · exact Or.inr ⟨h2, m, h⟩

theorem Prior.pub {s : DSt} (hL : LinInv s) {call : Nat} {ev : Ev} {k : List Byte} (h : ev.touches k) :
    Prior s.base.1 (s.lin ++ [(call, ev)]) call k (s.committed k) :=
  ⟨s.lin, ev, [], rfl, h, by simp, by rw [show s.committed = _ from Props.absRun_vis hL.abs]⟩

theorem own_other_calls {s : DSt} (hL : LinInv s) {pre post : List Thread} {th : Thread} (ht : s.threads = pre ++ th :: post) :
    ∀ x ∈ pre ++ post, th.call ≠ x.call := fun x hx => (calls_other (ht ▸ hL.calls) hx).symm

theorem dInv_step {s s' : DSt} (hT : TInv c.max c.n s.ts) (hTk : Tickets s.ts) (hid : IdInv s) (hH : HInv s) (hK : KInv s)
    (hL : LinInv s) (hN : NInv s) (hR : RInv c s) (hR' : RInv c s') (h : DInv c s) (hs : Step c s s')
    (ho : Fault.overlap ∉ s'.faults) : DInv c s' := by
  have hidn : ∀ i, s.names i ≠ none → s.names i = s.names i := fun _ _ => rfl
  cases hs with
  | @createData lay offs a' key size created _ _ _ _ =>
    refine dInv_go h hH hL (old := []) (new := [⟨s.nextCall, s.lin.length,
          .createData ⟨size, created, key, offs.take lay.lpageCount, offs.drop lay.lpageCount⟩⟩]) (rest := s.threads) (ex := []) (ks := []) (Nt := fun _ => False) ?_
    exact ⟨Perm.refl _, perm_append_comm, TsOk.refl _, by simp, fun _ _ => rfl, by simp, hidn, rfl, Or.inl rfl, Or.inr (Or.inl (by simp [PC.key])),
      fun x hx => by simp only [mem_singleton] at hx; subst hx; exact plain_ok trivial, by simp, by simp, fun id hid => Or.inl hid,
      fun id hid => Or.inl hid, by simp, by simp, by simp, fun P hP _ => hP, by simp⟩
  | createDataPanic size _ _ =>
    refine dInv_go h hH hL (old := []) (new := [⟨s.nextCall, s.lin.length, .dead⟩]) (rest := s.threads) (ex := []) (ks := []) (Nt := fun _ => False) ?_
    exact ⟨Perm.refl _, perm_append_comm, TsOk.refl _, by simp, fun _ _ => rfl, by simp, hidn, rfl, Or.inl rfl, Or.inr (Or.inl (by simp [PC.key])),
      fun x hx => by simp only [mem_singleton] at hx; subst hx; exact plain_ok trivial, by simp, by simp, fun id hid => Or.inl hid,
      fun id hid => Or.inl hid, by simp, by simp, by simp, fun P hP _ => hP, by simp⟩
  | createMeta junk ht hp hl ha hn hj =>
    exact h.plain hH hL ht rfl rfl rfl rfl (names_upd hn) rfl rfl (by rw [hp]; trivial) trivial
  | createMetaPanic ht hp _ => exact h.plain hH hL (pc := .dead) ht rfl rfl rfl rfl hidn rfl rfl (by rw [hp]; trivial) trivial
  | device dev' _ => exact h.quiet hH hL rfl rfl rfl rfl rfl rfl (Or.inl rfl)
  | metaWritten ht hp => exact h.plain hH hL ht rfl rfl rfl rfl hidn rfl rfl (by rw [hp]; trivial) trivial
  | @createInsert pre th post o t ts' ht hp hi =>
    obtain ⟨e1, e2⟩ := hK.ins th (by rw [ht]; simp) o t [] (Or.inr hp)
    refine dInv_go h hH hL (old := [th]) (new := [withPc th (.createTuple o s.ts.next)]) (rest := pre ++ post) (ex := []) (ks := []) (Nt := fun u => u = t) ?_
    have hpl : th.pc.plain := by rw [hp]; trivial
    refine ⟨by rw [ht]; exact perm_mid, perm_mid, tsOk_insert hi, by simp, fun _ _ => rfl, by simp, hidn, rfl, Or.inl rfl,
      Or.inr (Or.inl (by simp [PC.key, withPc])), ?_, by simp, ?_, fun id hid => Or.inl hid, fun id hid => Or.inl hid, by simp, ?_, ?_,
      fun P hP hn => insert_imgs hi hP (hn t rfl), ?_⟩
    · intro x hx
      simp only [mem_singleton] at hx; subst hx
      refine ThOk.triv trivial ?_ rfl (by simp [withPc])
      have := setO_insert hT hTk hi
      rw [e1, e2] at this
      exact this
    · intro x hx o' ho'; simp only [mem_singleton] at hx; subst hx; exact absurd ho' (plain_own hpl o')
    · intro x hx o' ho'; simp only [mem_singleton] at hx; subst hx; rw [plain_vic hpl] at ho'; simp at ho'
    · intro x hx id hid; simp only [mem_singleton] at hx; subst hx; exact absurd hid (plain_tok hpl id)
    · rintro u rfl
      refine ⟨fun hst => (by rw [e2] at hst; cases hst), fun _ => Or.inr ⟨_, mem_mid, Or.inl ⟨o, _, rfl, e1.symm⟩⟩⟩
  | createInsertPanic ht hp hi => exact h.plain hH hL (pc := .dead) ht rfl rfl rfl rfl hidn rfl rfl (by rw [hp]; trivial) trivial
  | @created pre th post o ticket ht hp hf =>
    have hth : th ∈ s.threads := by rw [ht]; simp
    have hd := (h.thr th hth).dur
    rw [hp] at hd
    refine dInv_go h hH hL (old := [th]) (new := []) (rest := pre ++ post) (ex := []) (ks := []) (Nt := fun _ => False) ?_
    refine ⟨by rw [ht]; exact perm_mid, Perm.refl _, TsOk.refl _, by simp, fun _ _ => rfl, by simp, hidn, rfl,
      Or.inr ⟨_, rfl, own_other_calls hL ht, by simp [Ev.touches]⟩, Or.inr (Or.inl rfl), by simp, by simp, ?_, ?_, ?_, by simp, ?_, ?_,
      fun P hP _ => hP, by simp⟩
    · intro x hx o' ho'; simp only [mem_singleton] at hx; subst hx; simp [PC.owns, hp] at ho'
    · intro id hid
      simp only [upd] at hid
      split at hid
      · rename_i e; subst e; exact Or.inr (SetO.fired hd hf)
      · exact Or.inl hid
    · intro id hid
      refine Or.inl ?_
      simp only [upd]; split
      · simp
      · exact hid
    · intro x hx o' ho'; simp only [mem_singleton] at hx; subst hx; simp [PC.victims, hp] at ho'
    · intro x hx id hid; simp only [mem_singleton] at hx; subst hx
      rcases hid with ⟨o', tk, h1, h2⟩ | ⟨h1, _⟩
      · rw [hp] at h1; cases h1
        refine Or.inl (Or.inl ?_)
        subst h2
        simp [upd]
      · rw [hp] at h1; exact h1.elim
  | openHandle id _ => exact h.quiet hH hL rfl rfl rfl rfl rfl rfl (Or.inl rfl)
  | writeStart data _ _ _ _ => exact h.quiet hH hL rfl rfl rfl rfl rfl rfl (Or.inl rfl)
  | writeDone _ => exact h.quiet hH hL rfl rfl rfl rfl rfl rfl (Or.inl rfl)
  | writeCancel _ => exact h.quiet hH hL rfl rfl rfl rfl rfl rfl (Or.inl rfl)
  | orphanDone _ => exact h.quiet hH hL rfl rfl rfl rfl rfl rfl (Or.inl rfl)
  | @commitClaim o id ifne hi =>
    refine dInv_go h hH hL (old := []) (new := [⟨s.nextCall, s.lin.length, .commitClaimed o ifne⟩]) (rest := s.threads) (ex := []) (ks := []) (Nt := fun _ => False) ?_
    refine ⟨Perm.refl _, perm_append_comm, TsOk.refl _, by simp, fun _ _ => rfl, by simp, hidn, rfl,
      Or.inr ⟨_, rfl, fun x hx => by have := (hL.lt x hx).1; simp only; omega, by simp [Ev.touches]⟩, Or.inr (Or.inl (by simp [PC.key])), ?_,
      by simp, by simp, ?_, ?_, by simp, by simp, by simp, fun P hP _ => hP, by simp⟩
    · intro x hx
      simp only [mem_singleton] at hx; subst hx
      exact ThOk.triv trivial trivial rfl (by simp)
    · intro id' hid'
      simp only [upd] at hid'
      split at hid'
      · simp at hid'
      · exact Or.inl hid'
    · intro id' hid'
      by_cases e : id' = id
      · subst e
        refine Or.inr ⟨_, mem_append_right _ (mem_singleton.2 rfl), Or.inr ⟨trivial, o.m, ?_⟩⟩
        simp [ownEvs]
      · exact Or.inl (by simp only [upd, if_neg e]; exact hid')
  | commitRefused id _ => exact h.quiet hH hL rfl rfl rfl rfl rfl rfl (Or.inr ⟨_, rfl, by simp [Ev.touches]⟩)
  | @commitSeal pre th post o ifne ht hp =>
    refine h.move hH hL (new := [withPc th (.commitSealed o ifne)]) ht (by simp) rfl rfl rfl hidn rfl rfl (Or.inr (by simp [withPc, PC.key])) ?_ ?_ ?_ ?_
    · intro x hx
      simp only [mem_singleton] at hx; subst hx
      exact ThOk.triv trivial trivial rfl (by simp [withPc])
    · intro o' ho'; simp [PC.owns, hp] at ho'
    · intro o' ho'; simp [PC.victims, hp] at ho'
    · intro id hid
      exact Or.inl ⟨_, mem_singleton.2 rfl, hid.move (by rw [hp]; simp) trivial⟩
  | @commitKept pre th post o ht hp hw hne =>
    refine dInv_go h hH hL (old := [th]) (new := [withPc th (.reap o .kept)]) (rest := pre ++ post) (ex := []) (ks := []) (Nt := fun _ => False) ?_
    refine ⟨by rw [ht]; exact perm_mid, perm_mid, TsOk.refl _, by simp, fun _ _ => rfl, by simp, hidn, rfl,
      Or.inr ⟨_, rfl, own_other_calls hL ht, by simp [Ev.touches]⟩, Or.inr (Or.inl (by simp [withPc, PC.key])), ?_, by simp, ?_,
      fun id hid => Or.inl hid, fun id hid => Or.inl hid, by simp, ?_, ?_, fun P hP _ => hP, by simp⟩
    · intro x hx
      simp only [mem_singleton] at hx; subst hx
      exact ThOk.triv trivial trivial rfl (by simp [withPc])
    · intro x hx o' ho'; simp only [mem_singleton] at hx; subst hx; simp [PC.owns, hp] at ho'
    · intro x hx o' ho'; simp only [mem_singleton] at hx; subst hx; simp [PC.victims, hp] at ho'
    · intro x hx id hid; simp only [mem_singleton] at hx; subst hx
      exact Or.inl (Or.inr ⟨_, mem_mid, (hid.move (pc := .reap o .kept) (by rw [hp]; simp) trivial).mono (Or.inr ⟨_, rfl⟩)⟩)
  | @commitPublish pre th post o ifne newId ht hp hw hif hn =>
    have hnb := not_busy ho
    refine dInv_go h hH hL (old := [th]) (new := [withPc th (.commitPublished o.id ⟨newId, o.m⟩ (s.committed o.m.key))]) (rest := pre ++ post) (ex := []) (ks := [o.m.key]) (Nt := fun _ => False) ?_
    refine ⟨by rw [ht]; exact perm_mid, perm_mid, TsOk.refl _, by simp, ?_, ?_, names_upd hn, rfl,
      Or.inr ⟨_, rfl, own_other_calls hL ht, ?_⟩, Or.inr (Or.inr ⟨o.m.key, by simp, by simp [withPc, PC.key]⟩), ?_, ?_, ?_,
      fun id hid => Or.inl hid, fun id hid => Or.inl hid, ?_, ?_, ?_, fun P hP _ => hP, by simp⟩
    · intro k hk
      simp only [updKey]
      rw [if_neg (by simpa using hk)]
    · intro k hk x hx
      simp only [mem_singleton] at hk; subst hk
      exact hnb x (by rw [ht]; simp only [mem_append, mem_cons] at hx ⊢; tauto)
    · intro k hk; simpa [Ev.touches] using hk.symm
    · intro x hx
      simp only [mem_singleton] at hx; subst hx
      refine ⟨⟨by simp [updKey], fun e he => hid.comKey _ _ he⟩, ?_, by simp [withPc], ?_⟩
      · intro e he
        rcases h.com _ _ he with h1 | ⟨x, hx, h1⟩
        · exact h1
        · exfalso
          have hm := (h.thr x hx).map
          have hke : e.m.key = o.m.key := hid.comKey _ _ he
          rcases h1 with ⟨old, ex, h1⟩ | ⟨ex, tk, h1⟩ <;> exact hnb x hx (by rw [h1]; simp [PC.key, hke])
      · intro k hk
        simp only [withPc, PC.key, Option.some.injEq] at hk
        subst hk
        exact Prior.pub hL (by simp [Ev.touches])
    · intro k hk o' ho'
      simp only [mem_singleton] at hk; subst hk
      simp only [updKey, if_true, Option.some.injEq] at ho'
      subst ho'
      exact Or.inr ⟨_, mem_mid, Or.inl ⟨_, _, rfl⟩⟩
    · intro x hx o' ho'; simp only [mem_singleton] at hx; subst hx; simp [PC.owns, hp] at ho'
    · intro o' ho' hk
      simp only [mem_singleton] at hk
      rw [hk] at ho'
      exact ⟨_, mem_singleton.2 rfl, by simp [withPc, PC.victims, ho']⟩
    · intro x hx o' ho'; simp only [mem_singleton] at hx; subst hx; simp [PC.victims, hp] at ho'
    · intro x hx id hid; simp only [mem_singleton] at hx; subst hx
      exact Or.inl (Or.inr ⟨_, mem_mid, (hid.move (pc := .commitPublished o.id ⟨newId, o.m⟩ (s.committed o.m.key)) (by rw [hp]; simp) trivial).mono (Or.inr ⟨_, rfl⟩)⟩)
  | @commitUpdate pre th post old o ex ts' ht hp hu =>
    have hth : th ∈ s.threads := by rw [ht]; simp
    have hok := h.thr th hth
    have hm := hok.map
    have hd := hok.dur
    rw [hp] at hm hd
    have hold : old ∈ s.threads.flatMap (fun th => th.pc.hids) := mem_flatMap.2 ⟨th, hth, by rw [hp]; simp [PC.hids, PC.tids]⟩
    have hexo : ∀ e ∈ ex, e.id ≠ old := by
      intro e he heq
      have h1 : th.pc.hids.Nodup := by
        have := hH.hids
        rw [ht] at this
        exact (nodup_flatMap.1 this).1 th (by simp)
      rw [hp] at h1
      simp only [PC.hids, PC.tids, PC.vobj, singleton_append, nodup_cons, mem_map, Option.mem_toList] at h1
      exact h1.1 ⟨e, he, heq⟩
    refine dInv_go h hH hL (old := [th]) (new := [withPc th (.commitTuple o ex s.ts.next)]) (rest := pre ++ post) (ex := [old]) (ks := [])
      (Nt := fun t => t.id = o.id ∧ t.state = .committed) ?_
    have hto := tsOk_update (n := c.n) hu
    refine ⟨by rw [ht]; exact perm_mid, perm_mid, hto, ?_, fun _ _ => rfl, by simp, hidn, rfl, Or.inl rfl,
      Or.inl (by simp [withPc, hp, PC.key]), ?_, by simp, ?_, fun id hid => Or.inl hid, fun id hid => Or.inl hid, by simp, ?_, ?_,
      fun P hP hn => update_imgs hu hP (fun _ u _ _ _ => hn _ ⟨rfl, rfl⟩), ?_⟩
    · intro id hid; simp only [mem_singleton] at hid; subst hid; simp [hp, PC.hids, PC.tids]
    · intro x hx
      simp only [mem_singleton] at hx; subst hx
      refine ⟨hm, ⟨fun e he => (hto _ (by simpa using hexo e he) _).1 (hd e he), setO_update hT hTk hu⟩, ?_, ?_⟩
      · intro o' ex' tk' he i m hi
        simp only [withPc] at he
        cases he
        have hown := hL.own th hth
        rw [hp] at hown
        obtain ⟨ifne, hown⟩ := hown
        simp only [withPc] at hi
        rw [hown] at hi
        simp only [mem_cons, Ev.claimed.injEq, reduceCtorEq, not_mem_nil, or_false] at hi
        obtain ⟨rfl, rfl⟩ := hi
        exact ⟨(hN.pub th hth _ _ _ hp).symm, (hH.hfree _ hold).2.2⟩
      · intro k hk
        have := hok.pri k (by rw [hp]; exact hk)
        rw [hp] at this
        exact this
    · intro x hx o' ho'; simp only [mem_singleton] at hx; subst hx
      simp only [PC.owns, hp, PC.commitPublished.injEq, reduceCtorEq, exists_false, or_false] at ho'
      obtain ⟨_, _, _, rfl, _⟩ := ho'
      exact Or.inl ⟨_, mem_mid, Or.inr ⟨_, _, rfl⟩⟩
    · intro x hx o' ho'; simp only [mem_singleton] at hx; subst hx
      rw [hp] at ho'
      exact Or.inl ⟨_, mem_singleton.2 rfl, ho'⟩
    · intro x hx id hid; simp only [mem_singleton] at hx; subst hx
      exact Or.inl (Or.inr ⟨_, mem_mid, hid.move (by rw [hp]; simp) trivial⟩)
    · rintro t ⟨h1, h2⟩
      exact ⟨fun _ => ⟨o, h1.symm, Or.inl hm.1⟩, fun h3 => by rw [h2] at h3; cases h3⟩
  | @commitUpdatePanic pre th post old o ex ht hp hu =>
    have hth : th ∈ s.threads := by rw [ht]; simp
    exact absurd hu (update_ok hT (hK.tk old (mem_flatMap.2 ⟨th, hth, by rw [hp]; simp [PC.tmem]⟩))
      (hK.pm o.id (mem_flatMap.2 ⟨th, hth, by rw [hp]; simp [PC.pnew]⟩)))
  | @commitDone pre th post o ticket ht hp hf =>
    have hth : th ∈ s.threads := by rw [ht]; simp
    have hok := h.thr th hth
    have hd := hok.dur
    rw [hp] at hd
    have hdur := SetO.fired hd.2 hf
    refine h.move hH hL (new := []) ht (by simp) rfl rfl rfl hidn rfl rfl (Or.inr rfl) (by simp) ?_ ?_ ?_
    · intro o' ho'
      simp only [PC.owns, hp, PC.commitTuple.injEq, reduceCtorEq, exists_false, false_or] at ho'
      obtain ⟨_, _, rfl, _⟩ := ho'
      exact Or.inr hdur
    · intro o' ho'; simp [PC.victims, hp] at ho'
    · rintro id (⟨_, _, h1, _⟩ | ⟨_, m, h1⟩)
      · rw [hp] at h1; cases h1
      · exact Or.inr (no_old hR hdur (hok.old o none ticket hp id m h1).1)
  | @commitReap pre th post o e ticket ht hp hf =>
    have hth : th ∈ s.threads := by rw [ht]; simp
    have hok := h.thr th hth
    have hd := hok.dur
    have hm := hok.map
    rw [hp] at hd hm
    have hdur := SetO.fired hd.2 hf
    have hke := hm.2 e rfl
    refine h.move hH hL (new := [withPc th (.reap e (.replaced o))]) ht (by simp) rfl rfl rfl hidn rfl rfl (Or.inl (by simp [withPc, PC.key, hp, hke])) ?_ ?_ ?_ ?_
    · intro x hx
      simp only [mem_singleton] at hx; subst hx
      refine ⟨?_, hd.1 e rfl, by simp [withPc], ?_⟩
      · show s.committed e.m.key = some o
        rw [hke]; exact hm.1
      · intro k hk
        simp only [withPc, PC.key, hke] at hk
        have := hok.pri k (by rw [hp]; exact hk)
        rw [hp] at this
        exact this
    · intro o' ho'
      simp only [PC.owns, hp, PC.commitTuple.injEq, reduceCtorEq, exists_false, false_or] at ho'
      obtain ⟨_, _, rfl, _⟩ := ho'
      exact Or.inr hdur
    · intro o' ho'
      rw [hp] at ho'
      exact Or.inl ⟨_, mem_singleton.2 rfl, by simpa [withPc, PC.victims] using ho'⟩
    · rintro id (⟨_, _, h1, _⟩ | ⟨_, m, h1⟩)
      · rw [hp] at h1; cases h1
      · exact Or.inr (no_old hR hdur (hok.old o (some e) ticket hp id m h1).1)
  | @delete o k want hc hw =>
    have hnb := not_busy ho
    have hke : o.m.key = k := hid.comKey _ _ hc
    refine dInv_go h hH hL (old := []) (new := [⟨s.nextCall, s.lin.length, .reap o .deleted⟩]) (rest := s.threads) (ex := []) (ks := [k]) (Nt := fun _ => False) ?_
    refine ⟨Perm.refl _, perm_append_comm, TsOk.refl _, by simp, ?_, ?_, hidn, rfl,
      Or.inr ⟨_, rfl, fun x hx => by have := (hL.lt x hx).1; simp only; omega, ?_⟩, Or.inr (Or.inr ⟨k, by simp, by simp [PC.key, hke]⟩), ?_,
      ?_, by simp, fun id hid => Or.inl hid, fun id hid => Or.inl hid, ?_, by simp, by simp, fun P hP _ => hP, by simp⟩
    · intro k' hk
      simp only [updKey]
      rw [if_neg (by simpa using hk)]
    · intro k' hk x hx
      simp only [mem_singleton] at hk; subst hk
      exact hnb x hx
    · intro k' hk; simpa [Ev.touches] using hk.symm
    · intro x hx
      simp only [mem_singleton] at hx; subst hx
      refine ⟨by simp [MTh, updKey, hke], ?_, by simp, ?_⟩
      · rcases h.com _ _ hc with h1 | ⟨x, hx, h1⟩
        · exact h1
        · exfalso
          rcases h1 with ⟨old, ex, h1⟩ | ⟨ex, tk, h1⟩ <;> exact hnb x hx (by rw [h1]; simp [PC.key, hke])
      · intro k' hk
        simp only [PC.key, hke, Option.some.injEq] at hk
        subst hk
        have := Prior.pub hL (call := s.nextCall) (ev := .removed k want o.id) (k := k) (by simp [Ev.touches])
        rw [hc] at this
        exact this
    · intro k' hk o' ho'
      simp only [mem_singleton] at hk; subst hk
      simp [updKey] at ho'
    · intro o' ho' hk
      simp only [mem_singleton] at hk
      rw [hk, hc] at ho'
      simp only [Option.some.injEq] at ho'
      exact ⟨_, mem_singleton.2 rfl, by simp [PC.victims, ho']⟩
  | missing k want _ => exact h.quiet hH hL rfl rfl rfl rfl rfl rfl (Or.inr ⟨_, rfl, by simp [Ev.touches]⟩)
  | inspect k want _ _ => exact h.quiet hH hL rfl rfl rfl rfl rfl rfl (Or.inr ⟨_, rfl, by simp [Ev.touches]⟩)
  | @reapTuple pre th post o why ts' t ht hp hd =>
    have hth : th ∈ s.threads := by rw [ht]; simp
    have hok := h.thr th hth
    have hm := hok.map
    rw [hp] at hm
    refine dInv_go h hH hL (old := [th]) (new := [withPc th (.reapTuple o t s.ts.next why)]) (rest := pre ++ post) (ex := [o.id]) (ks := [])
      (Nt := fun _ => False) ?_
    refine ⟨by rw [ht]; exact perm_mid, perm_mid, tsOk_delete hd, ?_, fun _ _ => rfl, by simp, hidn, rfl, Or.inl rfl,
      Or.inl ?_, ?_, by simp, ?_, fun id hid => Or.inl hid, fun id hid => Or.inl hid, by simp, ?_, ?_,
      fun P hP hn => delete_imgs hd hP, by simp⟩
    · intro id hid; simp only [mem_singleton] at hid; subst hid
      cases why <;> simp [hp, PC.hids, PC.tids, PC.vobj]
    · cases why <;> simp [withPc, hp, PC.key]
    · intro x hx
      simp only [mem_singleton] at hx; subst hx
      refine ⟨by cases why <;> exact hm, trivial, by simp [withPc], ?_⟩
      intro k hk
      have := hok.pri k (by rw [hp]; cases why <;> exact hk)
      rw [hp] at this
      exact this
    · intro x hx o' ho'; simp only [mem_singleton] at hx; subst hx; simp [PC.owns, hp] at ho'
    · intro x hx o' ho'; simp only [mem_singleton] at hx; subst hx
      rw [hp] at ho'
      exact Or.inl ⟨_, mem_singleton.2 rfl, by cases why <;> exact ho'⟩
    · intro x hx id hid; simp only [mem_singleton] at hx; subst hx
      rcases hid with ⟨_, _, h1, _⟩ | ⟨h1, m, h2⟩
      · rw [hp] at h1; cases h1
      · refine Or.inl (Or.inr ⟨_, mem_mid, Or.inr ⟨?_, m, h2⟩⟩)
        rw [hp] at h1
        cases why <;> exact h1
  | @reapPanic pre th post o why ht hp hd =>
    have hth : th ∈ s.threads := by rw [ht]; simp
    have hok := (h.thr th hth).dur
    rw [hp] at hok
    exfalso
    cases why with
    | kept => exact delete_ok hT (hK.tk o.id (mem_flatMap.2 ⟨th, hth, by rw [hp]; simp [PC.tmem]⟩)) hd
    | replaced n => exact delete_ok hT (DurO.hasTuple hok) hd
    | deleted => exact delete_ok hT (DurO.hasTuple hok) hd
  | @reaped pre th post o t ticket why a' ht hp hf ha =>
    have hth : th ∈ s.threads := by rw [ht]; simp
    have hrt := hR.thr th hth
    rw [hp] at hrt
    obtain ⟨hno, _⟩ := hrt
    have key : ∀ {b : Nat} {dy : Bool} {l : List Tuple}, ImgOk c.max s.names (s.recs.filter (fun r => r.mo ≠ t.metaOff)) b dy l →
        ∀ u ∈ l, u.id ≠ o.id := by
      intro b dy l hl u hu he
      obtain ⟨m, h1, h2⟩ := hl.tup u hu
      rw [he, hno] at h1
      simp only [Option.some.injEq, Prod.mk.injEq] at h1
      rcases h2 with h2 | ⟨_, h2⟩ <;> · have := (mem_filter.1 h2).2; simp [h1.1] at this
    have hgone : Imgs (fun u => u.id ≠ o.id) s.ts :=
      ⟨fun b u hu => key (hR'.mem b) u hu, fun w hw u hu => key (hR'.fly w hw) u hu, fun b u hu => key (hR'.disk b) u hu⟩
    refine h.move hH hL (new := []) ht (by simp) rfl rfl rfl hidn rfl rfl (Or.inr rfl) (by simp) ?_ ?_ ?_
    · intro o' ho'; simp [PC.owns, hp] at ho'
    · intro o' ho'
      have : o' = o := by rw [hp] at ho'; cases why <;> simp_all [PC.victims]
      subst this
      exact Or.inr hgone
    · rintro id (⟨_, _, h1, _⟩ | ⟨h1, m, h2⟩)
      · rw [hp] at h1; cases h1
      · right
        have hown := hL.own th hth
        rw [hp] at hown h1
        cases why with
        | kept =>
          simp only [PC.own] at hown
          rw [hown] at h2
          simp only [mem_cons, Ev.claimed.injEq, reduceCtorEq, not_mem_nil, or_false] at h2
          rw [h2.1]
          exact hgone.mono (fun _ h _ => h)
        | replaced n => exact h1.elim
        | deleted => exact h1.elim
  | bg hb =>
    refine dInv_go h hH hL (old := []) (new := []) (rest := s.threads) (ex := []) (ks := []) (Nt := fun _ => False) ?_
    exact ⟨Perm.refl _, Perm.refl _, tsOk_bg hT hTk hb, by simp, fun _ _ => rfl, by simp, hidn, rfl, Or.inl rfl, Or.inl rfl,
      by simp, by simp, by simp, fun id hid => Or.inl hid,
      fun id hid => Or.inl hid, by simp, by simp, by simp, fun P hP _ => bg_imgs hb hP, by simp⟩

end Direct
end Blobd
