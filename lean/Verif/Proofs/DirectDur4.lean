import Verif.Proofs.DirectDur3
/-! Durability of the direct store (C28), part 4: restarts. -/
set_option autoImplicit false
namespace Blobd
namespace Direct
open List

variable {c : SCfg}

/-- what start-up makes of each tuple -/
structure LoadTo (dev : Mem) (done : List Tuple) (l : LoadSt) : Prop where
  inc : ∀ t ∈ done, t.state = .incomplete → ∃ m, tmeta dev t = some m ∧ l.incomplete t.id = some ⟨t.id, m⟩
  com : ∀ t ∈ done, t.state = .committed → ∃ m o, tmeta dev t = some m ∧ l.committed m.key = some o ∧ (l.dup = false → o.id = t.id)

theorem loadTo_one {dev : Mem} {done : List Tuple} {l l' : LoadSt} {t : Tuple} (h : LoadTo dev done l)
    (hs : loadOne c dev l t = some l') : LoadTo dev (done ++ [t]) l' := by
  obtain ⟨m, hm, _, h'⟩ := loadOne_some hs
  obtain ⟨h1, h2⟩ := h
  have hi : t.state = .committed → l'.incomplete = l.incomplete →
      ∀ t' ∈ done ++ [t], t'.state = .incomplete → ∃ m, tmeta dev t' = some m ∧ l'.incomplete t'.id = some ⟨t'.id, m⟩ := by
    intro hst e t' ht' hst'
    rw [e]
    rcases mem_append.1 ht' with ht' | ht'
    · exact h1 t' ht' hst'
    · simp only [mem_singleton] at ht'; subst ht'; rw [hst] at hst'; cases hst'
  rcases h' with ⟨hst, hnone, e1, e2, e3, _⟩ | ⟨hst, hnone, e1, e2, e3, _⟩ | ⟨hst, e, he, e1, e3, ⟨_, e2, _⟩ | ⟨_, e2, _⟩⟩
  · constructor
    · intro t' ht' hst'
      rw [e1]
      rcases mem_append.1 ht' with ht' | ht'
      · obtain ⟨m', h3, h4⟩ := h1 t' ht' hst'
        refine ⟨m', h3, ?_⟩
        simp only [upd]
        rw [if_neg]
        · exact h4
        · intro he; rw [he, hnone] at h4; cases h4
      · simp only [mem_singleton] at ht'; subst ht'; exact ⟨m, hm, by simp [upd]⟩
    · intro t' ht' hst'
      rw [e2, e3]
      rcases mem_append.1 ht' with ht' | ht'
      · exact h2 t' ht' hst'
      · simp only [mem_singleton] at ht'; subst ht'; rw [hst] at hst'; cases hst'
  · refine ⟨hi hst e1, ?_⟩
    intro t' ht' hst'
    rw [e2, e3]
    rcases mem_append.1 ht' with ht' | ht'
    · obtain ⟨m', o, h3, h4, h5⟩ := h2 t' ht' hst'
      refine ⟨m', o, h3, ?_, h5⟩
      simp only [updKey]
      rw [if_neg]
      · exact h4
      · intro he; rw [he, hnone] at h4; cases h4
    · simp only [mem_singleton] at ht'; subst ht'; exact ⟨m, _, hm, by simp [updKey]; rfl, by simp⟩
  · refine ⟨hi hst e1, ?_⟩
    intro t' ht' hst'
    rw [e2, e3]
    rcases mem_append.1 ht' with ht' | ht'
    · obtain ⟨m', o, h3, h4, h5⟩ := h2 t' ht' hst'
      exact ⟨m', o, h3, h4, by simp⟩
    · simp only [mem_singleton] at ht'; subst ht'; exact ⟨m, _, hm, he, by simp⟩
  · refine ⟨hi hst e1, ?_⟩
    intro t' ht' hst'
    rw [e2, e3]
    have : ∀ k, (∃ o, l.committed k = some o) → ∃ o, updKey l.committed m.key (some ⟨t.id, m⟩) k = some o := by
      rintro k ⟨o, ho⟩
      simp only [updKey]; split
      · exact ⟨_, rfl⟩
      · exact ⟨_, ho⟩
    rcases mem_append.1 ht' with ht' | ht'
    · obtain ⟨m', o, h3, h4, h5⟩ := h2 t' ht' hst'
      obtain ⟨o', ho'⟩ := this m'.key ⟨o, h4⟩
      exact ⟨m', o', h3, ho', by simp⟩
    · simp only [mem_singleton] at ht'; subst ht'; exact ⟨m, _, hm, by simp [updKey]; rfl, by simp⟩

theorem loadTo_all {dev : Mem} : ∀ {order done : List Tuple} {l l' : LoadSt}, LoadTo dev done l → loadAll c dev l order = some l' →
    LoadTo dev (done ++ order) l' := by
  intro order
  induction order with
  | nil => intro done l l' h hl; simp only [loadAll, foldlM_nil] at hl; cases hl; simpa using h
  | cons t order ih =>
    intro done l l' h hl
    rw [loadAll_cons] at hl
    cases h1 : loadOne c dev l t with
    | none => rw [h1] at hl; simp at hl
    | some l1 =>
      rw [h1] at hl
      have := ih (loadTo_one h h1) hl
      simpa using this

theorem loadTo_start {dev : Mem} {a0 : Buddy} {order : List Tuple} {l : LoadSt}
    (h : loadAll c dev ⟨a0, fun _ => none, fun _ => none, false⟩ order = some l) : LoadTo dev order l := by
  have := loadTo_all (c := c) (done := []) ⟨by simp, by simp⟩ h
  simpa using this

theorem dInv_load {s s' : DSt} {order : List Tuple} (hT : TInv c.max c.n s.ts) (hp : order.Perm (diskTuples c.n s.ts))
    (hl : load c s order = some s') (hd : Fault.duplicateKey ∉ s'.faults) : DInv c s' := by
  obtain ⟨a0, l, _, h1, hok, rfl⟩ := load_some hl
  have hlf := loadFrom_all h1
  have hlt := loadTo_start h1
  have hdup : l.dup = false := by
    by_contra hne
    simp only [Bool.not_eq_false] at hne
    exact hd (by simp [hne])
  have hord : ∀ t, t ∈ order ↔ ∃ b, b < c.n ∧ t ∈ s.ts.disk b := fun t => by rw [hp.mem_iff, mem_diskTuples]
  have hdur : ∀ t ∈ order, DurO c.n (TS.new c.max c.n s.ts.disk) t.id t.state := by
    intro t ht
    obtain ⟨b, hb, ht⟩ := (hord t).1 ht
    exact ⟨b, hb, ⟨t, ht, rfl, rfl⟩, by simp [TS.new, TS.inflight], ⟨t, ht, rfl, rfl⟩⟩
  have hdisk : ∀ b, ∀ t ∈ s.ts.disk b, t ∈ order := by
    intro b t ht
    refine (hord t).2 ⟨b, ?_, ht⟩
    by_contra hge
    rw [(hT.out b (by omega)).2] at ht; simp at ht
  have himg : ∀ P : Tuple → Prop, (∀ t ∈ order, P t) → Imgs P (TS.new c.max c.n s.ts.disk) := fun P hP =>
    ⟨fun b t ht => hP t (hdisk b t ht), by simp [TS.new, TS.inflight], fun b t ht => hP t (hdisk b t ht)⟩
  refine ⟨by simp, by simp, ?_, ?_, himg _ ?_, himg _ ?_⟩
  · intro k o ho
    obtain ⟨t, ht, hst, hti, _⟩ := hlf.com k o ho
    have := hdur t ht
    rw [hst, hti] at this
    exact Or.inl this
  · intro id hid
    obtain ⟨o, ho⟩ := Option.ne_none_iff_exists'.1 hid
    obtain ⟨t, ht, hst, hti, _⟩ := hlf.inc id o ho
    have := hdur t ht
    rw [hst, hti] at this
    exact this
  · intro t ht hst
    obtain ⟨m, o, h2, h3, h4⟩ := hlt.com t ht hst
    obtain ⟨_, _, _, _, _, h5⟩ := hlf.com _ _ h3
    exact ⟨o, h4 hdup, Or.inl (by show l.committed o.m.key = some o; rw [h5]; exact h3)⟩
  · intro t ht hst
    obtain ⟨m, _, h3⟩ := hlt.inc t ht hst
    exact Or.inl (by show l.incomplete t.id ≠ none; rw [h3]; simp)

theorem reach_dur (hc : c.Ok) {s : DSt} (hr : Reach c s) (hf : PageFaultFree s) (ho : Fault.overlap ∉ s.faults) : DInv c s := by
  induction hr with
  | fresh h =>
    unfold fresh at h
    split at h
    · simp at h
    · cases h
      exact ⟨by simp, by simp, by simp, by simp, ⟨by simp [TS.new], by simp [TS.new, TS.inflight], by simp [TS.new]⟩,
        ⟨by simp [TS.new], by simp [TS.new, TS.inflight], by simp [TS.new]⟩⟩
  | @step s s' hr hs ih =>
    have hf0 : PageFaultFree s := ⟨fun h => hf.1 (faults_step hs _ h), fun h => hf.2.1 (faults_step hs _ h), fun h => hf.2.2 (faults_step hs _ h)⟩
    have hsafe := reach_safe hc hr hf0.1 hf0.2.1 hf0.2.2
    have hsafe' := reach_safe hc (hr.step hs) hf.1 hf.2.1 hf.2.2
    exact dInv_step (reach_t hr).1 (reach_t hr).2 (reach_id hr) (reach_h hr) (reach_k hr) (reach_lin hr) hsafe.N hsafe.R hsafe'.R
      (ih hf0 (fun h => ho (faults_step hs _ h))) hs ho
  | restart order hr hp hl ih => exact dInv_load (reach_t hr).1 hp hl hf.2.1

/-! ## Answered calls -/

def AckInv (s : DSt) : Prop := ∀ a ∈ s.acks, a.call < s.nextCall ∧ ∀ th ∈ s.threads, th.call ≠ a.call

theorem ackInv_step {s s' : DSt} (hL : LinInv s) (h : AckInv s) (hs : Step c s s') : AckInv s' := by
  have swap : ∀ {pre post : List Thread} {th : Thread} {pc : PC}, s.threads = pre ++ th :: post →
      ∀ a ∈ s.acks, a.call < s.nextCall ∧ ∀ x ∈ pre ++ withPc th pc :: post, x.call ≠ a.call := by
    intro pre post th pc ht a ha
    refine ⟨(h a ha).1, fun x hx => ?_⟩
    rcases mem_swap (b := th) hx with rfl | hx
    · exact (h a ha).2 th (by rw [ht]; simp)
    · exact (h a ha).2 x (ht ▸ hx)
  have snoc : ∀ {st : Nat} {pc : PC}, ∀ a ∈ s.acks, a.call < s.nextCall + 1 ∧ ∀ x ∈ s.threads ++ [⟨s.nextCall, st, pc⟩], x.call ≠ a.call := by
    intro st pc a ha
    obtain ⟨h1, h2⟩ := h a ha
    refine ⟨by omega, fun x hx => ?_⟩
    rcases mem_append.1 hx with hx | hx
    · exact h2 x hx
    · simp only [mem_singleton] at hx; subst hx; simp only; omega
  have drop : ∀ {pre post : List Thread} {th : Thread} {st sp : Nat} {r : Resp}, s.threads = pre ++ th :: post →
      ∀ a ∈ s.acks ++ [⟨th.call, st, sp, r⟩], a.call < s.nextCall ∧ ∀ x ∈ pre ++ post, x.call ≠ a.call := by
    intro pre post th st sp r ht a ha
    have hsub : ∀ x ∈ pre ++ post, x ∈ s.threads := fun x hx => by rw [ht]; simp only [mem_append, mem_cons] at hx ⊢; tauto
    rcases mem_append.1 ha with ha | ha
    · exact ⟨(h a ha).1, fun x hx => (h a ha).2 x (hsub x hx)⟩
    · simp only [mem_singleton] at ha; subst ha
      exact ⟨(hL.lt th (by rw [ht]; simp)).1, fun x hx => calls_other (ht ▸ hL.calls) hx⟩
  have now : ∀ {st sp : Nat} {r : Resp}, ∀ a ∈ s.acks ++ [⟨s.nextCall, st, sp, r⟩], a.call < s.nextCall + 1 ∧ ∀ x ∈ s.threads, x.call ≠ a.call := by
    intro st sp r a ha
    rcases mem_append.1 ha with ha | ha
    · obtain ⟨h1, h2⟩ := h a ha
      exact ⟨by omega, h2⟩
    · simp only [mem_singleton] at ha; subst ha
      exact ⟨by simp, fun x hx => by have := (hL.lt x hx).1; simp only; omega⟩
  cases hs with
  | createData key size created _ _ _ _ => exact snoc
  | createDataPanic size _ _ => exact snoc
  | createMeta junk ht _ _ _ _ _ => exact swap ht
  | createMetaPanic ht _ _ => exact swap ht
  | metaWritten ht _ => exact swap ht
  | createInsert ht _ _ => exact swap ht
  | createInsertPanic ht _ _ => exact swap ht
  | created ht _ _ => exact drop ht
  | commitClaim id ifne _ => exact snoc
  | commitRefused id _ => exact now
  | commitSeal ht _ => exact swap ht
  | commitKept ht _ _ _ => exact swap ht
  | commitPublish ht _ _ _ _ => exact swap ht
  | commitUpdate ht _ _ => exact swap ht
  | commitUpdatePanic ht _ _ => exact swap ht
  | commitDone ht _ _ => exact drop ht
  | commitReap ht _ _ => exact swap ht
  | delete k want _ _ => exact snoc
  | missing k want _ => exact now
  | inspect k want _ _ => exact now
  | reapTuple ht _ _ => exact swap ht
  | reapPanic ht _ _ => exact swap ht
  | reaped ht _ _ _ => exact drop ht
  | _ => exact h

theorem reach_ack {s : DSt} (h : Reach c s) : AckInv s := by
  induction h with
  | fresh h =>
    unfold fresh at h
    split at h
    · simp at h
    · cases h; simp [AckInv]
  | step hr hs ih => exact ackInv_step (reach_lin hr) ih hs
  | restart order hr hp hl ih =>
    obtain ⟨a0, l, _, h1, hok, rfl⟩ := load_some hl
    simp [AckInv]

/-! ## What a restart shows -/

/-- the object of a committed tuple on the device -/
theorem disk_com {s : DSt} (h : SafeInv c s) (hd : DInv c s) {b : Nat} {t : Tuple} (ht : t ∈ s.ts.disk b) (hst : t.state = .committed)
    {m : Meta} (hm : tmeta s.dev t = some m) : InUse s ⟨t.id, m⟩ := by
  obtain ⟨o, hoi, hu⟩ := hd.ec.disk b t ht hst
  obtain ⟨m', st, hn, _, _, hm', _⟩ := disk_rec h ht
  rw [hm] at hm'
  cases hm'
  have hno : NamedO s.names o := by
    rcases hu with hu | ⟨th, hth, hv⟩
    · exact h.N.com _ _ hu
    · refine h.N.thr th hth o ?_
      generalize th.pc = pc at hv
      cases pc with
      | reap o' why => cases why <;> simp_all [PC.victims, PC.objs]
      | reapTuple o' t tk why => cases why <;> simp_all [PC.victims, PC.objs]
      | _ => simp_all [PC.victims, PC.objs]
  obtain ⟨mo, hno⟩ := hno
  rw [hoi, hn] at hno
  simp only [Option.some.injEq, Prod.mk.injEq] at hno
  have : o = ⟨t.id, m⟩ := by cases o; simp_all
  rw [← this]; exact hu

theorem victim_prior {n : Nat} {s : DSt} {th : Thread} (h : ThOk n s th) {o : Obj} (hv : o ∈ th.pc.victims) :
    th.pc.key = some o.m.key ∧ th.pc.prior = some o := by
  have hm := h.map
  generalize th.pc = pc at hv hm
  cases pc with
  | commitPublished old o' ex =>
    simp only [PC.victims, Option.mem_toList] at hv
    exact ⟨by simp [PC.key, hm.2 o hv], hv⟩
  | commitTuple o' ex tk =>
    simp only [PC.victims, Option.mem_toList] at hv
    exact ⟨by simp [PC.key, hm.2 o hv], hv⟩
  | reap o' why => cases why <;> simp_all [PC.victims, PC.key, PC.prior]
  | reapTuple o' t tk why => cases why <;> simp_all [PC.victims, PC.key, PC.prior]
  | _ => simp [PC.victims] at hv

/-- after a restart each key shows what was visible before the crash, or what was visible before the one
commit or delete on that key that was not finished -/
theorem load_vis {s s' : DSt} {order : List Tuple} (hid : IdInv s) (h : SafeInv c s) (hd : DInv c s)
    (hp : order.Perm (diskTuples c.n s.ts)) (hl : load c s order = some s') (k : List Byte) :
    s'.committed k = s.committed k ∨ ∃ th ∈ s.threads, Prior s.base.1 s.lin th.call k (s'.committed k) := by
  obtain ⟨a0, l, _, h1, hok, rfl⟩ := load_some hl
  have hlf := loadFrom_all h1
  have hlt := loadTo_start h1
  have hord : ∀ t, t ∈ order ↔ ∃ b, b < c.n ∧ t ∈ s.ts.disk b := fun t => by rw [hp.mem_iff, mem_diskTuples]
  show l.committed k = s.committed k ∨ ∃ th ∈ s.threads, Prior s.base.1 s.lin th.call k (l.committed k)
  -- a durable object under the key shows
  have hshow : ∀ o : Obj, NamedO s.names o → o.m.key = k → DurO c.n s.ts o.id .committed → l.committed k ≠ none := by
    rintro o ⟨mo, hno⟩ hk ⟨b, hb, _, _, t, ht, hti, hst⟩
    obtain ⟨m, o', h2, h3, _⟩ := hlt.com t ((hord t).2 ⟨b, hb, ht⟩) hst
    obtain ⟨m', st, hn, _, _, hm', _⟩ := disk_rec h ht
    rw [h2] at hm'; cases hm'
    rw [hti, hno] at hn
    simp only [Option.some.injEq, Prod.mk.injEq] at hn
    rw [← hk, hn.2, h3]; simp
  cases hlk : l.committed k with
  | some x =>
    obtain ⟨t, ht, hst, hti, htm, hxk⟩ := hlf.com k x hlk
    obtain ⟨b, _, htb⟩ := (hord t).1 ht
    have hu := disk_com h hd htb hst htm
    have e : (⟨t.id, x.m⟩ : Obj) = x := by cases x; simp_all
    rw [e] at hu
    rcases hu with hu | ⟨th, hth, hv⟩
    · left; rw [← hxk]; exact hu.symm
    · right
      obtain ⟨e1, e2⟩ := victim_prior (hd.thr th hth) hv
      exact ⟨th, hth, by rw [← e2]; exact (hd.thr th hth).pri k (by rw [e1, hxk])⟩
  | none =>
    cases hc : s.committed k with
    | none => exact Or.inl rfl
    | some o =>
      have hok := hid.comKey k o hc
      rcases hd.com k o hc with h2 | ⟨x, hx, h2⟩
      · exact absurd hlk (hshow o (h.N.com _ _ hc) hok h2)
      · right
        have hx' := hd.thr x hx
        have key : ∀ ex : Option Obj, x.pc.key = some o.m.key → x.pc.prior = ex → (∀ e ∈ ex, e ∈ x.pc.objs ∧ e.m.key = o.m.key ∧
            DurO c.n s.ts e.id .committed) → Prior s.base.1 s.lin x.call k none := by
          intro ex h3 h4 h5
          cases ex with
          | none => rw [← h4]; exact hx'.pri k (by rw [h3, hok])
          | some e =>
            obtain ⟨h6, h7, h8⟩ := h5 e rfl
            exact absurd hlk (hshow e (h.N.thr x hx e h6) (by rw [h7, hok]) h8)
        refine ⟨x, hx, ?_⟩
        have hm := hx'.map
        have hdu := hx'.dur
        rcases h2 with ⟨old, ex, hp⟩ | ⟨ex, tk, hp⟩
        · rw [hp] at hm hdu
          exact key ex (by rw [hp]; rfl) (by rw [hp]; rfl) (fun e he => ⟨by rw [hp]; simp [PC.objs]; exact Or.inr he, hm.2 e he, hdu e he⟩)
        · rw [hp] at hm hdu
          exact key ex (by rw [hp]; rfl) (by rw [hp]; rfl) (fun e he => ⟨by rw [hp]; simp [PC.objs]; exact Or.inr he, hm.2 e he, hdu.1 e he⟩)

/-- tokens survive a restart -/
theorem load_tok {s s' : DSt} {order : List Tuple} (hid : IdInv s) (h : SafeInv c s) (hd : DInv c s)
    (hp : order.Perm (diskTuples c.n s.ts)) (hl : load c s order = some s') {id : Nat} {o : Obj} (hi : s.incomplete id = some o) :
    s'.incomplete id = some o := by
  obtain ⟨a0, l, _, h1, hok, rfl⟩ := load_some hl
  have hlt := loadTo_start h1
  show l.incomplete id = some o
  obtain ⟨b, hb, _, _, t, ht, hti, hst⟩ := hd.tok id (by rw [hi]; simp)
  obtain ⟨m, h2, h3⟩ := hlt.inc t (by rw [hp.mem_iff, mem_diskTuples]; exact ⟨b, hb, ht⟩) hst
  obtain ⟨m', st, hn, _, _, hm', _⟩ := disk_rec h ht
  rw [h2] at hm'; cases hm'
  obtain ⟨mo, hno⟩ := h.N.inc id o hi
  have hoi := hid.incKey id o hi
  rw [hoi, ← hti, hn] at hno
  simp only [Option.some.injEq, Prod.mk.injEq] at hno
  rw [hti] at h3
  rw [h3]
  cases o; simp_all

/-- no other tokens appear, except those of unanswered calls -/
theorem load_tok' {s s' : DSt} {order : List Tuple} (hid : IdInv s) (h : SafeInv c s) (hd : DInv c s)
    (hp : order.Perm (diskTuples c.n s.ts)) (hl : load c s order = some s') {id : Nat} {o : Obj} (hi : s'.incomplete id = some o) :
    s.incomplete id = some o ∨ ∃ th ∈ s.threads, OwnTok s.lin th id := by
  have hi0 := hi
  obtain ⟨a0, l, _, h1, hok, rfl⟩ := load_some hl
  obtain ⟨t, ht, hst, hti, _⟩ := (loadFrom_all h1).inc id o hi
  obtain ⟨b, _, htb⟩ := mem_diskTuples.1 (hp.mem_iff.1 ht)
  have h2 := hd.ei.disk b t htb hst
  rw [hti] at h2
  refine h2.imp_left (fun hne => ?_)
  obtain ⟨o', ho'⟩ := Option.ne_none_iff_exists'.1 hne
  have := load_tok hid h hd hp hl ho'
  rw [hi0] at this
  rw [ho', this]

end Direct
end Blobd
