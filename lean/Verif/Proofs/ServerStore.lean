import Verif.Model.Server
import Verif.Props.DirectUpload
/-! The store below the server: what one step of it can do to an upload and to its pages. -/
set_option autoImplicit false
namespace Blobd
namespace Server
open Direct Props

variable {c : SCfg}

structure Facts (c : SCfg) (s : DSt) : Prop where
  reach : Reach c s
  id : IdInv s
  H : HInv s
  K : KInv s
  L : LinInv s
  safe : SafeInv c s
  dur : DInv c s

theorem calm_facts (hc : c.Ok) {s : DSt} (h : Calm c s) : Facts c s := by
  obtain ⟨hr, hf, ho⟩ := C29_disciplined_faultless hc h
  exact ⟨hr, reach_id hr, reach_h hr, reach_k hr, reach_lin hr, reach_safe hc hr hf.1 hf.2.1 hf.2.2, reach_dur hc hr hf ho⟩

/-- what happens to the store in one step of the server -/
inductive Mv (c : SCfg) : DSt → DSt → Prop
  | stay {s} : Mv c s s
  | run {s s'} : Runs c s s' → Mv c s s'
  | restart {s s'} (order : List Tuple) : NoReplacing s → order.Perm (diskTuples c.n s.ts) → load c s order = some s' → Mv c s s'

theorem Mv.calm {s s' : DSt} (h : Mv c s s') (hs : Calm c s) : Calm c s' := by
  cases h with
  | stay => exact hs
  | run h => exact .step hs h.step h.polite
  | restart order h1 h2 h3 => exact .restart order hs h1 h2 h3

theorem Mv.names {s s' : DSt} (h : Mv c s s') {id : Nat} (hn : s.names id ≠ none) : s'.names id = s.names id := by
  cases h with
  | stay => rfl
  | run h => exact names_stay h.step hn
  | restart order h1 h2 h3 => obtain ⟨a0, l, _, _, _, rfl⟩ := load_some h3; rfl

theorem Mv.past {s s' : DSt} (h : Mv c s s') {id : Nat} (hp : Past s id) : Past s' id := by
  cases h with
  | stay => exact hp
  | run h => exact past_step hp h.step
  | restart order h1 h2 h3 => exact past_load hp h3

theorem Mv.tok {s s' : DSt} (h : Mv c s s') (hf : Facts c s) {id : Nat} (hp : Past s id) (ht : TokOk s' id) : TokOk s id := by
  cases h with
  | stay => exact ht
  | run h => exact tok_back hp h.step ht
  | restart order h1 h2 h3 => exact tok_back_load hf.id hf.safe hf.dur h2 h3 ht

theorem vict_swap {s : DSt} {o : Obj} {pre post : List Thread} {th : Thread} {pc : PC} (ht : s.threads = pre ++ th :: post)
    (hv : ∀ o ∈ pc.victims, InUse s o) (h : ∃ x ∈ pre ++ withPc th pc :: post, o ∈ x.pc.victims) : InUse s o := by
  obtain ⟨x, hx, ho⟩ := h
  rcases mem_swap (b := th) hx with rfl | hx
  · exact hv o ho
  · exact Or.inr ⟨x, ht ▸ hx, ho⟩

theorem vict_drop {s : DSt} {o : Obj} {pre post : List Thread} {th : Thread} (ht : s.threads = pre ++ th :: post)
    (h : ∃ x ∈ pre ++ post, o ∈ x.pc.victims) : InUse s o := by
  obtain ⟨x, hx, ho⟩ := h
  refine Or.inr ⟨x, ?_, ho⟩
  rw [ht]
  simp only [List.mem_append, List.mem_cons] at hx ⊢
  exact hx.imp (fun h => h) Or.inr

theorem vict_snoc {s : DSt} {o : Obj} {th : Thread} (hv : ∀ o ∈ th.pc.victims, InUse s o)
    (h : ∃ x ∈ s.threads ++ [th], o ∈ x.pc.victims) : InUse s o := by
  obtain ⟨x, hx, ho⟩ := h
  simp only [List.mem_append, List.mem_singleton] at hx
  rcases hx with hx | rfl
  · exact Or.inr ⟨x, hx, ho⟩
  · exact hv o ho

/-- an object in use was in use, or is being published -/
theorem inUse_back {s s' : DSt} (hf : Facts c s) (hs : Step c s s') {o : Obj} (h : InUse s' o) :
    InUse s o ∨ ∃ call old ifne, s'.lin = s.lin ++ [(call, .published old o.id o.m ifne)] := by
  have hown : ∀ {pre post th pc}, s.threads = pre ++ th :: post → (∀ o ∈ PC.victims pc, o ∈ th.pc.victims) → ∀ o ∈ pc.victims, InUse s o :=
    fun ht hv o ho => Or.inr ⟨_, by rw [ht]; simp, hv o ho⟩
  cases hs with
  | @commitPublish pre th post o' ifne newId ht hp h1 h2 hn =>
    rcases h with h | h
    · simp only [updKey] at h
      split at h
      · simp only [Option.some.injEq] at h
        subst h
        exact Or.inr ⟨th.call, o'.id, ifne, rfl⟩
      · exact Or.inl (Or.inl h)
    · refine Or.inl (vict_swap ht ?_ h)
      intro o ho
      simp only [PC.victims, Option.mem_toList] at ho
      exact Or.inl (by rw [hf.id.comKey _ _ ho]; exact ho)
  | @delete o' k want h1 h2 =>
    rcases h with h | h
    · simp only [updKey] at h
      split at h
      · cases h
      · exact Or.inl (Or.inl h)
    · refine Or.inl (vict_snoc ?_ h)
      intro o ho
      simp only [PC.victims, List.mem_singleton] at ho
      subst ho
      exact Or.inl (by rw [hf.id.comKey _ _ h1]; exact h1)
  | createData key size created h1 h2 h3 h4 => exact Or.inl (h.elim Or.inl (vict_snoc (by simp [PC.victims])))
  | createDataPanic size h1 h2 => exact Or.inl (h.elim Or.inl (vict_snoc (by simp [PC.victims])))
  | createMeta junk ht hp hl ha hn hj => exact Or.inl (h.elim Or.inl (vict_swap ht (by simp [PC.victims])))
  | createMetaPanic ht hp ha => exact Or.inl (h.elim Or.inl (vict_swap ht (by simp [PC.victims])))
  | device dev' hd => exact Or.inl h
  | metaWritten ht hp => exact Or.inl (h.elim Or.inl (vict_swap ht (by simp [PC.victims])))
  | createInsert ht hp hi => exact Or.inl (h.elim Or.inl (vict_swap ht (by simp [PC.victims])))
  | createInsertPanic ht hp hi => exact Or.inl (h.elim Or.inl (vict_swap ht (by simp [PC.victims])))
  | created ht hp hf => exact Or.inl (h.elim Or.inl (vict_drop ht))
  | openHandle id hi => exact Or.inl h
  | writeStart data h1 h2 h3 h4 => exact Or.inl h
  | writeDone ht => exact Or.inl h
  | writeCancel ht => exact Or.inl h
  | orphanDone ht => exact Or.inl h
  | commitClaim id ifne hi => exact Or.inl (h.elim Or.inl (vict_snoc (by simp [PC.victims])))
  | commitRefused id hi => exact Or.inl h
  | commitSeal ht hp => exact Or.inl (h.elim Or.inl (vict_swap ht (by simp [PC.victims])))
  | commitKept ht hp h1 h2 => exact Or.inl (h.elim Or.inl (vict_swap ht (by simp [PC.victims])))
  | commitUpdate ht hp hu => exact Or.inl (h.elim Or.inl (vict_swap ht (hown ht (by rw [hp]; simp [PC.victims]))))
  | commitUpdatePanic ht hp hu => exact Or.inl (h.elim Or.inl (vict_swap ht (by simp [PC.victims])))
  | commitDone ht hp hf => exact Or.inl (h.elim Or.inl (vict_drop ht))
  | commitReap ht hp hf => exact Or.inl (h.elim Or.inl (vict_swap ht (hown ht (by rw [hp]; simp [PC.victims]))))
  | missing k want h1 => exact Or.inl h
  | inspect k want h1 h2 => exact Or.inl h
  | @reapTuple pre th post o why ts' t ht hp hd =>
    exact Or.inl (h.elim Or.inl (vict_swap ht (hown ht (by rw [hp]; cases why <;> simp [PC.victims]))))
  | reapPanic ht hp hd => exact Or.inl (h.elim Or.inl (vict_swap ht (by simp [PC.victims])))
  | reaped ht hp hf ha => exact Or.inl (h.elim Or.inl (vict_drop ht))
  | bg hb => exact Or.inl h

theorem inUse_load {s s' : DSt} (hf : Facts c s) {order : List Tuple} (hp : order.Perm (diskTuples c.n s.ts)) (hl : load c s order = some s')
    {o : Obj} (h : InUse s' o) : InUse s o := by
  obtain ⟨a0, l, _, h1, hok, rfl⟩ := load_some hl
  rcases h with h | ⟨th, hth, _⟩
  · obtain ⟨t, ht, hst, hti, hm, _⟩ := (loadFrom_all h1).com _ o h
    obtain ⟨b, _, htb⟩ := mem_diskTuples.1 (hp.mem_iff.1 ht)
    have := disk_com hf.safe hf.dur htb hst hm
    rw [hti] at this
    exact this
  · cases hth

/-- a new effect of publishing: the thread, and the name of the object -/
theorem publish_inv {s s' : DSt} (hs : Step c s s') {call old new : Nat} {m : Meta} {ifne : Bool}
    (h : s'.lin = s.lin ++ [(call, .published old new m ifne)]) :
    s.names new = none ∧ s'.names new = s.names old ∧
      ∃ th ∈ s.threads, ∃ o, th.pc = .commitSealed o ifne ∧ o.id = old ∧ o.m = m := by
  cases hs with
  | @commitPublish pre th post o ifne' newId ht hp h1 h2 hn =>
    simp only [List.append_cancel_left_eq, List.cons.injEq, Prod.mk.injEq, Ev.published.injEq, and_true] at h
    obtain ⟨_, rfl, rfl, rfl, rfl⟩ := h
    exact ⟨hn, by simp [upd], th, ht ▸ mem_mid, o, hp, rfl, rfl⟩
  | _ => simp at h

theorem created_inv {s s' : DSt} (hs : Step c s s') {call id : Nat} {m : Meta} (h : s'.lin = s.lin ++ [(call, .created id m)]) :
    (∃ th ∈ s.threads, ∃ tk, th.pc = .createTuple ⟨id, m⟩ tk) ∧ s'.incomplete id = some ⟨id, m⟩ ∧ s'.names = s.names := by
  cases hs with
  | @created pre th post o tk ht hp hf =>
    simp only [List.append_cancel_left_eq, List.cons.injEq, Prod.mk.injEq, Ev.created.injEq, and_true] at h
    obtain ⟨_, rfl, rfl⟩ := h
    exact ⟨⟨th, ht ▸ mem_mid, tk, hp⟩, by simp [upd], rfl⟩
  | _ => simp at h

/-- a call that holds an upload for committing -/
def Holds (s : DSt) (o : Obj) : Prop := ∃ th ∈ s.threads, ∃ ifne, th.pc = .commitClaimed o ifne ∨ th.pc = .commitSealed o ifne

theorem holds_swap {s : DSt} {o : Obj} {pre post : List Thread} {th : Thread} {pc : PC} (ht : s.threads = pre ++ th :: post)
    (hv : (∃ ifne, pc = .commitClaimed o ifne ∨ pc = .commitSealed o ifne) → Holds s o)
    (h : ∃ x ∈ pre ++ withPc th pc :: post, ∃ ifne, x.pc = .commitClaimed o ifne ∨ x.pc = .commitSealed o ifne) : Holds s o := by
  obtain ⟨x, hx, ho⟩ := h
  rcases mem_swap (b := th) hx with rfl | hx
  · exact hv ho
  · exact ⟨x, ht ▸ hx, ho⟩

theorem holds_drop {s : DSt} {o : Obj} {pre post : List Thread} {th : Thread} (ht : s.threads = pre ++ th :: post)
    (h : ∃ x ∈ pre ++ post, ∃ ifne, x.pc = .commitClaimed o ifne ∨ x.pc = .commitSealed o ifne) : Holds s o := by
  obtain ⟨x, hx, ho⟩ := h
  refine ⟨x, ?_, ho⟩
  rw [ht]
  simp only [List.mem_append, List.mem_cons] at hx ⊢
  exact hx.imp (fun h => h) Or.inr

theorem holds_snoc {s : DSt} {o : Obj} {th : Thread} (hv : ¬ ∃ ifne, th.pc = .commitClaimed o ifne ∨ th.pc = .commitSealed o ifne)
    (h : ∃ x ∈ s.threads ++ [th], ∃ ifne, x.pc = .commitClaimed o ifne ∨ x.pc = .commitSealed o ifne) : Holds s o := by
  obtain ⟨x, hx, ho⟩ := h
  simp only [List.mem_append, List.mem_singleton] at hx
  rcases hx with hx | rfl
  · exact ⟨x, hx, ho⟩
  · exact absurd ho hv

theorem holds_back {s s' : DSt} (hf : Facts c s) (hs : Step c s s') {o : Obj} (h : Holds s' o) :
    Holds s o ∨ ∃ call, s'.lin = s.lin ++ [(call, .claimed o.id o.m)] := by
  unfold Holds at h
  cases hs with
  | @commitClaim o' id ifne hi =>
    obtain ⟨x, hx, ho⟩ := h
    simp only [List.mem_append, List.mem_singleton] at hx
    rcases hx with hx | rfl
    · exact Or.inl ⟨x, hx, ho⟩
    · obtain ⟨i, ho⟩ := ho
      simp only [PC.commitClaimed.injEq, reduceCtorEq, or_false] at ho
      rw [← ho.1]
      exact Or.inr ⟨s.nextCall, by rw [hf.id.incKey _ _ hi]⟩
  | @commitSeal pre th post o' ifne ht hp =>
    refine Or.inl (holds_swap ht ?_ h)
    rintro ⟨i, ho⟩
    simp only [PC.commitSealed.injEq, reduceCtorEq, false_or] at ho
    exact ⟨th, ht ▸ mem_mid, ifne, Or.inl (by rw [hp, ho.1])⟩
  | commitPublish ht hp h1 h2 hn => exact Or.inl (holds_swap ht (by simp) h)
  | delete k want h1 h2 => exact Or.inl (holds_snoc (by simp) h)
  | createData key size created h1 h2 h3 h4 => exact Or.inl (holds_snoc (by simp) h)
  | createDataPanic size h1 h2 => exact Or.inl (holds_snoc (by simp) h)
  | createMeta junk ht hp hl ha hn hj => exact Or.inl (holds_swap ht (by simp) h)
  | createMetaPanic ht hp ha => exact Or.inl (holds_swap ht (by simp) h)
  | device dev' hd => exact Or.inl h
  | metaWritten ht hp => exact Or.inl (holds_swap ht (by simp) h)
  | createInsert ht hp hi => exact Or.inl (holds_swap ht (by simp) h)
  | createInsertPanic ht hp hi => exact Or.inl (holds_swap ht (by simp) h)
  | created ht hp hf => exact Or.inl (holds_drop ht h)
  | openHandle id hi => exact Or.inl h
  | writeStart data h1 h2 h3 h4 => exact Or.inl h
  | writeDone ht => exact Or.inl h
  | writeCancel ht => exact Or.inl h
  | orphanDone ht => exact Or.inl h
  | commitRefused id hi => exact Or.inl h
  | commitKept ht hp h1 h2 => exact Or.inl (holds_swap ht (by simp) h)
  | commitUpdate ht hp hu => exact Or.inl (holds_swap ht (by simp) h)
  | commitUpdatePanic ht hp hu => exact Or.inl (holds_swap ht (by simp) h)
  | commitDone ht hp hf => exact Or.inl (holds_drop ht h)
  | commitReap ht hp hf => exact Or.inl (holds_swap ht (by simp) h)
  | missing k want h1 => exact Or.inl h
  | inspect k want h1 h2 => exact Or.inl h
  | reapTuple ht hp hd => exact Or.inl (holds_swap ht (by simp) h)
  | reapPanic ht hp hd => exact Or.inl (holds_swap ht (by simp) h)
  | reaped ht hp hf ha => exact Or.inl (holds_drop ht h)
  | bg hb => exact Or.inl h

/-- no metadata page is written over a page of a living upload, and a device write over one is a write of this upload to
this page -/
theorem tok_owner {s : DSt} (hf : Facts c s) {id mo : Nat} {m : Meta} (hn : s.names id = some (mo, m)) (ht : TokOk s id)
    {off p x : Nat} (hp : (off, p) ∈ m.dataPages c.pages) (h1 : off ≤ x) (h2 : x < off + 2 ^ p) :
    (∀ th ∈ s.threads, ∀ o t page, th.pc = .createMeta o t page → t.metaOff ≤ x → x < t.metaOff + page.length → False) ∧
    ∀ w ∈ s.writers, w.off ≤ x → x < w.off + w.data.length → w.id = id ∧ w.off = off := by
  have h := hf.safe
  obtain ⟨mo', mp, st, hst, hr, huniq⟩ := tok_rec hf.H hf.K hf.L h hf.dur hn ht
  have hpg : (off, p) ∈ regs c ⟨mo', mp, m, st⟩ := by simp [regs, objPages, hp]
  constructor
  · intro th hth o t page hpc g1 g2
    have hR' := h.R.thr th hth
    have hV' := h.V.thr th hth
    rw [hpc] at hR' hV'
    have := h.A.recs_disj hr hR'.2 hpg (a' := (t.metaOff, t.metaPow2)) (by simp [regs, objPages])
      (Or.inl (fun e => hst (by simp only [Rec.mk.injEq] at e; exact e.2.2.2)))
    rw [hV'.1] at g2
    unfold Spec.PageDisj at this
    simp only at this
    omega
  · intro w hw g1 g2
    obtain ⟨hh, o, q, hno, ho, hq, hl⟩ := h.W.wr w hw
    obtain ⟨b, t, htb, hti, hts, hr2⟩ := held_tup hf.K h.R hno (ho ▸ hh)
    have he : t.metaOff = mo' := by
      by_contra hne
      have := h.A.recs_disj hr hr2 hpg (a' := (w.off, q)) (by simp [regs, objPages, hq])
        (Or.inl (fun e => hne (by simp only [Rec.mk.injEq] at e; exact e.1.symm)))
      unfold Spec.PageDisj at this
      simp only at this
      omega
    have hid := huniq b t htb hts (by rw [hti, ho]; exact hh) he
    have hwi : w.id = id := by rw [← ho, ← hti, hid]
    refine ⟨hwi, ?_⟩
    have hm : o.m = m := by
      obtain ⟨mo3, hn3⟩ := hno
      rw [ho, hwi, hn] at hn3
      simp only [Option.some.injEq, Prod.mk.injEq] at hn3
      exact hn3.2.symm
    rw [hm] at hq
    by_contra hne
    have hpg3 : (w.off, q) ∈ regs c ⟨mo', mp, m, st⟩ := by simp [regs, objPages, hq]
    have := h.A.recs_disj hr hr hpg (a' := (w.off, q)) hpg3 (Or.inr (fun e => hne (by simp only [Prod.mk.injEq] at e; exact e.1.symm)))
    unfold Spec.PageDisj at this
    simp only at this
    omega

/-- the pages of an upload that is being written have different places -/
theorem held_places {s : DSt} (hf : Facts c s) {o : Obj} (hn : NamedO s.names o) (hh : Held s o.id) :
    ((o.m.dataPages c.pages).map (·.1)).Nodup := by
  obtain ⟨mo, mp, b, hr⟩ := held_rec hf.K hf.safe.R hn hh
  have h1 := hf.safe.A.disj
  have h2 := (List.pairwise_flatMap.1 h1).1 _ hr
  have h3 : (o.m.dataPages c.pages).Pairwise Spec.PageDisj := by
    simp only [regs, objPages] at h2
    exact (List.pairwise_cons.1 h2).2
  rw [List.Nodup, List.pairwise_map]
  refine h3.imp ?_
  intro a b hab he
  unfold Spec.PageDisj at hab
  have := Nat.two_pow_pos a.2
  have := Nat.two_pow_pos b.2
  omega

end Server
end Blobd
