import Verif.Proofs.DirectSafe
/-! Page safety of the direct store, part 2: writers and the bytes on the device. -/
namespace Blobd
namespace Direct
open List

variable {c : SCfg}

/-! ## Writers -/

/-- ids of incomplete objects that a commit has taken but not yet published -/
def PC.tok : PC → List Nat
  | .commitClaimed o _ => [o.id]
  | .commitSealed o _ => [o.id]
  | _ => []

def PC.clm : PC → List Nat
  | .commitClaimed o _ => [o.id]
  | _ => []

def Held (s : DSt) (id : Nat) : Prop := s.incomplete id ≠ none ∨ id ∈ s.threads.flatMap (fun th => th.pc.tok)

structure WInv (c : SCfg) (s : DSt) : Prop where
  han : ∀ o ∈ s.handles, o.id ∈ s.sealed ∨ s.incomplete o.id ≠ none ∨ o.id ∈ s.threads.flatMap (fun th => th.pc.clm)
  wr : ∀ w ∈ s.writers, Held s w.id ∧ ∃ o p, NamedO s.names o ∧ o.id = w.id ∧ (w.off, p) ∈ o.m.dataPages c.pages ∧ w.data.length ≤ 2 ^ p
  orp : s.orphans = []

theorem WInv.next {s s' : DSt} (h : WInv c s) (hh : s'.handles = s.handles) (hse : ∀ id ∈ s.sealed, id ∈ s'.sealed)
    (hw : ∀ w ∈ s'.writers, w ∈ s.writers) (ho : s'.orphans = s.orphans)
    (hn : ∀ id x, s.names id = some x → s'.names id = some x)
    (hc : ∀ id, s.incomplete id ≠ none ∨ id ∈ s.threads.flatMap (fun th => th.pc.clm) →
      id ∈ s'.sealed ∨ s'.incomplete id ≠ none ∨ id ∈ s'.threads.flatMap (fun th => th.pc.clm))
    (ht : ∀ w ∈ s.writers, Held s w.id → Held s' w.id) : WInv c s' := by
  refine ⟨?_, ?_, by rw [ho]; exact h.orp⟩
  · rw [hh]
    intro o ho'
    rcases h.han o ho' with h1 | h1
    · exact Or.inl (hse _ h1)
    · exact hc _ h1
  · intro w hw'
    obtain ⟨h1, o, p, ⟨mo, h2⟩, h3⟩ := h.wr w (hw w hw')
    exact ⟨ht w (hw w hw') h1, o, p, ⟨mo, hn _ _ h2⟩, h3⟩

/-- threads change from `th` to `pc` where neither is a commit before publishing -/
theorem fm_same {β : Type} {f : Thread → List β} {pre post : List Thread} {th th' : Thread} (h : f th' = f th) :
    (pre ++ th' :: post).flatMap f = (pre ++ th :: post).flatMap f := by
  simp [flatMap_append, flatMap_cons, h]

theorem fm_del {β : Type} {f : Thread → List β} {pre post : List Thread} {th : Thread} (h : f th = []) :
    (pre ++ post).flatMap f = (pre ++ th :: post).flatMap f := by
  simp [flatMap_append, flatMap_cons, h]

theorem WInv.keep {s s' : DSt} (h : WInv c s) (hh : s'.handles = s.handles) (hse : s'.sealed = s.sealed)
    (hw : s'.writers = s.writers) (ho : s'.orphans = s.orphans) (hn : s'.names = s.names) (hi : s'.incomplete = s.incomplete)
    (h1 : s'.threads.flatMap (fun th => th.pc.clm) = s.threads.flatMap (fun th => th.pc.clm))
    (h2 : s'.threads.flatMap (fun th => th.pc.tok) = s.threads.flatMap (fun th => th.pc.tok)) : WInv c s' := by
  refine h.next hh (by rw [hse]; exact fun _ h => h) (by rw [hw]; exact fun _ h => h) ho (by rw [hn]; exact fun _ _ h => h) ?_ ?_
  · rw [hi, h1]; exact fun _ h => Or.inr h
  · intro w _; unfold Held; rw [hi, h2]; exact fun h => h

theorem WInv.swap {s s' : DSt} (h : WInv c s) {pre post : List Thread} {th : Thread} {pc : PC}
    (ht : s.threads = pre ++ th :: post) (ht' : s'.threads = pre ++ withPc th pc :: post)
    (hh : s'.handles = s.handles) (hse : s'.sealed = s.sealed)
    (hw : s'.writers = s.writers) (ho : s'.orphans = s.orphans) (hn : s'.names = s.names) (hi : s'.incomplete = s.incomplete)
    (h1 : pc.clm = th.pc.clm) (h2 : pc.tok = th.pc.tok) : WInv c s' := by
  refine h.keep hh hse hw ho hn hi ?_ ?_
  · rw [ht, ht']; exact fm_same (f := fun th => th.pc.clm) h1
  · rw [ht, ht']; exact fm_same (f := fun th => th.pc.tok) h2

theorem WInv.drop {s s' : DSt} (h : WInv c s) {pre post : List Thread} {th : Thread}
    (ht : s.threads = pre ++ th :: post) (ht' : s'.threads = pre ++ post)
    (hh : s'.handles = s.handles) (hse : s'.sealed = s.sealed)
    (hw : s'.writers = s.writers) (ho : s'.orphans = s.orphans) (hn : s'.names = s.names) (hi : s'.incomplete = s.incomplete)
    (h1 : th.pc.clm = []) (h2 : th.pc.tok = []) : WInv c s' := by
  refine h.keep hh hse hw ho hn hi ?_ ?_
  · rw [ht, ht']; exact fm_del (f := fun th => th.pc.clm) h1
  · rw [ht, ht']; exact fm_del (f := fun th => th.pc.tok) h2

theorem WInv.snoc {s s' : DSt} (h : WInv c s) {th : Thread} (ht' : s'.threads = s.threads ++ [th])
    (hh : s'.handles = s.handles) (hse : s'.sealed = s.sealed)
    (hw : s'.writers = s.writers) (ho : s'.orphans = s.orphans) (hn : s'.names = s.names) (hi : s'.incomplete = s.incomplete)
    (h1 : th.pc.clm = []) (h2 : th.pc.tok = []) : WInv c s' := by
  refine h.keep hh hse hw ho hn hi ?_ ?_
  · rw [ht', fm_snoc', h1, append_nil]
  · rw [ht', fm_snoc', h2, append_nil]

theorem wInv_step {s s' : DSt} (hid : IdInv s) (hN : NInv s) (h : WInv c s) (hs : Step c s s')
    (hf : .writeCancelled ∉ s'.faults) : WInv c s' := by
  cases hs with
  | createData key size created h1 h2 h3 h4 => exact h.snoc rfl rfl rfl rfl rfl rfl rfl rfl rfl
  | createDataPanic size h1 h2 => exact h.snoc rfl rfl rfl rfl rfl rfl rfl rfl rfl
  | @createMeta pre th post m mo a' id junk ht hp hl ha hn hj =>
    have e1 : (pre ++ withPc th (.createMeta ⟨id, m⟩
          ⟨.incomplete, id, mo, MetaPage.directRecorded c.pages m.enc.length⟩ (m.enc ++ junk)) :: post).flatMap (fun th => th.pc.clm) =
          s.threads.flatMap (fun th => th.pc.clm) := by
      rw [ht]; exact fm_same (f := fun th => th.pc.clm) (by simp [hp, withPc, PC.clm])
    have e2 : (pre ++ withPc th (.createMeta ⟨id, m⟩
          ⟨.incomplete, id, mo, MetaPage.directRecorded c.pages m.enc.length⟩ (m.enc ++ junk)) :: post).flatMap (fun th => th.pc.tok) =
          s.threads.flatMap (fun th => th.pc.tok) := by
      rw [ht]; exact fm_same (f := fun th => th.pc.tok) (by simp [hp, withPc, PC.tok])
    refine h.next rfl (fun _ h => h) (fun _ h => h) rfl (fun id' x hx => names_ext hn hx) ?_ ?_
    · intro id' hh; exact Or.inr (by rw [e1]; exact hh)
    · intro w _ hh; unfold Held at hh ⊢; rw [e2]; exact hh
  | createMetaPanic ht hp ha => exact h.swap ht rfl rfl rfl rfl rfl rfl rfl (by rw [hp]; rfl) (by rw [hp]; rfl)
  | device d hd => exact h.keep rfl rfl rfl rfl rfl rfl rfl rfl
  | metaWritten ht hp => exact h.swap ht rfl rfl rfl rfl rfl rfl rfl (by rw [hp]; rfl) (by rw [hp]; rfl)
  | createInsert ht hp hi => exact h.swap ht rfl rfl rfl rfl rfl rfl rfl (by rw [hp]; rfl) (by rw [hp]; rfl)
  | createInsertPanic ht hp hi => exact h.swap ht rfl rfl rfl rfl rfl rfl rfl (by rw [hp]; rfl) (by rw [hp]; rfl)
  | @created pre th post o ticket ht hp hft =>
    have hne : ∀ id, s.incomplete id ≠ none → upd s.incomplete o.id (some o) id ≠ none := fun id h => upd_ne_none h (by simp)
    refine h.next rfl (fun _ h => h) (fun _ h => h) rfl (fun _ _ h => h) ?_ ?_
    · intro id hh
      refine Or.inr (hh.imp (hne id) ?_)
      rw [ht]
      rw [← fm_del (f := fun th => th.pc.clm) (by simp [hp, PC.clm])]
      exact fun h => h
    · intro w _ hh
      refine hh.imp (hne _) ?_
      rw [ht]
      rw [← fm_del (f := fun th => th.pc.tok) (by simp [hp, PC.tok])]
      exact fun h => h
  | @openHandle o id ho =>
    refine ⟨?_, h.wr, h.orp⟩
    intro o' ho'
    rcases mem_cons.1 ho' with rfl | ho'
    · exact Or.inr (Or.inl (by rw [hid.incKey id o' ho, ho]; simp))
    · exact h.han o' ho'
  | @writeStart o off p data h1 h2 h3 h4 =>
    refine ⟨h.han, ?_, h.orp⟩
    intro w hw
    rcases mem_append.1 hw with hw | hw
    · exact h.wr w hw
    · cases mem_singleton.1 hw
      refine ⟨?_, o, p, hN.han o h1, rfl, h3, h4⟩
      refine ((h.han o h1).resolve_left h2).imp id ?_
      intro hm
      obtain ⟨th, hth, hx⟩ := mem_flatMap.1 hm
      refine mem_flatMap.2 ⟨th, hth, ?_⟩
      generalize th.pc = pc at hx
      cases pc <;> simp_all [PC.clm, PC.tok]
  | @writeDone pre w post hw =>
    refine h.next rfl (fun _ h => h) ?_ rfl (fun _ _ h => h) (fun _ h => Or.inr h) (fun _ _ h => h)
    intro x hx
    rw [hw]
    rcases mem_append.1 hx with h | h <;> simp [h]
  | writeCancel hw => simp at hf
  | @orphanDone pre w post hw =>
    have := h.orp
    rw [hw] at this
    simp at this
  | @commitClaim o id ifne ho =>
    have hoid : o.id = id := hid.incKey id o ho
    have key : ∀ id', s.incomplete id' ≠ none → upd s.incomplete id none id' ≠ none ∨ id' = o.id := by
      intro id' h'
      by_cases he : id' = id
      · exact Or.inr (he.trans hoid.symm)
      · exact Or.inl (by rw [upd_ne he]; exact h')
    refine h.next rfl (fun _ h => h) (fun _ h => h) rfl (fun _ _ h => h) ?_ ?_
    · intro id' hh
      refine Or.inr ?_
      simp only [fm_snoc', PC.clm, mem_append, mem_singleton]
      rcases hh with hh | hh
      · exact (key id' hh).imp (fun h => h) Or.inr
      · exact Or.inr (Or.inl hh)
    · intro w _ hh
      unfold Held at hh ⊢
      simp only [fm_snoc', PC.tok, mem_append, mem_singleton]
      rcases hh with hh | hh
      · exact (key _ hh).imp (fun h => h) Or.inr
      · exact Or.inr (Or.inl hh)
  | commitRefused id ho => exact h.keep rfl rfl rfl rfl rfl rfl rfl rfl
  | @commitSeal pre th post o ifne ht hp =>
    refine h.next rfl (fun _ h => mem_cons_of_mem _ h) (fun _ h => h) rfl (fun _ _ h => h) ?_ ?_
    · intro id' hh
      rcases hh with hh | hh
      · exact Or.inr (Or.inl hh)
      · rw [ht] at hh
        rcases fm_mem_swap hh with hh | hh
        · simp only [hp, PC.clm, mem_singleton] at hh
          exact Or.inl (by simp [hh])
        · exact Or.inr (Or.inr (fm_drop.subset hh))
    · intro w _ hh
      unfold Held at hh ⊢
      have : (pre ++ withPc th (.commitSealed o ifne) :: post).flatMap (fun th => th.pc.tok) = s.threads.flatMap (fun th => th.pc.tok) := by
        rw [ht]; exact fm_same (f := fun th => th.pc.tok) (by simp [hp, withPc, PC.tok])
      rw [this]; exact hh
  | @commitKept pre th post o ht hp hw hc =>
    refine h.next rfl (fun _ h => h) (fun _ h => h) rfl (fun _ _ h => h) ?_ ?_
    · intro id' hh
      refine Or.inr (hh.imp (fun h => h) ?_)
      rw [ht]
      intro hh
      rcases fm_mem_swap hh with hh | hh
      · simp [hp, PC.clm] at hh
      · exact fm_drop.subset hh
    · intro w hww hh
      refine hh.imp (fun h => h) ?_
      rw [ht]
      intro hh
      rcases fm_mem_swap hh with hh | hh
      · simp only [hp, PC.tok, mem_singleton] at hh
        exact absurd hh (hw w hww)
      · exact fm_drop.subset hh
  | @commitPublish pre th post o ifne newId ht hp hw hc hn =>
    refine h.next rfl (fun _ h => h) (fun _ h => h) rfl (fun id' x hx => names_ext hn hx) ?_ ?_
    · intro id' hh
      refine Or.inr (hh.imp (fun h => h) ?_)
      rw [ht]
      intro hh
      rcases fm_mem_swap hh with hh | hh
      · simp [hp, PC.clm] at hh
      · exact fm_drop.subset hh
    · intro w hww hh
      refine hh.imp (fun h => h) ?_
      rw [ht]
      intro hh
      rcases fm_mem_swap hh with hh | hh
      · simp only [hp, PC.tok, mem_singleton] at hh
        exact absurd hh (hw w hww)
      · exact fm_drop.subset hh
  | commitUpdate ht hp hu => exact h.swap ht rfl rfl rfl rfl rfl rfl rfl (by rw [hp]; rfl) (by rw [hp]; rfl)
  | commitUpdatePanic ht hp hu => exact h.swap ht rfl rfl rfl rfl rfl rfl rfl (by rw [hp]; rfl) (by rw [hp]; rfl)
  | commitDone ht hp hf => exact h.drop ht rfl rfl rfl rfl rfl rfl rfl (by rw [hp]; rfl) (by rw [hp]; rfl)
  | commitReap ht hp hf => exact h.swap ht rfl rfl rfl rfl rfl rfl rfl (by rw [hp]; rfl) (by rw [hp]; rfl)
  | delete k want ho hw => exact h.snoc rfl rfl rfl rfl rfl rfl rfl rfl rfl
  | missing k want hm => exact h.keep rfl rfl rfl rfl rfl rfl rfl rfl
  | inspect k want ho hw => exact h.keep rfl rfl rfl rfl rfl rfl rfl rfl
  | reapTuple ht hp hd => exact h.swap ht rfl rfl rfl rfl rfl rfl rfl (by rw [hp]; rfl) (by rw [hp]; rfl)
  | reapPanic ht hp hd => exact h.swap ht rfl rfl rfl rfl rfl rfl rfl (by rw [hp]; rfl) (by rw [hp]; rfl)
  | reaped ht hp hf ha => exact h.drop ht rfl rfl rfl rfl rfl rfl rfl (by rw [hp]; rfl) (by rw [hp]; rfl)
  | bg hb => exact h.keep rfl rfl rfl rfl rfl rfl rfl rfl

/-- a token that can still be written has a live record -/
theorem held_rec {s : DSt} (hKI : KInv s) (hR : RInv c s) {o : Obj} (hn : NamedO s.names o) (hh : Held s o.id) :
    ∃ mo mp b, ⟨mo, mp, o.m, .live b⟩ ∈ s.recs := by
  have : HasTuple s.ts o.id .incomplete := by
    rcases hh with hh | hh
    · exact hKI.tki _ hh
    · refine hKI.tk _ ?_
      obtain ⟨th, hth, hx⟩ := mem_flatMap.1 hh
      refine mem_flatMap.2 ⟨th, hth, ?_⟩
      generalize th.pc = pc at hx
      cases pc <;> simp_all [PC.tok, PC.tmem]
  obtain ⟨b, t, ht, hti, _⟩ := this
  obtain ⟨m, h1, h2⟩ := (hR.mem b).tup t ht
  obtain ⟨mo, h3⟩ := hn
  rw [← hti, h1] at h3
  simp only [Option.some.injEq, Prod.mk.injEq] at h3
  rw [← h3.2]
  exact ⟨_, _, b, h2.resolve_right (by simp)⟩

/-! ## Bytes -/

def VTh (dev : Mem) : PC → Prop
  | .createMeta o t page => page.length = 2 ^ t.metaPow2 ∧ Meta.dec page = some o.m
  | .createInsert o t => Meta.dec (dev.read t.metaOff (2 ^ t.metaPow2)) = some o.m
  | _ => True

structure VInv (s : DSt) : Prop where
  dev : ∀ r ∈ s.recs, r.st ≠ .fresh → Meta.dec (s.dev.read r.mo (2 ^ r.mp)) = some r.m
  thr : ∀ th ∈ s.threads, VTh s.dev th.pc

theorem hold_uniq {s : DSt} (hR : RInv c s) {x y : Thread} (hx : x ∈ s.threads) (hy : y ∈ s.threads) {mo : Nat}
    (h1 : mo ∈ x.pc.hold) (h2 : mo ∈ y.pc.hold) : x = y := by
  by_contra hne
  have h3 := (nodup_flatMap.1 hR.hold).2
  have : Std.Symm (Function.onFun List.Disjoint (fun th : Thread => th.pc.hold)) := ⟨fun _ _ h => h.symm⟩
  exact h3.forall hx hy hne h1 h2

/-- writes in flight do not touch the metadata page of a record that is not being written -/
theorem target_off {s : DSt} (hKI : KInv s) (hR : RInv c s) (hA : AInv c s) (hW : WInv c s) (hV : VInv s) {r : Rec} (hr : r ∈ s.recs)
    (hm : ∀ th ∈ s.threads, ∀ o t page, th.pc = .createMeta o t page → t.metaOff ≠ r.mo) {x : Nat} (hx : DevTarget s x) :
    ¬ (r.mo ≤ x ∧ x < r.mo + 2 ^ r.mp) := by
  rintro ⟨hx1, hx2⟩
  rcases hx with ⟨th, hth, o, t, page, hpc, h1, h2⟩ | ⟨w, hw, h1, h2⟩
  · have hR' := hR.thr th hth
    have hV' := hV.thr th hth
    rw [hpc] at hR' hV'
    have := hA.recs_disj hr hR'.2 (a := (r.mo, r.mp)) (a' := (t.metaOff, t.metaPow2)) (by simp [regs, objPages])
      (by simp [regs, objPages]) (Or.inl (fun e => hm th hth o t page hpc (by rw [e])))
    rw [hV'.1] at h2
    unfold Spec.PageDisj at this
    simp only at this
    omega
  · rw [hW.orp, append_nil] at hw
    obtain ⟨hh, o, p, hn, ho, hp, hl⟩ := hW.wr w hw
    obtain ⟨mo, mp, b, hr'⟩ := held_rec hKI hR hn (ho ▸ hh)
    have := hA.meta_data hr hr' hp
    unfold Spec.PageDisj at this
    simp only at this
    omega

theorem dev_kept {s : DSt} (hKI : KInv s) (hR : RInv c s) (hA : AInv c s) (hW : WInv c s) (hV : VInv s) {dev' : Mem}
    (hd : ∀ x, dev' x ≠ s.dev x → DevTarget s x) :
    (∀ r ∈ s.recs, r.st ≠ .fresh → Meta.dec (dev'.read r.mo (2 ^ r.mp)) = some r.m) ∧
    (∀ th ∈ s.threads, VTh dev' th.pc) := by
  have key : ∀ r ∈ s.recs, (∀ th ∈ s.threads, ∀ o t page, th.pc = .createMeta o t page → t.metaOff ≠ r.mo) →
      dev'.read r.mo (2 ^ r.mp) = s.dev.read r.mo (2 ^ r.mp) := by
    intro r hr hm
    refine Mem.read_congr (fun x h1 h2 => ?_)
    by_contra hne
    exact target_off hKI hR hA hW hV hr hm (hd x hne) ⟨h1, h2⟩
  constructor
  · intro r hr hst
    rw [key r hr ?_]
    · exact hV.dev r hr hst
    · intro th hth o t page hpc he
      have h1 := hR.thr th hth
      rw [hpc] at h1
      have := rec_uniq hR.nd h1.2 hr he
      rw [← this] at hst
      exact hst rfl
  · intro th hth
    have h1 := hV.thr th hth
    have hR1 := hR.thr th hth
    cases hpc : th.pc
    case createMeta o t page => rw [hpc] at h1; exact h1
    case createInsert o t =>
      rw [hpc] at h1 hR1
      have hk := key ⟨t.metaOff, t.metaPow2, o.m, .fresh⟩ hR1.2 ?_
      · show Meta.dec _ = _
        simp only at hk
        rw [hk]; exact h1
      · intro x hx o' t' page hpc' he
        have := hold_uniq hR hth hx (mo := t.metaOff) (by rw [hpc]; simp [PC.hold]) (by rw [hpc']; simp [PC.hold, he])
        subst this
        rw [hpc] at hpc'
        cases hpc'
    all_goals trivial

theorem VInv.next {s s' : DSt} (h : VInv s) (hd : s'.dev = s.dev)
    (hr : ∀ r ∈ s'.recs, r.st ≠ .fresh → ∃ st, st ≠ .fresh ∧ ⟨r.mo, r.mp, r.m, st⟩ ∈ s.recs)
    (ht : ∀ th ∈ s'.threads, VTh s.dev th.pc) : VInv s' := by
  refine ⟨?_, by rw [hd]; exact ht⟩
  intro r hr' hst
  obtain ⟨st, h1, h2⟩ := hr r hr' hst
  rw [hd]
  exact h.dev ⟨r.mo, r.mp, r.m, st⟩ h2 h1

theorem recs_id {s : DSt} : ∀ r ∈ s.recs, r.st ≠ .fresh → ∃ st, st ≠ .fresh ∧ ⟨r.mo, r.mp, r.m, st⟩ ∈ s.recs :=
  fun r hr h => ⟨r.st, h, hr⟩

theorem VInv.swapT {s : DSt} (h : VInv s) {pre post : List Thread} {th : Thread} {pc : PC} (ht : s.threads = pre ++ th :: post)
    (hp : VTh s.dev pc) : ∀ x ∈ pre ++ withPc th pc :: post, VTh s.dev x.pc := by
  intro x hx
  rcases mem_swap (b := th) hx with rfl | hx
  · exact hp
  · exact h.thr x (ht ▸ hx)

theorem VInv.dropT {s : DSt} (h : VInv s) {pre post : List Thread} {th : Thread} (ht : s.threads = pre ++ th :: post) :
    ∀ x ∈ pre ++ post, VTh s.dev x.pc := by
  intro x hx
  refine h.thr x (ht ▸ ?_)
  rcases mem_append.1 hx with h | h <;> simp [h]

theorem VInv.snocT {s : DSt} (h : VInv s) {th : Thread} (hp : VTh s.dev th.pc) : ∀ x ∈ s.threads ++ [th], VTh s.dev x.pc := by
  intro x hx
  rcases mem_append.1 hx with hx | hx
  · exact h.thr x hx
  · cases mem_singleton.1 hx; exact hp

theorem sound_fits (hc : c.Ok) {s : DSt} (hA : AInv c s) {th : Thread} (hth : th ∈ s.threads) {m : Meta} (hp : th.pc = .createData m)
    (hl : m.enc.length ≤ 2 ^ c.pages.lpage) : m.Fits := by
  have hs := hA.sound th hth m hp
  have hlen := enc_len m
  have h32 : 2 ^ c.pages.lpage < 2 ^ 32 := Nat.pow_lt_pow_right (by decide) hc.l32
  have h2 := hs.created
  refine ⟨hs.size, ?_, ?_, ?_, ?_, ?_⟩
  · have : (2 : Nat) ^ 63 < 2 ^ 64 := by decide
    omega
  · omega
  · omega
  · omega
  · intro o ho
    obtain ⟨p, hp'⟩ := hs.offs o ho
    obtain ⟨lk, hi⟩ := hA.alloc
    have hx : (o, p) ∈ s.recs.flatMap (regs c) ++ (s.threads.flatMap (fun th => th.pc.pages c) ++ lk) :=
      mem_append_right _ (mem_append_left _ (mem_flatMap.2 ⟨th, hth, by rw [hp]; exact hp'⟩))
    have := Inv.lower hi hx
    have := hc.heapEnd
    simp only at *
    omega

theorem vInv_step (hc : c.Ok) {s s' : DSt} (hKI : KInv s) (hR : RInv c s) (hA : AInv c s) (hW : WInv c s) (h : VInv s)
    (hs : Step c s s') (hf : .largeMetadata ∉ s'.faults) (hf' : .writeCancelled ∉ s'.faults) : VInv s' := by
  have hdev : ∀ {dev' : Mem}, (∀ x, dev' x ≠ s.dev x → DevTarget s x) →
    (∀ r ∈ s.recs, r.st ≠ .fresh → Meta.dec (dev'.read r.mo (2 ^ r.mp)) = some r.m) ∧
    (∀ th ∈ s.threads, VTh dev' th.pc) := fun hd => dev_kept hKI hR hA hW h hd
  have hwr : ∀ off (data : List Byte) x, s.dev.write off data x ≠ s.dev x → off ≤ x ∧ x < off + data.length := by
    intro off data x hx
    by_contra hn
    exact hx (Mem.write_out (by omega))
  cases hs with
  | createData key size created h1 h2 h3 h4 => exact h.next rfl recs_id (h.snocT trivial)
  | createDataPanic size h1 h2 => exact h.next rfl recs_id (h.snocT trivial)
  | @createMeta pre th post m mo a' id junk ht hp hl ha hn hj =>
    have hrec : MetaPage.directRecorded c.pages m.enc.length = MetaPage.allocated c.pages m.enc.length := by
      by_contra hne
      simp only [if_neg hne] at hf
      simp at hf
    refine h.next rfl ?_ (h.swapT ht ⟨?_, dec_enc (sound_fits hc hA (ht ▸ mem_mid) hp hl) junk⟩)
    · intro r hr hst
      rcases mem_cons.1 hr with rfl | hr
      · exact absurd rfl hst
      · exact ⟨r.st, hst, hr⟩
    · rw [length_append, ← recorded_eq (enc_len m).1 hrec]; omega
  | createMetaPanic ht hp ha => exact h.next rfl recs_id (h.swapT ht trivial)
  | device d hd => exact ⟨(hdev hd).1, (hdev hd).2⟩
  | @metaWritten pre th post o t page ht hp =>
    have h1 := hdev (dev' := s.dev.write t.metaOff page)
      (fun x hx => Or.inl ⟨th, ht ▸ mem_mid, o, t, page, hp, hwr _ _ x hx⟩)
    refine ⟨h1.1, ?_⟩
    intro x hx
    rcases mem_swap (b := th) hx with rfl | hx
    · have hV := h.thr th (ht ▸ mem_mid)
      rw [hp] at hV
      show Meta.dec _ = _
      rw [← hV.1, Mem.read_write_same]
      exact hV.2
    · exact h1.2 x (ht ▸ hx)
  | @createInsert pre th post o t ts' ht hp hi =>
    refine ⟨?_, h.swapT ht trivial⟩
    intro r hr hst
    rcases setRec_inv hr with ⟨_, h1⟩ | ⟨he, _, st', h1⟩
    · exact h.dev r h1 hst
    · have hV := h.thr th (ht ▸ mem_mid)
      have hR' := hR.thr th (ht ▸ mem_mid)
      rw [hp] at hV hR'
      have := rec_uniq hR.nd h1 hR'.2 he
      simp only [Rec.mk.injEq] at this
      rw [this.1, this.2.1, this.2.2.1]
      exact hV
  | createInsertPanic ht hp hi => exact h.next rfl recs_id (h.swapT ht trivial)
  | created ht hp hft => exact h.next rfl recs_id (h.dropT ht)
  | openHandle id ho => exact h.next rfl recs_id h.thr
  | writeStart data h1 h2 h3 h4 => exact h.next rfl recs_id h.thr
  | @writeDone pre w post hw =>
    have h1 := hdev (dev' := s.dev.write w.off w.data)
      (fun x hx => Or.inr ⟨w, by rw [hw]; simp, hwr _ _ x hx⟩)
    exact ⟨h1.1, h1.2⟩
  | writeCancel hw => simp at hf'
  | @orphanDone pre w post hw =>
    have h1 := hdev (dev' := s.dev.write w.off w.data)
      (fun x hx => Or.inr ⟨w, by rw [hw]; simp, hwr _ _ x hx⟩)
    exact ⟨h1.1, h1.2⟩
  | commitClaim id ifne ho => exact h.next rfl recs_id (h.snocT trivial)
  | commitRefused id ho => exact h.next rfl recs_id h.thr
  | commitSeal ht hp => exact h.next rfl recs_id (h.swapT ht trivial)
  | commitKept ht hp hw hc => exact h.next rfl recs_id (h.swapT ht trivial)
  | commitPublish ht hp hw hc hn => exact h.next rfl recs_id (h.swapT ht trivial)
  | commitUpdate ht hp hu => exact h.next rfl recs_id (h.swapT ht trivial)
  | commitUpdatePanic ht hp hu => exact h.next rfl recs_id (h.swapT ht trivial)
  | commitDone ht hp hft => exact h.next rfl recs_id (h.dropT ht)
  | commitReap ht hp hft => exact h.next rfl recs_id (h.swapT ht trivial)
  | delete k want ho hw => exact h.next rfl recs_id (h.snocT trivial)
  | missing k want hm => exact h.next rfl recs_id h.thr
  | inspect k want ho hw => exact h.next rfl recs_id h.thr
  | @reapTuple pre th post o why ts' t ht hp hd =>
    refine h.next rfl ?_ (h.swapT ht trivial)
    intro r hr hst
    rcases setRec_inv hr with ⟨_, h1⟩ | ⟨he, _, st', h1⟩
    · exact ⟨r.st, hst, h1⟩
    · refine ⟨st', ?_, h1⟩
      rintro rfl
      obtain ⟨b, _, htb, _⟩ := delete_eq hd
      exact tup_ne_fresh hR.nd ((hR.mem b).tup t htb) h1 rfl he.symm
  | reapPanic ht hp hd => exact h.next rfl recs_id (h.swapT ht trivial)
  | reaped ht hp hft ha =>
    refine h.next rfl ?_ (h.dropT ht)
    intro r hr hst
    exact ⟨r.st, hst, mem_of_mem_filter hr⟩
  | bg hb => exact h.next rfl recs_id h.thr

end Direct
end Blobd
