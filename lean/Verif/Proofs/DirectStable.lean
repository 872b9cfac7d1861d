import Verif.Proofs.DirectSafe3
/-! Bytes of an object change only through writes to that object, and not at all once it is visible. -/
namespace Blobd
namespace Direct
open List

variable {c : SCfg}

/-- a token that can still be written has an incomplete tuple and a live record -/
theorem held_tup {s : DSt} (hKI : KInv s) (hR : RInv c s) {o : Obj} (hn : NamedO s.names o) (hh : Held s o.id) :
    ∃ b, ∃ t ∈ s.ts.bundles b, t.id = o.id ∧ t.state = .incomplete ∧ ⟨t.metaOff, t.metaPow2, o.m, .live b⟩ ∈ s.recs := by
  have : HasTuple s.ts o.id .incomplete := by
    rcases hh with hh | hh
    · exact hKI.tki _ hh
    · refine hKI.tk _ ?_
      obtain ⟨th, hth, hx⟩ := mem_flatMap.1 hh
      refine mem_flatMap.2 ⟨th, hth, ?_⟩
      generalize th.pc = pc at hx
      cases pc <;> simp_all [PC.tok, PC.tmem]
  obtain ⟨b, t, ht, hti, hst⟩ := this
  obtain ⟨m, h1, h2⟩ := (hR.mem b).tup t ht
  obtain ⟨mo, h3⟩ := hn
  rw [← hti, h1] at h3
  simp only [Option.some.injEq, Prod.mk.injEq] at h3
  rw [← h3.2]
  exact ⟨b, t, ht, hti, hst, h2.resolve_right (by simp)⟩

theorem mem_tup_named {s : DSt} (hR : RInv c s) {b : Nat} {t : Tuple} (ht : t ∈ s.ts.bundles b) {o : Obj} {mo : Nat}
    (hn : s.names t.id = some (mo, o.m)) : ⟨t.metaOff, t.metaPow2, o.m, .live b⟩ ∈ s.recs := by
  obtain ⟨m, h1, h2⟩ := (hR.mem b).tup t ht
  rw [h1] at hn
  simp only [Option.some.injEq, Prod.mk.injEq] at hn
  rw [← hn.2]
  exact h2.resolve_right (by simp)

/-- two tuples in memory with one metadata page are one tuple -/
theorem mem_tup_uniq {s : DSt} (hR : RInv c s) {b b' : Nat} {t t' : Tuple} (ht : t ∈ s.ts.bundles b) (ht' : t' ∈ s.ts.bundles b')
    (he : t.metaOff = t'.metaOff) : t = t' := by
  obtain ⟨m, _, h1⟩ := (hR.mem b).tup t ht
  obtain ⟨m', _, h1'⟩ := (hR.mem b').tup t' ht'
  have := rec_uniq hR.nd (h1.resolve_right (by simp)) (h1'.resolve_right (by simp)) he
  simp only [Rec.mk.injEq, RecSt.live.injEq] at this
  obtain ⟨_, _, _, rfl⟩ := this
  exact inj_on_of_nodup_map (hR.mem b).nd ht ht' he

/-- an object in use has a record that is not new, and none of the objects that may be written has it -/
theorem inUse_rec {s : DSt} (hH : HInv s) (hKI : KInv s) (h : SafeInv c s) {o : Obj} (hu : InUse s o) :
    ∃ mo mp st, st ≠ .fresh ∧ ⟨mo, mp, o.m, st⟩ ∈ s.recs ∧
      ∀ b, ∀ t ∈ s.ts.bundles b, t.state = .incomplete → Held s t.id → t.metaOff ≠ mo := by
  have hR := h.R
  have key : NamedO s.names o → HasTuple s.ts o.id .committed ∨ Pending s o → ∃ mo mp st, st ≠ .fresh ∧ ⟨mo, mp, o.m, st⟩ ∈ s.recs ∧
      ∀ b, ∀ t ∈ s.ts.bundles b, t.state = .incomplete → Held s t.id → t.metaOff ≠ mo := by
    rintro ⟨mo, hn⟩ (⟨b, t, ht, hti, hst⟩ | ⟨th, hth, old, ex, hpc⟩)
    · refine ⟨_, _, _, ?_, mem_tup_named hR ht (o := o) (mo := mo) (by rw [hti]; exact hn), ?_⟩
      · simp
      · intro b' t' ht' hst' _ he
        have := mem_tup_uniq hR ht' ht he
        subst this
        rw [hst] at hst'; cases hst'
    · have hold : HasTuple s.ts old .incomplete := hKI.tk old (mem_flatMap.2 ⟨th, hth, by rw [hpc]; simp [PC.tmem]⟩)
      obtain ⟨b, t, ht, hti, hst⟩ := hold
      refine ⟨_, _, _, ?_, mem_tup_named hR ht (o := o) (mo := mo) (by rw [hti, ← h.N.pub th hth old o ex hpc]; exact hn), ?_⟩
      · simp
      · intro b' t' ht' hst' hh he
        have := mem_tup_uniq hR ht' ht he
        subst this
        rw [hti] at hh
        have hold : old ∈ th.pc.hids := by rw [hpc]; simp [PC.hids, PC.tids]
        rcases hh with hh | hh
        · exact hh (hH.hfree old (mem_flatMap.2 ⟨th, hth, hold⟩)).1
        · obtain ⟨th', hth', hx⟩ := mem_flatMap.1 hh
          have hx' : old ∈ th'.pc.hids := by
            generalize th'.pc = pc at hx
            cases pc <;> simp_all [PC.tok, PC.hids, PC.tids]
          have hne : th' ≠ th := by rintro rfl; rw [hpc] at hx; simp [PC.tok] at hx
          have h3 := (nodup_flatMap.1 hH.hids).2
          have : Std.Symm (Function.onFun List.Disjoint (fun th : Thread => th.pc.hids)) := ⟨fun _ _ h => h.symm⟩
          exact h3.forall hth' hth hne hx' hold
  rcases hu with hu | ⟨th, hth, hv⟩
  · exact key (h.N.com _ _ hu) (hKI.ck _ _ hu)
  · have hobj : o ∈ th.pc.objs := by
      generalize th.pc = pc at hv
      cases pc with
      | reap o' why => cases why <;> simp_all [PC.victims, PC.objs]
      | reapTuple o' t tk why => cases why <;> simp_all [PC.victims, PC.objs]
      | _ => simp_all [PC.victims, PC.objs]
    have hn := h.N.thr th hth o hobj
    by_cases hvo : o ∈ th.pc.vobj
    · exact key hn (hKI.vk o (mem_flatMap.2 ⟨th, hth, hvo⟩))
    · have hR1 := hR.thr th hth
      cases hpc : th.pc
      case reapTuple o' t tk why =>
        rw [hpc] at hR1 hv
        have : o = o' := by cases why <;> simp_all [PC.victims]
        subst this
        obtain ⟨_, b, _, h2, _⟩ := hR1
        refine ⟨_, _, _, ?_, h2, ?_⟩
        · simp
        · intro b' t' ht' _ _ he
          obtain ⟨m, _, e1⟩ := (hR.mem b').tup t' ht'
          have := rec_uniq hR.nd (e1.resolve_right (by simp)) h2 he
          simp at this
      case reap o' why => rw [hpc] at hv hvo; cases why <;> simp_all [PC.victims, PC.vobj]
      all_goals rw [hpc] at hv hvo; simp_all [PC.victims, PC.vobj]

/-- a byte that may change lies in a metadata page being written or in an object that can still be written -/
theorem target_cases {s : DSt} (hKI : KInv s) (h : SafeInv c s) {x : Nat} (hx : DevTarget s x) :
    (∃ mo mp m, ⟨mo, mp, m, .fresh⟩ ∈ s.recs ∧ mo ≤ x ∧ x < mo + 2 ^ mp) ∨
    (∃ b, ∃ t ∈ s.ts.bundles b, ∃ m p off, t.state = .incomplete ∧ Held s t.id ∧ ⟨t.metaOff, t.metaPow2, m, .live b⟩ ∈ s.recs ∧
      s.names t.id = some (t.metaOff, m) ∧
      (off, p) ∈ m.dataPages c.pages ∧ off ≤ x ∧ x < off + 2 ^ p ∧ ∃ w ∈ s.writers, w.id = t.id ∧ w.off ≤ x ∧ x < w.off + w.data.length) := by
  rcases hx with ⟨th, hth, o, t, page, hpc, h1, h2⟩ | ⟨w, hw, h1, h2⟩
  · have hR' := h.R.thr th hth
    have hV' := h.V.thr th hth
    rw [hpc] at hR' hV'
    exact Or.inl ⟨_, _, _, hR'.2, h1, by rw [← hV'.1]; exact h2⟩
  · rw [h.W.orp, append_nil] at hw
    obtain ⟨hh, o, p, hn, ho, hp, hl⟩ := h.W.wr w hw
    obtain ⟨b, t, ht, hti, hst, hr⟩ := held_tup hKI h.R hn (ho ▸ hh)
    obtain ⟨m, e1, _⟩ := (h.R.mem b).tup t ht
    have hm : m = o.m := by
      obtain ⟨mo, hn⟩ := hn
      rw [hti, hn] at e1
      simp only [Option.some.injEq, Prod.mk.injEq] at e1
      exact e1.2.symm
    exact Or.inr ⟨b, t, ht, o.m, p, w.off, hst, by rw [hti, ho]; exact hh, hr, hm ▸ e1, hp, h1, by omega, w, hw, by rw [hti, ho], h1, h2⟩

/-- every device change of a step is the change of a write in flight -/
theorem step_target {s s' : DSt} (hs : Step c s s') {x : Nat} (hx : s'.dev x ≠ s.dev x) : DevTarget s x := by
  have hwr : ∀ off (data : List Byte), s.dev.write off data x ≠ s.dev x → off ≤ x ∧ x < off + data.length := by
    intro off data hx
    by_contra hn
    exact hx (Mem.write_out (by omega))
  cases hs with
  | device dev' h => exact h x hx
  | @metaWritten pre th post o t page ht hp =>
    exact Or.inl ⟨th, by rw [ht]; simp, o, t, page, hp, hwr _ _ hx⟩
  | @writeDone pre w post ht => exact Or.inr ⟨w, by rw [ht]; simp, hwr _ _ hx⟩
  | @orphanDone pre w post ht => exact Or.inr ⟨w, by rw [ht]; simp, hwr _ _ hx⟩
  | _ => exact absurd rfl hx

theorem inUse_stable {s s' : DSt} (hH : HInv s) (hKI : KInv s) (h : SafeInv c s) {o : Obj} (hu : InUse s o) (hs : Step c s s')
    {off p x : Nat} (hp : (off, p) ∈ o.m.dataPages c.pages) (h1 : off ≤ x) (h2 : x < off + 2 ^ p) : s'.dev x = s.dev x := by
  by_contra hne
  obtain ⟨mo, mp, st, hst, hr, hno⟩ := inUse_rec hH hKI h hu
  have hpg : (off, p) ∈ regs c ⟨mo, mp, o.m, st⟩ := by simp [regs, objPages, hp]
  rcases target_cases hKI h (step_target hs hne) with ⟨mo', mp', m', hr', g1, g2⟩ | ⟨b, t, ht, m', p', off', hti, hh, hr', _, hp', g1, g2, _⟩
  · have := h.A.recs_disj hr hr' hpg (a' := (mo', mp')) (by simp [regs, objPages])
      (Or.inl (fun e => hst (by simp only [Rec.mk.injEq] at e; exact e.2.2.2)))
    unfold Spec.PageDisj at this
    simp only at this
    omega
  · have := h.A.recs_disj hr hr' hpg (a' := (off', p')) (by simp [regs, objPages, hp'])
      (Or.inl (fun e => hno b t ht hti hh (by simp only [Rec.mk.injEq] at e; exact e.1.symm)))
    unfold Spec.PageDisj at this
    simp only at this
    omega

/-! ## Shape of the descriptions -/

def Meta.Shape (c : SCfg) (m : Meta) : Prop :=
  ∃ lay, calcObjectLayoutDirect c.pages m.size = some lay ∧ m.lpages.length = lay.lpageCount ∧
    m.tails.length = lay.tailPageSizes.toList.length

theorem allocPages_len {b b' : Buddy} {sizes : List Nat} {offs : List Nat} (h : allocPages b sizes = (some offs, b')) :
    offs.length = sizes.length := by
  induction sizes generalizing b b' offs with
  | nil => simp only [allocPages, Prod.mk.injEq, Option.some.injEq] at h; rw [← h.1]
  | cons z zs ih =>
    simp only [allocPages] at h
    split at h
    · split at h
      · rename_i e; cases h; simp [ih e]
      · cases h
    · cases h

structure ShInv (c : SCfg) (s : DSt) : Prop where
  nm : ∀ id mo m, s.names id = some (mo, m) → m.Shape c
  thr : ∀ th ∈ s.threads, ∀ m, th.pc = .createData m → m.Shape c

theorem ShInv.swap {s : DSt} (h : ShInv c s) {pre post : List Thread} {th : Thread} {pc : PC} (ht : s.threads = pre ++ th :: post)
    (hp : ∀ m, pc ≠ .createData m) : ∀ x ∈ pre ++ withPc th pc :: post, ∀ m, x.pc = .createData m → m.Shape c := by
  intro x hx m hm
  rcases mem_swap (b := th) hx with rfl | hx
  · exact absurd hm (hp m)
  · exact h.thr x (ht ▸ hx) m hm

theorem ShInv.drop {s : DSt} (h : ShInv c s) {pre post : List Thread} {th : Thread} (ht : s.threads = pre ++ th :: post) :
    ∀ x ∈ pre ++ post, ∀ m, x.pc = .createData m → m.Shape c := by
  intro x hx m hm
  refine h.thr x ?_ m hm
  rw [ht]
  simp only [mem_append, mem_cons] at hx ⊢
  tauto

theorem ShInv.snoc {s : DSt} (h : ShInv c s) {th : Thread} (hp : ∀ m, th.pc = .createData m → m.Shape c) :
    ∀ x ∈ s.threads ++ [th], ∀ m, x.pc = .createData m → m.Shape c := by
  intro x hx m hm
  rcases mem_append.1 hx with hx | hx
  · exact h.thr x hx m hm
  · rw [mem_singleton] at hx; subst hx; exact hp m hm

theorem shInv_step {s s' : DSt} (h : ShInv c s) (hs : Step c s s') : ShInv c s' := by
  cases hs with
  | createData key size created h1 h2 h3 h4 =>
    refine ⟨h.nm, h.snoc ?_⟩
    intro m hm
    cases hm
    have hlen := allocPages_len h4
    simp only [dataSizes, length_append, length_replicate, length_map] at hlen
    exact ⟨_, h3, by simp only [length_take]; omega, by simp only [length_drop]; omega⟩
  | @createMeta pre th post m mo a' id junk ht hp hl ha hn hj =>
    refine ⟨?_, h.swap ht (by simp)⟩
    intro id' mo' m' hm
    simp only [upd] at hm
    split at hm
    · cases hm; exact h.thr th (by rw [ht]; simp) m hp
    · exact h.nm _ _ _ hm
  | @commitPublish pre th post o ifne newId ht hp h1 h2 hn =>
    refine ⟨?_, h.swap ht (by simp)⟩
    intro id' mo' m' hm
    simp only [upd] at hm
    split at hm
    · exact h.nm _ _ _ hm
    · exact h.nm _ _ _ hm
  | createDataPanic size h1 h2 => exact ⟨h.nm, h.snoc (by simp)⟩
  | createMetaPanic ht hp ha => exact ⟨h.nm, h.swap ht (by simp)⟩
  | device dev' hd => exact ⟨h.nm, h.thr⟩
  | metaWritten ht hp => exact ⟨h.nm, h.swap ht (by simp)⟩
  | createInsert ht hp hi => exact ⟨h.nm, h.swap ht (by simp)⟩
  | createInsertPanic ht hp hi => exact ⟨h.nm, h.swap ht (by simp)⟩
  | created ht hp hf => exact ⟨h.nm, h.drop ht⟩
  | openHandle id hi => exact ⟨h.nm, h.thr⟩
  | writeStart data h1 h2 h3 h4 => exact ⟨h.nm, h.thr⟩
  | writeDone ht => exact ⟨h.nm, h.thr⟩
  | writeCancel ht => exact ⟨h.nm, h.thr⟩
  | orphanDone ht => exact ⟨h.nm, h.thr⟩
  | commitClaim id ifne hi => exact ⟨h.nm, h.snoc (by simp)⟩
  | commitRefused id hi => exact ⟨h.nm, h.thr⟩
  | commitSeal ht hp => exact ⟨h.nm, h.swap ht (by simp)⟩
  | commitKept ht hp h1 h2 => exact ⟨h.nm, h.swap ht (by simp)⟩
  | commitUpdate ht hp hu => exact ⟨h.nm, h.swap ht (by simp)⟩
  | commitUpdatePanic ht hp hu => exact ⟨h.nm, h.swap ht (by simp)⟩
  | commitDone ht hp hf => exact ⟨h.nm, h.drop ht⟩
  | commitReap ht hp hf => exact ⟨h.nm, h.swap ht (by simp)⟩
  | delete k want h1 h2 => exact ⟨h.nm, h.snoc (by simp)⟩
  | missing k want h1 => exact ⟨h.nm, h.thr⟩
  | inspect k want h1 h2 => exact ⟨h.nm, h.thr⟩
  | reapTuple ht hp hd => exact ⟨h.nm, h.swap ht (by simp)⟩
  | reapPanic ht hp hd => exact ⟨h.nm, h.swap ht (by simp)⟩
  | reaped ht hp hf ha => exact ⟨h.nm, h.drop ht⟩
  | bg hb => exact ⟨h.nm, h.thr⟩

theorem reach_sh {s : DSt} (h : Reach c s) : ShInv c s := by
  induction h with
  | fresh h =>
    unfold fresh at h
    split at h
    · simp at h
    · cases h; exact ⟨by simp, by simp⟩
  | step _ hs ih => exact shInv_step ih hs
  | restart order _ hp hl ih =>
    obtain ⟨a0, l, _, _, _, rfl⟩ := load_some hl
    exact ⟨ih.nm, by simp⟩

theorem map_range_getD {β : Type} (l : List Nat) (f : Nat → β) (n : Nat) (h : l.length = n) :
    (List.range n).map (fun i => f (l.getD i 0)) = l.map f := by
  subst h
  apply ext_getElem (by simp)
  intro i h1 h2
  simp only [length_map, length_range] at h1
  simp [getD_eq_getElem?_getD, getElem?_eq_getElem h1]

theorem zipIdx_getD {l es : List Nat} (h : l.length = es.length) :
    es.zipIdx.map (fun ei => (l.getD ei.2 0, ei.1)) = l.zip es := by
  apply ext_getElem (by simp [h])
  intro i h1 h2
  simp only [length_map, length_zipIdx] at h1
  simp [getD_eq_getElem?_getD, getElem?_eq_getElem (h ▸ h1)]

/-- the pages the read and write operations use are the recorded ones -/
theorem rw_pages {m : Meta} {lay : ObjectLayout} (hl : calcObjectLayoutDirect c.pages m.size = some lay)
    (h : m.Shape c) : RW.objPages c.pages lay m.rw = m.dataPages c.pages := by
  obtain ⟨lay', h1, h2, h3⟩ := h
  rw [hl] at h1; cases h1
  simp only [RW.objPages, Meta.rw, Meta.dataPages, hl]
  rw [map_range_getD m.lpages (fun o => (o, c.pages.lpage)) _ h2, zipIdx_getD h3]

end Direct
end Blobd
