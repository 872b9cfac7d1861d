import Verif.Proofs.DirectDur4
import Verif.Proofs.DirectStable
/-! The life of an upload seen backwards: a token whose tuple is on the device now was a token, or in the hands of a call,
at every earlier time since it was created; and all that time its pages belong to it. -/
set_option autoImplicit false
namespace Blobd
namespace Direct
open List

variable {c : SCfg}

/-- the id is used, and not by a call that is still creating the object -/
def Past (s : DSt) (id : Nat) : Prop := s.names id ≠ none ∧ ∀ th ∈ s.threads, id ∉ th.pc.cid

theorem past_swap {s : DSt} {id : Nat} (h : Past s id) {pre post : List Thread} {th : Thread} {pc : PC} (ht : s.threads = pre ++ th :: post)
    (hc : ∀ i ∈ pc.cid, i ∈ th.pc.cid) : ∀ x ∈ pre ++ withPc th pc :: post, id ∉ x.pc.cid := by
  intro x hx
  rcases mem_swap (b := th) hx with rfl | hx
  · exact fun hi => h.2 th (ht ▸ mem_mid) (hc _ hi)
  · exact h.2 x (ht ▸ hx)

theorem past_drop {s : DSt} {id : Nat} (h : Past s id) {pre post : List Thread} {th : Thread} (ht : s.threads = pre ++ th :: post) :
    ∀ x ∈ pre ++ post, id ∉ x.pc.cid := by
  intro x hx
  refine h.2 x ?_
  rw [ht]
  simp only [mem_append, mem_cons] at hx ⊢
  exact hx.imp (fun h => h) Or.inr

theorem past_snoc {s : DSt} {id : Nat} (h : Past s id) {th : Thread} (hc : th.pc.cid = []) :
    ∀ x ∈ s.threads ++ [th], id ∉ x.pc.cid := by
  intro x hx
  simp only [mem_append, mem_singleton] at hx
  rcases hx with hx | rfl
  · exact h.2 x hx
  · simp [hc]

theorem past_step {s s' : DSt} {id : Nat} (h : Past s id) (hs : Step c s s') : Past s' id := by
  cases hs with
  | createData key size created h1 h2 h3 h4 => exact ⟨h.1, past_snoc h rfl⟩
  | @createMeta pre th post m mo a' id' junk ht hp hl ha hn hj =>
    have hne : id' ≠ id := by rintro rfl; exact h.1 hn
    refine ⟨by simp only [upd]; rw [if_neg (fun e => hne e.symm)]; exact h.1, ?_⟩
    intro x hx
    rcases mem_swap (b := th) hx with rfl | hx
    · simp only [withPc, PC.cid, mem_singleton]; exact fun e => hne e.symm
    · exact h.2 x (ht ▸ hx)
  | @commitPublish pre th post o ifne newId ht hp h1 h2 hn =>
    have hne : newId ≠ id := by rintro rfl; exact h.1 hn
    exact ⟨by simp only [upd]; rw [if_neg (fun e => hne e.symm)]; exact h.1, past_swap h ht (by simp [PC.cid])⟩
  | createDataPanic size h1 h2 => exact ⟨h.1, past_snoc h rfl⟩
  | createMetaPanic ht hp ha => exact ⟨h.1, past_swap h ht (by simp [PC.cid])⟩
  | device dev' hd => exact h
  | metaWritten ht hp => exact ⟨h.1, past_swap h ht (by rw [hp]; simp [PC.cid])⟩
  | createInsert ht hp hi => exact ⟨h.1, past_swap h ht (by rw [hp]; simp [PC.cid])⟩
  | createInsertPanic ht hp hi => exact ⟨h.1, past_swap h ht (by simp [PC.cid])⟩
  | created ht hp hf => exact ⟨h.1, past_drop h ht⟩
  | openHandle id hi => exact h
  | writeStart data h1 h2 h3 h4 => exact h
  | writeDone ht => exact h
  | writeCancel ht => exact h
  | orphanDone ht => exact h
  | commitClaim id ifne hi => exact ⟨h.1, past_snoc h rfl⟩
  | commitRefused id hi => exact h
  | commitSeal ht hp => exact ⟨h.1, past_swap h ht (by simp [PC.cid])⟩
  | commitKept ht hp h1 h2 => exact ⟨h.1, past_swap h ht (by simp [PC.cid])⟩
  | commitUpdate ht hp hu => exact ⟨h.1, past_swap h ht (by simp [PC.cid])⟩
  | commitUpdatePanic ht hp hu => exact ⟨h.1, past_swap h ht (by simp [PC.cid])⟩
  | commitDone ht hp hf => exact ⟨h.1, past_drop h ht⟩
  | commitReap ht hp hf => exact ⟨h.1, past_swap h ht (by simp [PC.cid])⟩
  | delete k want h1 h2 => exact ⟨h.1, past_snoc h rfl⟩
  | missing k want h1 => exact h
  | inspect k want h1 h2 => exact h
  | reapTuple ht hp hd => exact ⟨h.1, past_swap h ht (by simp [PC.cid])⟩
  | reapPanic ht hp hd => exact ⟨h.1, past_swap h ht (by simp [PC.cid])⟩
  | reaped ht hp hf ha => exact ⟨h.1, past_drop h ht⟩
  | bg hb => exact h

theorem past_load {s s' : DSt} {id : Nat} {order : List Tuple} (h : Past s id) (hl : load c s order = some s') : Past s' id := by
  obtain ⟨a0, l, _, h1, hok, rfl⟩ := load_some hl
  exact ⟨h.1, by simp⟩

/-- a token that can be written is past creation -/
theorem held_past {s : DSt} (hid : IdInv s) (hH : HInv s) {id : Nat} (hn : s.names id ≠ none) (hh : Held s id) : Past s id := by
  refine ⟨hn, ?_⟩
  intro th hth hi
  rcases hh with hh | hh
  · exact hh (hid.cidFree th hth id hi).1
  · obtain ⟨th', hth', hx⟩ := mem_flatMap.1 hh
    have h1 : id ∈ th'.pc.hids := by generalize th'.pc = pc at hx; cases pc <;> simp_all [PC.tok, PC.hids, PC.tids]
    have h2 : id ∈ th.pc.hids := by generalize th.pc = pc at hi; cases pc <;> simp_all [PC.cid, PC.hids, PC.tids]
    have hne : th' ≠ th := by rintro rfl; generalize th'.pc = pc at hx hi; cases pc <;> simp_all [PC.tok, PC.cid]
    have h3 := (nodup_flatMap.1 hH.hids).2
    have : Std.Symm (Function.onFun List.Disjoint (fun th : Thread => th.pc.hids)) := ⟨fun _ _ h => h.symm⟩
    exact h3.forall hth' hth hne h1 h2

theorem own_back {lin lin' : List (Nat × Ev)} {start call id : Nat} {m : Meta} (hl : lin' = lin ∨ ∃ e, lin' = lin ++ [e] ∧ ∀ i m, e.2 ≠ .claimed i m)
    (h : .claimed id m ∈ ownEvs lin' start call) : .claimed id m ∈ ownEvs lin start call := by
  rcases hl with rfl | ⟨e, rfl, he⟩
  · exact h
  · unfold ownEvs at h ⊢
    obtain ⟨x, hx, e1⟩ := mem_map.1 h
    obtain ⟨hx, hxc⟩ := mem_filter.1 hx
    refine mem_map.2 ⟨x, mem_filter.2 ⟨?_, hxc⟩, e1⟩
    rw [drop_append] at hx
    rcases mem_append.1 hx with hx | hx
    · exact hx
    · have := mem_of_mem_drop hx
      simp only [mem_singleton] at this
      subst this
      exact absurd e1 (he _ _)

theorem tok_back_gen {s s' : DSt} {id : Nat} (h : TokOk s' id) (hi : s'.incomplete id ≠ none → TokOk s id)
    (hl : s'.lin = s.lin ∨ ∃ e, s'.lin = s.lin ++ [e] ∧ ∀ i m, e.2 ≠ .claimed i m)
    (ht : ∀ x ∈ s'.threads, x ∈ s.threads ∨ (¬ x.pc.cstage ∧ ∀ o tk, x.pc = .createTuple o tk → o.id ≠ id) ∨
      ∃ y ∈ s.threads, y.call = x.call ∧ y.start = x.start ∧ y.pc.cstage ∧ ∀ o tk, x.pc ≠ .createTuple o tk) : TokOk s id := by
  rcases h with h | ⟨x, hx, h⟩
  · exact hi h
  · rcases ht x hx with hx | ⟨h1, h2⟩ | ⟨y, hy, e1, e2, h1, h2⟩
    · refine Or.inr ⟨x, hx, ?_⟩
      exact h.imp (fun h => h) (fun ⟨h1, m, h2⟩ => ⟨h1, m, own_back hl h2⟩)
    · rcases h with ⟨o, tk, h3, h4⟩ | ⟨h3, _⟩
      · exact absurd h4 (h2 o tk h3)
      · exact absurd h3 h1
    · rcases h with ⟨o, tk, h3, h4⟩ | ⟨_, m, h3⟩
      · exact absurd h3 (h2 o tk)
      · exact Or.inr ⟨y, hy, Or.inr ⟨h1, m, by rw [e1, e2]; exact own_back hl h3⟩⟩

theorem tb_swap {s : DSt} {id : Nat} {pre post : List Thread} {th : Thread} {pc : PC} (ht : s.threads = pre ++ th :: post)
    (h : (¬ pc.cstage ∧ ∀ o tk, pc = .createTuple o tk → o.id ≠ id) ∨ (th.pc.cstage ∧ ∀ o tk, pc ≠ .createTuple o tk)) :
    ∀ x ∈ pre ++ withPc th pc :: post, x ∈ s.threads ∨ (¬ x.pc.cstage ∧ ∀ o tk, x.pc = .createTuple o tk → o.id ≠ id) ∨
      ∃ y ∈ s.threads, y.call = x.call ∧ y.start = x.start ∧ y.pc.cstage ∧ ∀ o tk, x.pc ≠ .createTuple o tk := by
  intro x hx
  rcases mem_swap (b := th) hx with rfl | hx
  · rcases h with h | h
    · exact Or.inr (Or.inl h)
    · exact Or.inr (Or.inr ⟨th, ht ▸ mem_mid, rfl, rfl, h.1, h.2⟩)
  · exact Or.inl (ht ▸ hx)

theorem tb_drop {s : DSt} {id : Nat} {pre post : List Thread} {th : Thread} (ht : s.threads = pre ++ th :: post) :
    ∀ x ∈ pre ++ post, x ∈ s.threads ∨ (¬ x.pc.cstage ∧ ∀ o tk, x.pc = .createTuple o tk → o.id ≠ id) ∨
      ∃ y ∈ s.threads, y.call = x.call ∧ y.start = x.start ∧ y.pc.cstage ∧ ∀ o tk, x.pc ≠ .createTuple o tk := by
  intro x hx
  left
  rw [ht]
  simp only [mem_append, mem_cons] at hx ⊢
  exact hx.imp (fun h => h) Or.inr

theorem tb_snoc {s : DSt} {id : Nat} {th : Thread} (h : ¬ th.pc.cstage ∧ ∀ o tk, th.pc = .createTuple o tk → o.id ≠ id) :
    ∀ x ∈ s.threads ++ [th], x ∈ s.threads ∨ (¬ x.pc.cstage ∧ ∀ o tk, x.pc = .createTuple o tk → o.id ≠ id) ∨
      ∃ y ∈ s.threads, y.call = x.call ∧ y.start = x.start ∧ y.pc.cstage ∧ ∀ o tk, x.pc ≠ .createTuple o tk := by
  intro x hx
  simp only [mem_append, mem_singleton] at hx
  rcases hx with hx | rfl
  · exact Or.inl hx
  · exact Or.inr (Or.inl h)

theorem tok_back {s s' : DSt} {id : Nat} (hP : Past s id) (hs : Step c s s') (h : TokOk s' id) : TokOk s id := by
  cases hs with
  | createData key size created h1 h2 h3 h4 => exact tok_back_gen h Or.inl (Or.inl rfl) (tb_snoc (by simp [PC.cstage]))
  | createMeta junk ht hp hl ha hn hj => exact tok_back_gen h Or.inl (Or.inl rfl) (tb_swap ht (by simp [PC.cstage]))
  | @commitPublish pre th post o ifne newId ht hp h1 h2 hn =>
    exact tok_back_gen h Or.inl (Or.inr ⟨_, rfl, by simp⟩) (tb_swap ht (Or.inr ⟨by rw [hp]; trivial, by simp⟩))
  | createDataPanic size h1 h2 => exact tok_back_gen h Or.inl (Or.inl rfl) (tb_snoc (by simp [PC.cstage]))
  | createMetaPanic ht hp ha => exact tok_back_gen h Or.inl (Or.inl rfl) (tb_swap ht (by simp [PC.cstage]))
  | device dev' hd => exact h
  | metaWritten ht hp => exact tok_back_gen h Or.inl (Or.inl rfl) (tb_swap ht (by simp [PC.cstage]))
  | @createInsert pre th post o t ts' ht hp hi =>
    refine tok_back_gen h Or.inl (Or.inl rfl) (tb_swap ht (Or.inl ⟨by simp [PC.cstage], ?_⟩))
    intro o' tk e e'
    cases e
    exact hP.2 th (ht ▸ mem_mid) (by rw [hp, ← e']; simp [PC.cid])
  | createInsertPanic ht hp hi => exact tok_back_gen h Or.inl (Or.inl rfl) (tb_swap ht (by simp [PC.cstage]))
  | @created pre th post o ticket ht hp hf =>
    refine tok_back_gen h ?_ (Or.inr ⟨_, rfl, by simp⟩) (tb_drop ht)
    intro hi
    by_cases he : o.id = id
    · exact Or.inr ⟨th, ht ▸ mem_mid, Or.inl ⟨o, ticket, hp, he⟩⟩
    · simp only [upd] at hi; rw [if_neg (fun e => he e.symm)] at hi; exact Or.inl hi
  | openHandle id hi => exact h
  | writeStart data h1 h2 h3 h4 => exact h
  | writeDone ht => exact h
  | writeCancel ht => exact h
  | orphanDone ht => exact h
  | @commitClaim o id' ifne hi =>
    by_cases he : id' = id
    · subst he; exact Or.inl (by rw [hi]; simp)
    · rcases h with h | ⟨x, hx, h⟩
      · simp only [upd] at h; rw [if_neg (fun e => he e.symm)] at h; exact Or.inl h
      · have hne : ∀ {start call m}, Ev.claimed id m ∈ ownEvs (s.lin ++ [(s.nextCall, .claimed id' o.m)]) start call →
            Ev.claimed id m ∈ ownEvs s.lin start call := by
          intro start call m h
          unfold ownEvs at h ⊢
          obtain ⟨y, hy, e1⟩ := mem_map.1 h
          obtain ⟨hy, hyc⟩ := mem_filter.1 hy
          refine mem_map.2 ⟨y, mem_filter.2 ⟨?_, hyc⟩, e1⟩
          rw [drop_append] at hy
          rcases mem_append.1 hy with hy | hy
          · exact hy
          · have := mem_of_mem_drop hy
            simp only [mem_singleton] at this
            subst this
            simp only [Ev.claimed.injEq] at e1
            exact absurd e1.1 he
        simp only [mem_append, mem_singleton] at hx
        rcases hx with hx | rfl
        · exact Or.inr ⟨x, hx, h.imp (fun h => h) (fun ⟨h1, m, h2⟩ => ⟨h1, m, hne h2⟩)⟩
        · rcases h with ⟨o', tk, h, _⟩ | ⟨_, m, h⟩
          · cases h
          · have := hne h
            unfold ownEvs at this
            rw [drop_length] at this
            simp at this
  | commitRefused id hi => exact tok_back_gen h Or.inl (Or.inr ⟨_, rfl, by simp⟩) (fun x hx => Or.inl hx)
  | commitSeal ht hp => exact tok_back_gen h Or.inl (Or.inl rfl) (tb_swap ht (Or.inr ⟨by rw [hp]; trivial, by simp⟩))
  | commitKept ht hp h1 h2 =>
    exact tok_back_gen h Or.inl (Or.inr ⟨_, rfl, by simp⟩) (tb_swap ht (Or.inr ⟨by rw [hp]; trivial, by simp⟩))
  | commitUpdate ht hp hu => exact tok_back_gen h Or.inl (Or.inl rfl) (tb_swap ht (Or.inr ⟨by rw [hp]; trivial, by simp⟩))
  | commitUpdatePanic ht hp hu => exact tok_back_gen h Or.inl (Or.inl rfl) (tb_swap ht (by simp [PC.cstage]))
  | commitDone ht hp hf => exact tok_back_gen h Or.inl (Or.inl rfl) (tb_drop ht)
  | commitReap ht hp hf => exact tok_back_gen h Or.inl (Or.inl rfl) (tb_swap ht (by simp [PC.cstage]))
  | delete k want h1 h2 => exact tok_back_gen h Or.inl (Or.inr ⟨_, rfl, by simp⟩) (tb_snoc (by simp [PC.cstage]))
  | missing k want h1 => exact tok_back_gen h Or.inl (Or.inr ⟨_, rfl, by simp⟩) (fun x hx => Or.inl hx)
  | inspect k want h1 h2 => exact tok_back_gen h Or.inl (Or.inr ⟨_, rfl, by simp⟩) (fun x hx => Or.inl hx)
  | @reapTuple pre th post o why ts' t ht hp hd =>
    refine tok_back_gen h Or.inl (Or.inl rfl) (tb_swap ht ?_)
    cases why
    · exact Or.inl (by simp [PC.cstage])
    · exact Or.inr ⟨by rw [hp]; trivial, by simp⟩
    · exact Or.inl (by simp [PC.cstage])
  | reapPanic ht hp hd => exact tok_back_gen h Or.inl (Or.inl rfl) (tb_swap ht (by simp [PC.cstage]))
  | reaped ht hp hf ha => exact tok_back_gen h Or.inl (Or.inl rfl) (tb_drop ht)
  | bg hb => exact h

theorem tok_back_load {s s' : DSt} {id : Nat} {order : List Tuple} (hid : IdInv s) (h : SafeInv c s) (hd : DInv c s)
    (hp : order.Perm (diskTuples c.n s.ts)) (hl : load c s order = some s') (ht : TokOk s' id) : TokOk s id := by
  have hthr : s'.threads = [] := by obtain ⟨a0, l, _, h1, hok, rfl⟩ := load_some hl; rfl
  rcases ht with ht | ⟨th, hth, _⟩
  · obtain ⟨o, ho⟩ := Option.ne_none_iff_exists'.1 ht
    exact (load_tok' hid h hd hp hl ho).imp_left (fun h => by rw [h]; simp)
  · rw [hthr] at hth; cases hth

/-- a record of the object: not being created, and if its tuple may be written, then under this id -/
theorem tok_rec {s : DSt} (hH : HInv s) (hK : KInv s) (hL : LinInv s) (h : SafeInv c s) (hd : DInv c s) {id mo : Nat} {m : Meta}
    (hn : s.names id = some (mo, m)) (ht : TokOk s id) :
    ∃ mo' mp st, st ≠ .fresh ∧ ⟨mo', mp, m, st⟩ ∈ s.recs ∧
      ∀ b, ∀ t ∈ s.ts.bundles b, t.state = .incomplete → Held s t.id → t.metaOff = mo' → t.id = id := by
  have hR := h.R
  have htup : HasTuple s.ts id .incomplete → ∃ mo' mp st, st ≠ .fresh ∧ ⟨mo', mp, m, st⟩ ∈ s.recs ∧
      ∀ b, ∀ t ∈ s.ts.bundles b, t.state = .incomplete → Held s t.id → t.metaOff = mo' → t.id = id := by
    rintro ⟨b, t, ht, hti, hst⟩
    refine ⟨_, _, _, ?_, mem_tup_named hR ht (o := ⟨id, m⟩) (mo := mo) (by rw [hti]; exact hn), ?_⟩
    · simp
    · intro b' t' ht' _ _ he
      rw [mem_tup_uniq hR ht' ht he]; exact hti
  have huse : ∀ v, InUse s ⟨v, m⟩ → ∃ mo' mp st, st ≠ .fresh ∧ ⟨mo', mp, m, st⟩ ∈ s.recs ∧
      ∀ b, ∀ t ∈ s.ts.bundles b, t.state = .incomplete → Held s t.id → t.metaOff = mo' → t.id = id := by
    intro v hu
    obtain ⟨mo', mp, st, h1, h2, h3⟩ := inUse_rec hH hK h hu
    exact ⟨mo', mp, st, h1, h2, fun b t ht hst hh he => absurd he (h3 b t ht hst hh)⟩
  rcases ht with ht | ⟨th, hth, ht⟩
  · exact htup (hK.tki _ ht)
  · have hown := hL.own th hth
    have hobj := h.N.thr th hth
    rcases ht with ⟨o, tk, hp, ho⟩ | ⟨hst, m', hcl⟩
    · exact htup (hK.tk _ (mem_flatMap.2 ⟨th, hth, by rw [hp]; simp [PC.tmem, ho]⟩))
    · have hmem : ∀ {i}, i ∈ th.pc.tmem → HasTuple s.ts i .incomplete := fun hi => hK.tk _ (mem_flatMap.2 ⟨th, hth, hi⟩)
      cases hp : th.pc
      case commitClaimed o ifne =>
        rw [hp] at hown
        simp only [PC.own] at hown
        rw [hown] at hcl
        simp only [mem_singleton, Ev.claimed.injEq] at hcl
        exact htup (hmem (by rw [hp, hcl.1]; simp [PC.tmem]))
      case commitSealed o ifne =>
        rw [hp] at hown
        simp only [PC.own] at hown
        rw [hown] at hcl
        simp only [mem_singleton, Ev.claimed.injEq] at hcl
        exact htup (hmem (by rw [hp, hcl.1]; simp [PC.tmem]))
      case commitPublished old o ex =>
        rw [hp] at hown
        obtain ⟨ifne, hown⟩ := hown
        rw [hown] at hcl
        simp at hcl
        exact htup (hmem (by rw [hp, hcl.1]; simp [PC.tmem]))
      case commitTuple o ex tk =>
        obtain ⟨e1, e2⟩ := (hd.thr th hth).old o ex tk hp id m' hcl
        obtain ⟨mo2, e3⟩ := hobj o (by rw [hp]; simp [PC.objs])
        have hm := (hd.thr th hth).map
        rw [hp] at hm
        rw [← e1, hn] at e3
        simp only [Option.some.injEq, Prod.mk.injEq] at e3
        refine huse o.id (Or.inl ?_)
        rw [e3.2]
        exact hm.1
      case reap o why =>
        have hw : why = .kept := by rw [hp] at hst; cases why <;> simp_all [PC.cstage]
        subst hw
        rw [hp] at hown
        simp only [PC.own] at hown
        rw [hown] at hcl
        simp at hcl
        exact htup (hmem (by rw [hp, hcl.1]; simp [PC.tmem]))
      case reapTuple o t tk why =>
        have hw : why = .kept := by rw [hp] at hst; cases why <;> simp_all [PC.cstage]
        subst hw
        rw [hp] at hown
        simp only [PC.own] at hown
        rw [hown] at hcl
        simp at hcl
        have hR1 := hR.thr th hth
        rw [hp] at hR1
        obtain ⟨e1, b, _, e2, _⟩ := hR1
        rw [← hcl.1, hn] at e1
        simp only [Option.some.injEq, Prod.mk.injEq] at e1
        rw [← e1.2] at e2
        refine ⟨_, _, _, ?_, e2, ?_⟩
        · simp
        · intro b' t' ht' _ _ he
          obtain ⟨m, _, e3⟩ := (hR.mem b').tup t' ht'
          have := rec_uniq hR.nd (e3.resolve_right (by simp)) e2 he
          simp at this
      all_goals rw [hp] at hst; simp [PC.cstage] at hst

/-- while an upload lives, the bytes of its pages change only through its own writes -/
theorem tok_isolated {s s' : DSt} (hH : HInv s) (hK : KInv s) (hL : LinInv s) (h : SafeInv c s) (hd : DInv c s) {id mo : Nat} {m : Meta}
    (hn : s.names id = some (mo, m)) (ht : TokOk s id) (hs : Step c s s') {off p x : Nat} (hp : (off, p) ∈ m.dataPages c.pages)
    (h1 : off ≤ x) (h2 : x < off + 2 ^ p) (hx : s'.dev x ≠ s.dev x) : ∃ w ∈ s.writers, w.id = id ∧ w.off = off := by
  obtain ⟨mo', mp, st, hst, hr, huniq⟩ := tok_rec hH hK hL h hd hn ht
  have hpg : (off, p) ∈ regs c ⟨mo', mp, m, st⟩ := by simp [regs, objPages, hp]
  rcases target_cases hK h (step_target hs hx) with ⟨mo2, mp2, m2, hr2, g1, g2⟩ | ⟨b, t, htb, m2, p2, off2, hts, hh, hr2, htn, hp2, g1, g2, w, hw, hwi, g3⟩
  · have := h.A.recs_disj hr hr2 hpg (a' := (mo2, mp2)) (by simp [regs, objPages])
      (Or.inl (fun e => hst (by simp only [Rec.mk.injEq] at e; exact e.2.2.2)))
    unfold Spec.PageDisj at this
    simp only at this
    omega
  · have he : t.metaOff = mo' := by
      by_contra hne
      have := h.A.recs_disj hr hr2 hpg (a' := (off2, p2)) (by simp [regs, objPages, hp2])
        (Or.inl (fun e => hne (by simp only [Rec.mk.injEq] at e; exact e.1.symm)))
      unfold Spec.PageDisj at this
      simp only at this
      omega
    have hti := huniq b t htb hts hh he
    refine ⟨w, hw, by rw [hwi, hti], ?_⟩
    obtain ⟨_, o2, p3, ⟨mo3, hn3⟩, ho3, hp3, hl3⟩ := h.W.wr w hw
    have hm : o2.m = m := by
      rw [ho3, hwi, hti, hn] at hn3
      simp only [Option.some.injEq, Prod.mk.injEq] at hn3
      exact hn3.2.symm
    rw [hm] at hp3
    by_contra hne
    have hpg3 : (w.off, p3) ∈ regs c ⟨mo', mp, m, st⟩ := by simp [regs, objPages, hp3]
    have := h.A.recs_disj hr hr hpg (a' := (w.off, p3)) hpg3 (Or.inr (fun e => hne (by simp only [Prod.mk.injEq] at e; exact e.1.symm)))
    unfold Spec.PageDisj at this
    simp only at this
    omega

/-- names never change -/
theorem names_stay {s s' : DSt} (hs : Step c s s') {id : Nat} (h : s.names id ≠ none) : s'.names id = s.names id := by
  cases hs with
  | createMeta junk ht hp hl ha hn hj => exact names_upd hn _ h
  | commitPublish ht hp h1 h2 hn => exact names_upd hn _ h
  | _ => rfl

/-- an effect in the history is new, or was there -/
theorem published_back {s s' : DSt} (hs : Step c s s') {call old new : Nat} {m : Meta} {ifne : Bool}
    (h : (call, Ev.published old new m ifne) ∈ s'.lin) :
    (call, Ev.published old new m ifne) ∈ s.lin ∨
      s.names new = none ∧ ∃ th ∈ s.threads, ∃ o, th.pc = .commitSealed o ifne ∧ o.id = old ∧ o.m = m := by
  cases hs with
  | @commitPublish pre th post o ifne newId ht hp h1 h2 hn =>
    simp only [mem_append, mem_singleton, Prod.mk.injEq, Ev.published.injEq] at h
    rcases h with h | ⟨_, h3, h4, h6, h5⟩
    · exact Or.inl h
    · exact Or.inr ⟨by rw [h4]; exact hn, th, ht ▸ mem_mid, o, by rw [h5]; exact hp, h3.symm, h6.symm⟩
  | _ => first | exact Or.inl h | (simp at h; exact Or.inl h)

/-- what is visible was visible, or is being published -/
theorem visible_back {s s' : DSt} (hs : Step c s s') {k : List Byte} {o : Obj} (h : s'.committed k = some o) :
    s.committed k = some o ∨ s.names o.id = none := by
  cases hs with
  | @commitPublish pre th post o' ifne newId ht hp h1 h2 hn =>
    simp only [updKey] at h
    split at h
    · simp only [Option.some.injEq] at h
      subst h; exact Or.inr hn
    · exact Or.inl h
  | delete k' want h1 h2 =>
    simp only [updKey] at h
    split at h
    · cases h
    · exact Or.inl h
  | _ => exact Or.inl h

end Direct
end Blobd
