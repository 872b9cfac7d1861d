import Verif.Proofs.DirectStable
/-! Space of the direct store: what is allocated is accounted for by objects. -/
set_option autoImplicit false
namespace Blobd
namespace Direct
open List

variable {c : SCfg}

/-- no call panicked since the last start -/
def NoDead (s : DSt) : Prop := ∀ th ∈ s.threads, th.pc ≠ .dead

/-- objects a call is responsible for -/
def PC.cares : PC → List Obj
  | .createMeta o _ _ => [o]
  | .createInsert o _ => [o]
  | .createTuple o _ => [o]
  | .commitClaimed o _ => [o]
  | .commitSealed o _ => [o]
  | .commitPublished _ _ ex => ex.toList
  | .commitTuple _ ex _ => ex.toList
  | .reap o _ => [o]
  | .reapTuple o _ _ _ => [o]
  | _ => []

/-- an object the store knows -/
def Known (s : DSt) (o : Obj) : Prop :=
  s.incomplete o.id = some o ∨ s.committed o.m.key = some o ∨ ∃ th ∈ s.threads, o ∈ th.pc.cares

/-- the record belongs to an object the store knows -/
def Owned (s : DSt) (mo : Nat) (m : Meta) : Prop := ∃ o, Known s o ∧ o.m = m ∧ s.names o.id = some (mo, m)

theorem owned_mono {s s' : DSt} (hk : ∀ o, Known s o → Known s' o) (hn : ∀ i, s.names i ≠ none → s'.names i = s.names i)
    {mo : Nat} {m : Meta} (h : Owned s mo m) : Owned s' mo m := by
  obtain ⟨o, h1, h2, h3⟩ := h
  exact ⟨o, hk o h1, h2, by rw [hn _ (by rw [h3]; simp)]; exact h3⟩

structure SpInv (c : SCfg) (s : DSt) : Prop where
  alloc : NoDead s → Buddy.Inv c.heap s.alloc (s.recs.flatMap (regs c) ++ s.threads.flatMap (fun th => th.pc.pages c))
  own : NoDead s → ∀ r ∈ s.recs, Owned s r.mo r.m
  mp : ∀ r ∈ s.recs, r.mp = MetaPage.allocated c.pages r.m.enc.length

theorem setRec_mem {recs : List Rec} {mo : Nat} {st : RecSt} {r : Rec} (h : r ∈ setRec recs mo st) :
    ∃ r' ∈ recs, r'.mo = r.mo ∧ r'.mp = r.mp ∧ r'.m = r.m := by
  obtain ⟨r', h1, rfl⟩ := mem_map.1 h
  exact ⟨r', h1, by split <;> simp⟩

theorem noDead_swap {s s' : DSt} {pre post : List Thread} {th : Thread} {pc : PC} (ht : s.threads = pre ++ th :: post)
    (hd : th.pc ≠ .dead) (ht' : s'.threads = pre ++ withPc th pc :: post) (h : NoDead s') : NoDead s := by
  intro x hx
  rw [ht] at hx
  rcases mem_swap (b := withPc th pc) hx with rfl | hx
  · exact hd
  · exact h x (ht' ▸ hx)

theorem noDead_drop {s s' : DSt} {pre post : List Thread} {th : Thread} (ht : s.threads = pre ++ th :: post)
    (hd : th.pc ≠ .dead) (ht' : s'.threads = pre ++ post) (h : NoDead s') : NoDead s := by
  intro x hx
  rw [ht] at hx
  simp only [mem_append, mem_cons] at hx
  rcases hx with hx | rfl | hx
  · exact h x (by rw [ht']; simp [hx])
  · exact hd
  · exact h x (by rw [ht']; simp [hx])

theorem noDead_snoc {s s' : DSt} {th : Thread} (ht' : s'.threads = s.threads ++ [th]) (h : NoDead s') : NoDead s :=
  fun x hx => h x (by rw [ht']; simp [hx])

theorem not_noDead {s' : DSt} {pre post : List Thread} {th : Thread} (ht' : s'.threads = pre ++ withPc th .dead :: post) : ¬ NoDead s' :=
  fun h => h (withPc th .dead) (by rw [ht']; simp) rfl

/-- a step that changes neither allocator nor records (up to their states) and keeps all known objects known -/
theorem SpInv.next {s s' : DSt} (h : SpInv c s) (hd : NoDead s' → NoDead s) (ha : s'.alloc = s.alloc)
    (hr : ∀ r ∈ s'.recs, ∃ r' ∈ s.recs, r'.mo = r.mo ∧ r'.mp = r.mp ∧ r'.m = r.m)
    (hg : s'.recs.flatMap (regs c) = s.recs.flatMap (regs c))
    (hp : NoDead s' → (s.threads.flatMap (fun th => th.pc.pages c)).Perm (s'.threads.flatMap (fun th => th.pc.pages c)))
    (hn : ∀ i, s.names i ≠ none → s'.names i = s.names i)
    (hk : NoDead s' → ∀ mo m, Owned s mo m → Owned s' mo m) : SpInv c s' := by
  refine ⟨fun hn => ?_, fun hn r hr' => ?_, fun r hr' => ?_⟩
  · rw [ha, hg]; exact (h.alloc (hd hn)).perm (Perm.append_left _ (hp hn))
  · obtain ⟨r0, h0, e1, e2, e3⟩ := hr r hr'
    have := h.own (hd hn) r0 h0
    rw [e1, e3] at this
    exact hk hn _ _ this
  · obtain ⟨r0, h0, e1, e2, e3⟩ := hr r hr'
    rw [← e2, ← e3]; exact h.mp r0 h0

theorem pages_swap {pre post : List Thread} {th : Thread} {pc : PC} (h : th.pc.pages c = pc.pages c) :
    ((pre ++ th :: post).flatMap (fun th => th.pc.pages c)).Perm ((pre ++ withPc th pc :: post).flatMap (fun th => th.pc.pages c)) := by
  simp only [flatMap_append, flatMap_cons, withPc, h]
  exact Perm.refl _

theorem pages_drop {pre post : List Thread} {th : Thread} (h : th.pc.pages c = []) :
    ((pre ++ th :: post).flatMap (fun th => th.pc.pages c)).Perm ((pre ++ post).flatMap (fun th => th.pc.pages c)) := by
  simp only [flatMap_append, flatMap_cons, h, nil_append]
  exact Perm.refl _

theorem known_thr {s : DSt} {o : Obj} {th : Thread} (hth : th ∈ s.threads) (ho : o ∈ th.pc.cares) : Known s o := Or.inr (Or.inr ⟨th, hth, ho⟩)

/-- the thread's program counter changes, its objects are still its own -/
theorem known_swap {s s' : DSt} {pre post : List Thread} {th : Thread} {pc : PC} (ht : s.threads = pre ++ th :: post)
    (ht' : s'.threads = pre ++ withPc th pc :: post) (hi : s'.incomplete = s.incomplete) (hc : s'.committed = s.committed)
    (ho : ∀ o ∈ th.pc.cares, o ∈ pc.cares) {o : Obj} (h : Known s o) : Known s' o := by
  rcases h with h | h | ⟨x, hx, h⟩
  · exact Or.inl (by rw [hi]; exact h)
  · exact Or.inr (Or.inl (by rw [hc]; exact h))
  · rw [ht] at hx
    rcases mem_swap (b := withPc th pc) hx with rfl | hx
    · exact known_thr (th := withPc x pc) (by rw [ht']; simp) (ho o h)
    · exact known_thr (ht' ▸ hx) h

theorem known_same {s s' : DSt} (ht' : s'.threads = s.threads) (hi : s'.incomplete = s.incomplete) (hc : s'.committed = s.committed)
    {o : Obj} (h : Known s o) : Known s' o := by
  unfold Known; rw [ht', hi, hc]; exact h

theorem known_snoc {s s' : DSt} {th : Thread} (ht' : s'.threads = s.threads ++ [th]) (hi : s'.incomplete = s.incomplete)
    (hc : s'.committed = s.committed) {o : Obj} (h : Known s o) : Known s' o := by
  rcases h with h | h | ⟨x, hx, h⟩
  · exact Or.inl (by rw [hi]; exact h)
  · exact Or.inr (Or.inl (by rw [hc]; exact h))
  · exact known_thr (by rw [ht']; simp [hx]) h

theorem known_drop {s s' : DSt} {pre post : List Thread} {th : Thread} (ht : s.threads = pre ++ th :: post)
    (ht' : s'.threads = pre ++ post) (hi : s'.incomplete = s.incomplete) (hc : s'.committed = s.committed)
    (ho : th.pc.cares = []) {o : Obj} (h : Known s o) : Known s' o := by
  rcases h with h | h | ⟨x, hx, h⟩
  · exact Or.inl (by rw [hi]; exact h)
  · exact Or.inr (Or.inl (by rw [hc]; exact h))
  · rw [ht] at hx
    simp only [mem_append, mem_cons] at hx
    rcases hx with hx | rfl | hx
    · exact known_thr (by rw [ht']; simp [hx]) h
    · rw [ho] at h; simp at h
    · exact known_thr (by rw [ht']; simp [hx]) h

/-- a call panics -/
theorem SpInv.dead {s s' : DSt} (h : SpInv c s) (hd : ¬ NoDead s') (hr : s'.recs = s.recs) : SpInv c s' :=
  ⟨fun hn => absurd hn hd, fun hn => absurd hn hd, by rw [hr]; exact h.mp⟩

theorem SpInv.same {s s' : DSt} (h : SpInv c s) (ht : s'.threads = s.threads) (hi : s'.incomplete = s.incomplete)
    (hc : s'.committed = s.committed) (ha : s'.alloc = s.alloc) (hr : s'.recs = s.recs) (hn : s'.names = s.names) : SpInv c s' := by
  refine h.next (by unfold NoDead; rw [ht]; exact id) ha (by rw [hr]; exact fun r h => ⟨r, h, rfl, rfl, rfl⟩) (by rw [hr])
    (fun _ => by rw [ht]) (by rw [hn]; exact fun _ _ => rfl) (fun _ mo m ho => owned_mono (s := s) (fun o => known_same ht hi hc) (by rw [hn]; exact fun _ _ => rfl) ho)

theorem SpInv.swap {s s' : DSt} (h : SpInv c s) {pre post : List Thread} {th : Thread} {pc : PC} (ht : s.threads = pre ++ th :: post)
    (ht' : s'.threads = pre ++ withPc th pc :: post) (hnd : th.pc ≠ .dead) (hpg : th.pc.pages c = pc.pages c) (ho : ∀ o ∈ th.pc.cares, o ∈ pc.cares)
    (hi : s'.incomplete = s.incomplete) (hc : s'.committed = s.committed) (ha : s'.alloc = s.alloc)
    (hr : ∀ r ∈ s'.recs, ∃ r' ∈ s.recs, r'.mo = r.mo ∧ r'.mp = r.mp ∧ r'.m = r.m)
    (hg : s'.recs.flatMap (regs c) = s.recs.flatMap (regs c)) (hn : s'.names = s.names) : SpInv c s' :=
  h.next (noDead_swap ht hnd ht') ha hr hg (fun _ => by rw [ht, ht']; exact pages_swap hpg) (by rw [hn]; exact fun _ _ => rfl)
    (fun _ mo m hx => owned_mono (s := s) (fun o => known_swap ht ht' hi hc ho) (by rw [hn]; exact fun _ _ => rfl) hx)

theorem recs_self {s : DSt} : ∀ r ∈ s.recs, ∃ r' ∈ s.recs, r'.mo = r.mo ∧ r'.mp = r.mp ∧ r'.m = r.m := fun r h => ⟨r, h, rfl, rfl, rfl⟩

set_option maxHeartbeats 1000000 in
theorem spInv_step (hc : c.Ok) {s s' : DSt} (hid : IdInv s) (hS : SafeInv c s) (h : SpInv c s) (hs : Step c s s')
    (hf : .largeMetadata ∉ s'.faults) : SpInv c s' := by
  have nn : ∀ i, s.names i ≠ none → s.names i = s.names i := fun _ _ => rfl
  cases hs with
  | @createData lay offs a' key size created h1 h2 h3 h4 =>
    have ht : ∀ e ∈ lay.tailPageSizes.toList, c.pages.spage ≤ e ∧ e ≤ c.pages.lpage := tails_range hc h3
    obtain ⟨hs1, hs2⟩ := sizes_exps (pages := c.pages) hc.sl ht
    refine ⟨fun hn => ?_, fun hn r hr => ?_, h.mp⟩
    · have hi := h.alloc (noDead_snoc rfl hn)
      obtain ⟨hlen, hi'⟩ := allocPages_inv hi hs2 h4
      have hdp := dataPages_alloc (created := created) (key := key) h3 hlen
      have e1 : offs.zip ((dataSizes c.pages lay).map (Buddy.requestPow2 c.heap.pages)) = offs.zip (replicate lay.lpageCount c.pages.lpage ++ lay.tailPageSizes.toList) := by
        rw [← hs1]; rfl
      rw [e1, ← hdp] at hi'
      simp only [flatMap_append, flatMap_cons, flatMap_nil, append_nil, PC.pages]
      refine hi'.perm ?_
      refine perm_append_comm_assoc _ _ _ |>.trans (Perm.append_left _ ?_)
      exact perm_append_comm
    · obtain ⟨o', hk, hm, hn'⟩ := h.own (noDead_snoc rfl hn) r hr
      refine ⟨o', ?_, hm, hn'⟩
      refine known_snoc (s := s) (th := ⟨s.nextCall, s.lin.length,
          .createData ⟨size, created, key, offs.take lay.lpageCount, offs.drop lay.lpageCount⟩⟩) ?_ ?_ ?_ hk
      · rfl
      · rfl
      · rfl
  | createDataPanic size h1 h2 => exact h.dead (fun hn => hn _ (mem_append_right _ (mem_singleton.2 rfl)) rfl) rfl
  | @createMeta pre th post m mo a' id junk ht hp hl ha hn hj =>
    have hrec : MetaPage.directRecorded c.pages m.enc.length = MetaPage.allocated c.pages m.enc.length := by
      by_contra hne
      simp only [if_neg hne] at hf
      simp at hf
    have hnd : th.pc ≠ .dead := by rw [hp]; simp
    have hnames : ∀ i, s.names i ≠ none → upd s.names id (some (mo, m)) i = s.names i := by
      intro i hi
      rw [upd_ne]
      rintro rfl
      exact hi hn
    refine ⟨fun hnd' => ?_, fun hnd' r hr => ?_, fun r hr => ?_⟩
    · have hi := h.alloc (noDead_swap ht hnd rfl hnd')
      rcases hi.alloc m.enc.length (request_le hc.sl hl) with ⟨n, b', e, _, h1, _⟩ | ⟨b', e, _⟩
      · rw [e] at ha
        simp only [Prod.mk.injEq, Outcome.ok.injEq] at ha
        obtain ⟨rfl, rfl⟩ := ha
        refine h1.perm ?_
        simp only [ht, flatMap_append, flatMap_cons, withPc, PC.pages, nil_append, regs, objPages, hrec, MetaPage.allocated, hp,
          cons_append]
        refine Perm.cons _ ?_
        have e1 : c.heap.pages = c.pages := rfl
        simp only [append_assoc]
        refine (Perm.append_left _ (perm_append_comm_assoc _ _ _)).trans ?_
        exact perm_append_comm_assoc _ _ _
      · rw [e] at ha; simp at ha
    · rcases mem_cons.1 hr with rfl | hr
      · exact ⟨⟨id, m⟩, known_thr (th := withPc th (.createMeta ⟨id, m⟩ ⟨.incomplete, id, mo, MetaPage.directRecorded c.pages m.enc.length⟩ (m.enc ++ junk)))
          mem_mid (by simp [withPc, PC.cares]), rfl, upd_same _ _ _⟩
      · obtain ⟨o', hk, hm, hn'⟩ := h.own (noDead_swap ht hnd rfl hnd') r hr
        refine ⟨o', ?_, hm, (hnames _ (by rw [hn']; simp)).trans hn'⟩
        refine known_swap (pc := .createMeta ⟨id, m⟩ ⟨.incomplete, id, mo, MetaPage.directRecorded c.pages m.enc.length⟩ (m.enc ++ junk)) ht ?_ ?_ ?_ ?_ hk
        rotate_left
        · rfl
        · rfl
        · rw [hp]; simp [PC.cares]
        · rfl
    · rcases mem_cons.1 hr with rfl | hr
      · exact hrec
      · exact h.mp r hr
  | createMetaPanic ht hp ha => exact h.dead (not_noDead rfl) rfl
  | device d hd => exact h.same rfl rfl rfl rfl rfl rfl
  | metaWritten ht hp =>
    exact h.swap ht rfl (by rw [hp]; simp) (by rw [hp]; simp [PC.pages]) (by rw [hp]; simp [PC.cares]) rfl rfl rfl recs_self rfl rfl
  | createInsert ht hp hi =>
    exact h.swap ht rfl (by rw [hp]; simp) (by rw [hp]; simp [PC.pages]) (by rw [hp]; simp [PC.cares]) rfl rfl rfl (fun r hr => setRec_mem hr) (setRec_regs _ _ _) rfl
  | createInsertPanic ht hp hi => exact h.dead (not_noDead rfl) rfl
  | @created pre th post o ticket ht hp hft =>
    have hnd : th.pc ≠ .dead := by rw [hp]; simp
    refine h.next (noDead_drop ht hnd rfl) rfl recs_self rfl (fun _ => by rw [ht]; exact pages_drop (by rw [hp]; simp [PC.pages])) (fun _ _ => rfl) ?_
    rintro hnd' mo m ⟨o', hk, rfl, hn'⟩
    by_cases he : o'.id = o.id
    · obtain ⟨mo2, hn2⟩ := hS.N.thr th (ht ▸ mem_mid) o (by rw [hp]; simp [PC.objs])
      rw [← he, hn'] at hn2
      simp only [Option.some.injEq, Prod.mk.injEq] at hn2
      have hoo : o' = o := by cases o; cases o'; simp_all
      subst hoo
      exact ⟨o', Or.inl (by simp [upd]), rfl, hn'⟩
    · refine ⟨o', ?_, rfl, hn'⟩
      rcases hk with hk | hk | ⟨x, hx, hk⟩
      · exact Or.inl (by simp only [upd]; rw [if_neg he]; exact hk)
      · exact Or.inr (Or.inl hk)
      · rw [ht] at hx
        simp only [mem_append, mem_cons] at hx
        rcases hx with hx | rfl | hx
        · exact known_thr (mem_append_left _ hx) hk
        · rw [hp] at hk; simp only [PC.cares, mem_singleton] at hk; subst hk; exact absurd rfl he
        · exact known_thr (mem_append_right _ hx) hk
  | openHandle id ho => exact h.same rfl rfl rfl rfl rfl rfl
  | writeStart data h1 h2 h3 h4 => exact h.same rfl rfl rfl rfl rfl rfl
  | writeDone hw => exact h.same rfl rfl rfl rfl rfl rfl
  | writeCancel hw => exact h.same rfl rfl rfl rfl rfl rfl
  | orphanDone hw => exact h.same rfl rfl rfl rfl rfl rfl
  | @commitClaim o id ifne ho =>
    refine h.next (noDead_snoc rfl) rfl recs_self rfl (fun _ => by simp [flatMap_append, PC.pages]) (fun _ _ => rfl) ?_
    rintro _ mo m ⟨o', hk, hm, hn'⟩
    refine ⟨o', ?_, hm, hn'⟩
    rcases hk with hk | hk | ⟨x, hx, hk⟩
    · by_cases he : o'.id = id
      · rw [he, ho] at hk
        cases hk
        exact known_thr (th := ⟨s.nextCall, s.lin.length, .commitClaimed o ifne⟩) (mem_append_right _ (mem_singleton.2 rfl)) (by simp [PC.cares])
      · exact Or.inl (by simp only [upd]; rw [if_neg he]; exact hk)
    · exact Or.inr (Or.inl hk)
    · exact known_thr (mem_append_left _ hx) hk
  | commitRefused id ho => exact h.same rfl rfl rfl rfl rfl rfl
  | commitSeal ht hp =>
    exact h.swap ht rfl (by rw [hp]; simp) (by rw [hp]; simp [PC.pages]) (by rw [hp]; simp [PC.cares]) rfl rfl rfl recs_self rfl rfl
  | commitKept ht hp hw hcm =>
    exact h.swap ht rfl (by rw [hp]; simp) (by rw [hp]; simp [PC.pages]) (by rw [hp]; simp [PC.cares]) rfl rfl rfl recs_self rfl rfl
  | @commitPublish pre th post o ifne newId ht hp hw hif hnone =>
    have hnd : th.pc ≠ .dead := by rw [hp]; simp
    have hnames : ∀ i, s.names i ≠ none → upd s.names newId (s.names o.id) i = s.names i := by
      intro i hi
      rw [upd_ne]
      rintro rfl
      exact hi hnone
    refine h.next (noDead_swap ht hnd rfl) rfl recs_self rfl (fun _ => by rw [ht]; exact pages_swap (by rw [hp]; simp [PC.pages])) hnames ?_
    rintro hnd' mo m ⟨o', hk, rfl, hn'⟩
    have hn2 : upd s.names newId (s.names o.id) o'.id = some (mo, o'.m) := by rw [hnames _ (by rw [hn']; simp)]; exact hn'
    rcases hk with hk | hk | ⟨x, hx, hk⟩
    · exact ⟨o', Or.inl hk, rfl, hn2⟩
    · by_cases he : o'.m.key = o.m.key
      · refine ⟨o', known_thr (th := withPc th (.commitPublished o.id ⟨newId, o.m⟩ (s.committed o.m.key))) mem_mid ?_, rfl, hn2⟩
        rw [← he, hk]
        simp [withPc, PC.cares]
      · exact ⟨o', Or.inr (Or.inl (by simp only [updKey]; rw [if_neg he]; exact hk)), rfl, hn2⟩
    · rw [ht] at hx
      rcases mem_swap (b := withPc th (.commitPublished o.id ⟨newId, o.m⟩ (s.committed o.m.key))) hx with rfl | hx
      · rw [hp] at hk
        simp only [PC.cares, mem_singleton] at hk
        subst hk
        exact ⟨⟨newId, o'.m⟩, Or.inr (Or.inl (by simp [updKey])), rfl, by rw [← hn']; exact upd_same _ _ _⟩
      · exact ⟨o', known_thr hx hk, rfl, hn2⟩
  | commitUpdate ht hp hu =>
    exact h.swap ht rfl (by rw [hp]; simp) (by rw [hp]; simp [PC.pages]) (by rw [hp]; simp [PC.cares]) rfl rfl rfl recs_self rfl rfl
  | commitUpdatePanic ht hp hu => exact h.dead (not_noDead rfl) rfl
  | commitDone ht hp hft =>
    refine h.next (noDead_drop ht (by rw [hp]; simp) rfl) rfl recs_self rfl (fun _ => by rw [ht]; exact pages_drop (by rw [hp]; simp [PC.pages])) (fun _ _ => rfl)
      (fun _ mo m ⟨o', hk, hm, hn'⟩ => ⟨o', ?_, hm, hn'⟩)
    refine known_drop ht ?_ ?_ ?_ (by rw [hp]; simp [PC.cares]) hk
    · rfl
    · rfl
    · rfl
  | commitReap ht hp hft =>
    exact h.swap ht rfl (by rw [hp]; simp) (by rw [hp]; simp [PC.pages]) (by rw [hp]; simp [PC.cares]) rfl rfl rfl recs_self rfl rfl
  | @delete o k want ho hw =>
    refine h.next (noDead_snoc rfl) rfl recs_self rfl (fun _ => by simp [flatMap_append, PC.pages]) (fun _ _ => rfl) ?_
    rintro _ mo m ⟨o', hk, hm, hn'⟩
    refine ⟨o', ?_, hm, hn'⟩
    rcases hk with hk | hk | ⟨x, hx, hk⟩
    · exact Or.inl hk
    · by_cases he : o'.m.key = k
      · rw [he, ho] at hk
        cases hk
        exact known_thr (th := ⟨s.nextCall, s.lin.length, .reap o .deleted⟩) (mem_append_right _ (mem_singleton.2 rfl)) (by simp [PC.cares])
      · exact Or.inr (Or.inl (by simp only [updKey]; rw [if_neg he]; exact hk))
    · exact known_thr (mem_append_left _ hx) hk
  | missing k want hm => exact h.same rfl rfl rfl rfl rfl rfl
  | inspect k want ho hw => exact h.same rfl rfl rfl rfl rfl rfl
  | reapTuple ht hp hd =>
    exact h.swap ht rfl (by rw [hp]; simp) (by rw [hp]; simp [PC.pages]) (by rw [hp]; simp [PC.cares]) rfl rfl rfl (fun r hr => setRec_mem hr) (setRec_regs _ _ _) rfl
  | reapPanic ht hp hd => exact h.dead (not_noDead rfl) rfl
  | @reaped pre th post o t ticket why a' ht hp hft ha =>
    have hnd : th.pc ≠ .dead := by rw [hp]; simp
    have hth := hS.R.thr th (ht ▸ mem_mid)
    rw [hp] at hth
    obtain ⟨hon, b, _, hrec, _⟩ := hth
    refine ⟨fun hnd' => ?_, fun hnd' r hr => ?_, fun r hr => h.mp r (mem_of_mem_filter hr)⟩
    · have hi := h.alloc (noDead_drop ht hnd rfl hnd')
      have hperm := filter_perm hS.R.nd hrec
      have hi2 := hi.perm ((hperm.flatMap_right (regs c)).append_right _)
      simp only [flatMap_cons] at hi2
      have hi3 : Buddy.Inv c.heap s.alloc ((o.m.dataPages c.pages ++ [(t.metaOff, t.metaPow2)]) ++
          ((s.recs.filter (fun x => x.mo ≠ t.metaOff)).flatMap (regs c) ++ s.threads.flatMap (fun th => th.pc.pages c))) := by
        refine hi2.perm ?_
        simp only [regs, objPages, append_assoc]
        refine Perm.trans ?_ perm_middle.symm
        simp
      obtain ⟨a2, e2, h2⟩ := releaseAll_inv hi3
      rw [ha] at e2
      cases e2
      refine h2.perm (Perm.append_left _ ?_)
      simp [ht, hp, PC.pages]
    · have hr1 := mem_of_mem_filter hr
      have hr2 : r.mo ≠ t.metaOff := by simpa using (mem_filter.1 hr).2
      obtain ⟨o', hk, hm, hn'⟩ := h.own (noDead_drop ht hnd rfl hnd') r hr1
      refine ⟨o', ?_, hm, hn'⟩
      rcases hk with hk | hk | ⟨x, hx, hk⟩
      · exact Or.inl hk
      · exact Or.inr (Or.inl hk)
      · rw [ht] at hx
        simp only [mem_append, mem_cons] at hx
        rcases hx with hx | rfl | hx
        · exact known_thr (mem_append_left _ hx) hk
        · rw [hp] at hk
          simp only [PC.cares, mem_singleton] at hk
          subst hk
          rw [hon] at hn'
          simp only [Option.some.injEq, Prod.mk.injEq] at hn'
          exact absurd hn'.1.symm hr2
        · exact known_thr (mem_append_right _ hx) hk
  | bg hb => exact h.same rfl rfl rfl rfl rfl rfl

/-- without duplicates every tuple read is in one of the maps -/
theorem load_keeps {dev : Mem} : ∀ {order : List Tuple} {l l' : LoadSt}, loadAll c dev l order = some l' → l'.dup = false →
    (l.dup = false) ∧ (∀ id o, l.incomplete id = some o → l'.incomplete id = some o) ∧ (∀ k o, l.committed k = some o → l'.committed k = some o) ∧
    ∀ t ∈ order, ∃ m, tmeta dev t = some m ∧ (l'.incomplete t.id = some ⟨t.id, m⟩ ∨ l'.committed m.key = some ⟨t.id, m⟩) := by
  intro order
  induction order with
  | nil => intro l l' h hd; simp only [loadAll, foldlM_nil] at h; cases h; exact ⟨hd, fun _ _ h => h, fun _ _ h => h, by simp⟩
  | cons t ts ih =>
    intro l l' h hd
    rw [loadAll_cons] at h
    cases h1 : loadOne c dev l t with
    | none => rw [h1] at h; simp at h
    | some l1 =>
      rw [h1] at h
      obtain ⟨a1, a2, a3, a4⟩ := ih h hd
      obtain ⟨m, hm, _, hx⟩ := loadOne_some h1
      rcases hx with ⟨_, e0, e1, e2, e3, _⟩ | ⟨_, e0, e1, e2, e3, _⟩ | ⟨_, e, _, _, e3, _⟩
      · refine ⟨e3 ▸ a1, ?_, ?_, ?_⟩
        · intro id o ho
          refine a2 id o ?_
          rw [e1]; simp only [upd]
          rw [if_neg]; · exact ho
          rintro rfl; rw [e0] at ho; cases ho
        · intro k o ho; exact a3 k o (by rw [e2]; exact ho)
        · intro u hu
          rcases mem_cons.1 hu with rfl | hu
          · exact ⟨m, hm, Or.inl (a2 _ _ (by rw [e1]; simp [upd]))⟩
          · exact a4 u hu
      · refine ⟨e3 ▸ a1, ?_, ?_, ?_⟩
        · intro id o ho; exact a2 id o (by rw [e1]; exact ho)
        · intro k o ho
          refine a3 k o ?_
          rw [e2]; simp only [updKey]
          rw [if_neg]; · exact ho
          rintro rfl; rw [e0] at ho; cases ho
        · intro u hu
          rcases mem_cons.1 hu with rfl | hu
          · exact ⟨m, hm, Or.inr (a3 _ _ (by rw [e2]; simp [updKey]))⟩
          · exact a4 u hu
      · rw [e3] at a1; cases a1

theorem spInv_load {s s' : DSt} (hT : TInv c.max c.n s.ts) (hS : SafeInv c s) (h : SpInv c s) {order : List Tuple}
    (hp : order.Perm (diskTuples c.n s.ts)) (hl : load c s order = some s') (hd : .duplicateKey ∉ s'.faults) : SpInv c s' := by
  obtain ⟨a0, l, h0, h1, hok, rfl⟩ := load_some hl
  obtain ⟨l2, marked, h2, hinv, hperm⟩ := load_ok hT hS hp h0
  rw [h1] at h2
  cases h2
  have hdup : l.dup = false := by
    cases e : l.dup with
    | false => rfl
    | true => simp [e] at hd
  refine ⟨fun _ => ?_, fun _ r hr => ?_, fun r hr => ?_⟩
  · have e : (diskRecs c.n s.dev s.ts).flatMap (regs c) = (diskTuples c.n s.ts).flatMap (tpg c s.dev) := by
      rw [flatMap_def, flatMap_def, diskRecs_map (h := tpg c s.dev)]
      intro b t ht
      obtain ⟨m, _, _, _, _, e2, _, e3⟩ := disk_rec hS ht
      exact ⟨m, e2, e3.symm⟩
    simp only [flatMap_nil, append_nil]
    rw [e]
    exact hinv.perm (((hperm hdup).trans hp).flatMap_right _)
  · obtain ⟨b, hb, t, ht, m, hm, rfl⟩ := mem_diskRecs.1 hr
    obtain ⟨m', _, e1, _, _, e2, e3, _⟩ := disk_rec hS ht
    have hm0 : tmeta s.dev t = some m := hm
    rw [hm0] at e2; cases e2
    obtain ⟨m2, hm2, hin⟩ := (load_keeps h1 hdup).2.2.2 t (hp.mem_iff.2 (mem_diskTuples.2 ⟨b, hb, ht⟩))
    rw [hm0] at hm2; cases hm2
    exact ⟨⟨t.id, m⟩, hin.imp_right Or.inl, rfl, e1⟩
  · obtain ⟨b, hb, t, ht, m, hm, rfl⟩ := mem_diskRecs.1 hr
    have hm0 : tmeta s.dev t = some m := hm
    have hd := (hS.R.disk b).tup t ht
    obtain ⟨m', st, e1, e4, e5, e2, e3, _⟩ := disk_rec hS ht
    rw [hm0] at e2; cases e2
    have := h.mp _ e5
    exact this

theorem reach_sp (hc : c.Ok) {s : DSt} (hr : Reach c s) (h1 : .largeMetadata ∉ s.faults)
    (h2 : .duplicateKey ∉ s.faults) (h3 : .writeCancelled ∉ s.faults) : SpInv c s := by
  induction hr with
  | fresh h =>
    unfold fresh at h
    split at h
    · simp at h
    · rename_i a0 h0
      cases h
      exact ⟨fun _ => by simpa using Buddy.new_inv h0, by simp, by simp⟩
  | @step s s' hr hs ih =>
    have h1' : Fault.largeMetadata ∉ s.faults := fun h => h1 (faults_step hs _ h)
    have h2' : Fault.duplicateKey ∉ s.faults := fun h => h2 (faults_step hs _ h)
    have h3' : Fault.writeCancelled ∉ s.faults := fun h => h3 (faults_step hs _ h)
    exact spInv_step hc (reach_id hr) (reach_safe hc hr h1' h2' h3') (ih h1' h2' h3') hs h1
  | @restart s s' order hr hp hl ih =>
    have h1' : Fault.largeMetadata ∉ s.faults := fun h => h1 (faults_load hl _ h)
    have h2' : Fault.duplicateKey ∉ s.faults := fun h => h2 (faults_load hl _ h)
    have h3' : Fault.writeCancelled ∉ s.faults := fun h => h3 (faults_load hl _ h)
    exact spInv_load (reach_t hr).1 (reach_safe hc hr h1' h2' h3') (ih h1' h2' h3') hp hl h2

end Direct
end Blobd
