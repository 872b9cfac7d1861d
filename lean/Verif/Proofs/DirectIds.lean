import Verif.Proofs.DirectLin
/-! Who owns which object id, and which ids have a tuple in memory. -/
namespace Blobd
namespace Direct
open List

variable {c : SCfg}

/-- token ids a call holds -/
def PC.tids : PC → List Nat
  | .createMeta o _ _ => [o.id]
  | .createInsert o _ => [o.id]
  | .createTuple o _ => [o.id]
  | .commitClaimed o _ => [o.id]
  | .commitSealed o _ => [o.id]
  | .commitPublished old _ _ => [old]
  | .reap o .kept => [o.id]
  | _ => []

/-- replaced or deleted objects a call still has to reap -/
def PC.vobj : PC → List Obj
  | .commitPublished _ _ ex => ex.toList
  | .commitTuple _ ex _ => ex.toList
  | .reap o (.replaced _) => [o]
  | .reap o .deleted => [o]
  | _ => []

def PC.hids (pc : PC) : List Nat := pc.tids ++ pc.vobj.map (·.id)

/-- new id of an object whose tuple still has the old one -/
def PC.pnew : PC → List Nat
  | .commitPublished _ o _ => [o.id]
  | _ => []

def PC.tp (pc : PC) : List Nat := pc.tids ++ pc.pnew

structure HInv (s : DSt) : Prop where
  hids : (s.threads.flatMap (fun th => th.pc.hids)).Nodup
  hfree : ∀ id ∈ s.threads.flatMap (fun th => th.pc.hids), s.incomplete id = none ∧
    (∀ k o, s.committed k = some o → o.id ≠ id) ∧ s.names id ≠ none
  tp : (s.threads.flatMap (fun th => th.pc.tp)).Nodup
  tpfree : ∀ id ∈ s.threads.flatMap (fun th => th.pc.tp), s.incomplete id = none ∧ s.names id ≠ none
  ic : ∀ id, s.incomplete id ≠ none → ∀ k o, s.committed k = some o → o.id ≠ id
  comNamed : ∀ k o, s.committed k = some o → s.names o.id ≠ none
  comInj : ∀ k o k' o', s.committed k = some o → s.committed k' = some o' → o.id = o'.id → k = k'

section lists
variable {β : Type} {f : Thread → List β}

theorem fm_swap {pre post : List Thread} {th th' : Thread} (hc : (f th').Sublist (f th)) :
    ((pre ++ th' :: post).flatMap f).Sublist ((pre ++ th :: post).flatMap f) := by
  simp only [flatMap_append, flatMap_cons]
  exact Sublist.append (Sublist.refl _) (Sublist.append hc (Sublist.refl _))

theorem fm_drop {pre post : List Thread} {th : Thread} :
    ((pre ++ post).flatMap f).Sublist ((pre ++ th :: post).flatMap f) := by
  simp only [flatMap_append, flatMap_cons]
  exact Sublist.append (Sublist.refl _) (sublist_append_right _ _)

theorem fm_snoc {l : List Thread} {th : Thread} (hp : f th = []) :
    ((l ++ [th]).flatMap f).Sublist (l.flatMap f) := by
  simp [flatMap_append, hp]

theorem fm_mid {pre post : List Thread} {th : Thread} {x : β} (h : x ∈ f th) : x ∈ (pre ++ th :: post).flatMap f :=
  mem_flatMap.2 ⟨th, mem_mid, h⟩

theorem fm_snoc' {l : List Thread} {th : Thread} : (l ++ [th]).flatMap f = l.flatMap f ++ f th := by
  simp [flatMap_append]

theorem fm_mem_swap {pre post : List Thread} {th' : Thread} {x : β} (h : x ∈ (pre ++ th' :: post).flatMap f) :
    x ∈ f th' ∨ x ∈ (pre ++ post).flatMap f := by
  simp only [flatMap_append, flatMap_cons, mem_append] at h ⊢
  tauto

theorem fm_mem_drop {pre post : List Thread} {th : Thread} {x : β} (h : x ∈ (pre ++ post).flatMap f) :
    x ∈ (pre ++ th :: post).flatMap f := fm_drop.subset h

/-- replacing one thread's ids by ids not in the rest -/
theorem fm_nodup_swap {pre post : List Thread} {th th' : Thread} (h : ((pre ++ th :: post).flatMap f).Nodup)
    (h1 : (f th').Nodup) (h2 : ∀ x ∈ f th', x ∉ (pre ++ post).flatMap f) : ((pre ++ th' :: post).flatMap f).Nodup := by
  have h3 := h.sublist fm_drop
  have : ((pre ++ th' :: post).flatMap f).Perm (f th' ++ (pre ++ post).flatMap f) := by
    simp only [flatMap_append, flatMap_cons]
    rw [← append_assoc, ← append_assoc]
    exact Perm.append_right _ perm_append_comm
  rw [this.nodup_iff]
  exact h1.append h3 h2

theorem fm_nodup_snoc {l : List Thread} {th' : Thread} (h : (l.flatMap f).Nodup)
    (h1 : (f th').Nodup) (h2 : ∀ x ∈ f th', x ∉ l.flatMap f) : ((l ++ [th']).flatMap f).Nodup := by
  rw [fm_snoc']
  exact h.append h1 (fun x hx hx' => h2 x hx' hx)

/-- the ids of the thread in the middle are not elsewhere -/
theorem fm_other {pre post : List Thread} {th : Thread} (h : ((pre ++ th :: post).flatMap f).Nodup) {x : β} (hx : x ∈ f th) :
    x ∉ (pre ++ post).flatMap f := by
  intro hc
  have : ((pre ++ th :: post).flatMap f).Perm (f th ++ (pre ++ post).flatMap f) := by
    simp only [flatMap_append, flatMap_cons]
    rw [← append_assoc, ← append_assoc]
    exact Perm.append_right _ perm_append_comm
  have := (this.nodup_iff).1 h
  exact (nodup_append.1 this).2.2 x hx x hc rfl

end lists

theorem HInv.next {s s' : DSt} (h : HInv s) (hi : s'.incomplete = s.incomplete) (hc : s'.committed = s.committed)
    (hn : s'.names = s.names)
    (hh : (s'.threads.flatMap (fun th => th.pc.hids)).Sublist (s.threads.flatMap (fun th => th.pc.hids)))
    (ht : (s'.threads.flatMap (fun th => th.pc.tp)).Sublist (s.threads.flatMap (fun th => th.pc.tp))) : HInv s' := by
  refine ⟨h.hids.sublist hh, ?_, h.tp.sublist ht, ?_, ?_, ?_, ?_⟩
  · rw [hi, hc, hn]; exact fun id hid => h.hfree id (hh.subset hid)
  · rw [hi, hn]; exact fun id hid => h.tpfree id (ht.subset hid)
  · rw [hi, hc]; exact h.ic
  · rw [hc, hn]; exact h.comNamed
  · rw [hc]; exact h.comInj

theorem HInv.swap {s s' : DSt} (h : HInv s) {pre post : List Thread} {th : Thread} {pc : PC}
    (ht : s.threads = pre ++ th :: post) (ht' : s'.threads = pre ++ withPc th pc :: post)
    (h1 : pc.hids.Sublist th.pc.hids) (h2 : pc.tp.Sublist th.pc.tp)
    (hi : s'.incomplete = s.incomplete) (hc : s'.committed = s.committed) (hn : s'.names = s.names) : HInv s' :=
  h.next hi hc hn (by rw [ht, ht']; exact fm_swap h1) (by rw [ht, ht']; exact fm_swap h2)

theorem HInv.drop {s s' : DSt} (h : HInv s) {pre post : List Thread} {th : Thread}
    (ht : s.threads = pre ++ th :: post) (ht' : s'.threads = pre ++ post)
    (hi : s'.incomplete = s.incomplete) (hc : s'.committed = s.committed) (hn : s'.names = s.names) : HInv s' :=
  h.next hi hc hn (by rw [ht, ht']; exact fm_drop) (by rw [ht, ht']; exact fm_drop)

theorem hInv_step {s s' : DSt} (hid : IdInv s) (h : HInv s) (hs : Step c s s') : HInv s' := by
  have q : ∀ {s1 : DSt}, s1.incomplete = s.incomplete → s1.committed = s.committed → s1.names = s.names →
      s1.threads = s.threads → HInv s1 := fun e1 e2 e3 e4 =>
    h.next e1 e2 e3 (by rw [e4]) (by rw [e4])
  cases hs with
  | createMeta junk ht hp hl ha hn hj =>
    rename_i pre th post m mo a' id
    have hup : ∀ x, s.names x ≠ none → upd s.names id (some (mo, m)) x ≠ none := fun x hx => upd_ne_none hx (by simp)
    have hnone : s.incomplete id = none := by
      by_contra hne
      exact hid.incNamed id hne hn
    have hh := h.hids
    have ht0 := h.tp
    rw [ht] at hh ht0
    have e1 : (withPc th (.createMeta ⟨id, m⟩
          ⟨.incomplete, id, mo, MetaPage.directRecorded c.pages m.enc.length⟩ (m.enc ++ junk))).pc.hids = [id] := rfl
    have e2 : (withPc th (.createMeta ⟨id, m⟩
          ⟨.incomplete, id, mo, MetaPage.directRecorded c.pages m.enc.length⟩ (m.enc ++ junk))).pc.tp = [id] := rfl
    refine ⟨fm_nodup_swap hh (by rw [e1]; simp) ?_, ?_, fm_nodup_swap ht0 (by rw [e2]; simp) ?_, ?_, h.ic,
      fun k o ho => hup _ (h.comNamed k o ho), h.comInj⟩
    · rw [e1]
      intro x hx hx'
      simp only [mem_singleton] at hx
      subst hx
      exact (h.hfree x (by rw [ht]; exact fm_mem_drop hx')).2.2 hn
    · intro x hx
      rcases fm_mem_swap hx with hx | hx
      · rw [e1] at hx
        simp only [mem_singleton] at hx
        subst hx
        exact ⟨hnone, fun k o ho he => h.comNamed k o ho (he ▸ hn), by simp [upd]⟩
      · obtain ⟨h1, h2, h3⟩ := h.hfree x (by rw [ht]; exact fm_mem_drop hx)
        exact ⟨h1, h2, hup _ h3⟩
    · rw [e2]
      intro x hx hx'
      simp only [mem_singleton] at hx
      subst hx
      exact (h.tpfree x (by rw [ht]; exact fm_mem_drop hx')).2 hn
    · intro x hx
      rcases fm_mem_swap hx with hx | hx
      · rw [e2] at hx
        simp only [mem_singleton] at hx
        subst hx
        exact ⟨hnone, by simp [upd]⟩
      · obtain ⟨h1, h2⟩ := h.tpfree x (by rw [ht]; exact fm_mem_drop hx)
        exact ⟨h1, hup _ h2⟩
  | createData key size created _ _ _ _ => exact h.next rfl rfl rfl (fm_snoc rfl) (fm_snoc rfl)
  | createDataPanic size _ _ => exact h.next rfl rfl rfl (fm_snoc rfl) (fm_snoc rfl)
  | createMetaPanic ht hp _ => exact h.swap (pc := .dead) ht rfl (nil_sublist _) (nil_sublist _) rfl rfl rfl
  | device dev' _ => exact q rfl rfl rfl rfl
  | metaWritten ht hp => exact h.swap ht rfl (by rw [hp]; exact Sublist.refl _) (by rw [hp]; exact Sublist.refl _) rfl rfl rfl
  | createInsert ht hp _ => exact h.swap ht rfl (by rw [hp]; exact Sublist.refl _) (by rw [hp]; exact Sublist.refl _) rfl rfl rfl
  | createInsertPanic ht hp _ => exact h.swap (pc := .dead) ht rfl (nil_sublist _) (nil_sublist _) rfl rfl rfl
  | created ht hp hf =>
    rename_i pre th post o ticket
    have hh := h.hids
    have ht0 := h.tp
    rw [ht] at hh ht0
    have m1 : o.id ∈ (fun th : Thread => th.pc.hids) th := by simp [hp, PC.hids, PC.tids]
    have m2 : o.id ∈ (fun th : Thread => th.pc.tp) th := by simp [hp, PC.tp, PC.tids]
    refine ⟨hh.sublist fm_drop, ?_, ht0.sublist fm_drop, ?_, ?_, h.comNamed, h.comInj⟩
    · intro x hx
      obtain ⟨h1, h2, h3⟩ := h.hfree x (by rw [ht]; exact fm_mem_drop hx)
      refine ⟨?_, h2, h3⟩
      have : x ≠ o.id := by rintro rfl; exact fm_other hh m1 hx
      simp only [upd, if_neg this]; exact h1
    · intro x hx
      obtain ⟨h1, h2⟩ := h.tpfree x (by rw [ht]; exact fm_mem_drop hx)
      refine ⟨?_, h2⟩
      have : x ≠ o.id := by rintro rfl; exact fm_other ht0 m2 hx
      simp only [upd, if_neg this]; exact h1
    · intro x hx k o' ho'
      simp only [upd] at hx
      split at hx
      · rename_i e; subst e
        exact (h.hfree o.id (by rw [ht]; exact fm_mid m1)).2.1 k o' ho'
      · exact h.ic x hx k o' ho'
  | openHandle id hi => exact q rfl rfl rfl rfl
  | writeStart data _ _ _ _ => exact q rfl rfl rfl rfl
  | writeDone _ => exact q rfl rfl rfl rfl
  | writeCancel _ => exact q rfl rfl rfl rfl
  | orphanDone _ => exact q rfl rfl rfl rfl
  | bg hb => exact q rfl rfl rfl rfl
  | commitRefused id hi => exact q rfl rfl rfl rfl
  | missing k want _ => exact q rfl rfl rfl rfl
  | inspect k want _ _ => exact q rfl rfl rfl rfl
  | commitClaim id ifne hi =>
    rename_i o
    have e := hid.incKey _ _ hi
    have hne : s.incomplete id ≠ none := by rw [hi]; simp
    have e1 : (⟨s.nextCall, s.lin.length, .commitClaimed o ifne⟩ : Thread).pc.hids = [id] := by simp [PC.hids, PC.tids, PC.vobj, e]
    have e2 : (⟨s.nextCall, s.lin.length, .commitClaimed o ifne⟩ : Thread).pc.tp = [id] := by simp [PC.tp, PC.tids, PC.pnew, e]
    refine ⟨fm_nodup_snoc h.hids (by rw [e1]; simp) ?_, ?_, fm_nodup_snoc h.tp (by rw [e2]; simp) ?_, ?_, ?_, h.comNamed, h.comInj⟩
    · rw [e1]
      intro x hx hx'
      simp only [mem_singleton] at hx
      subst hx
      exact hne (h.hfree x hx').1
    · intro x hx
      simp only [fm_snoc', mem_append, e1, mem_singleton] at hx
      rcases hx with hx | rfl
      · obtain ⟨h1, h2, h3⟩ := h.hfree x hx
        refine ⟨?_, h2, h3⟩
        simp only [upd]; split
        · rfl
        · exact h1
      · exact ⟨by simp [upd], h.ic x hne, hid.incNamed x hne⟩
    · rw [e2]
      intro x hx hx'
      simp only [mem_singleton] at hx
      subst hx
      exact hne (h.tpfree x hx').1
    · intro x hx
      simp only [fm_snoc', mem_append, e2, mem_singleton] at hx
      rcases hx with hx | rfl
      · obtain ⟨h1, h2⟩ := h.tpfree x hx
        refine ⟨?_, h2⟩
        simp only [upd]; split
        · rfl
        · exact h1
      · exact ⟨by simp [upd], hid.incNamed x hne⟩
    · intro x hx
      simp only [upd] at hx
      split at hx
      · simp at hx
      · exact h.ic x hx
  | commitSeal ht hp => exact h.swap ht rfl (by rw [hp]; exact Sublist.refl _) (by rw [hp]; exact Sublist.refl _) rfl rfl rfl
  | commitKept ht hp _ _ => exact h.swap ht rfl (by rw [hp]; exact Sublist.refl _) (by rw [hp]; exact Sublist.refl _) rfl rfl rfl
  | commitPublish ht hp hw hk hn =>
    rename_i pre th post o ifne newId
    have hnm : s.names o.id ≠ none := hid.nids _ (ht ▸ mem_mid) _ (by rw [hp]; simp [PC.nid])
    have hup : ∀ x, s.names x ≠ none → upd s.names newId (s.names o.id) x ≠ none := fun x hx => upd_ne_none hx hnm
    have hnew : upd s.names newId (s.names o.id) newId ≠ none := by simpa [upd] using hnm
    have hnone : s.incomplete newId = none := by
      by_contra hne
      exact hid.incNamed newId hne hn
    have hh := h.hids
    have ht0 := h.tp
    rw [ht] at hh ht0
    have m1 : o.id ∈ (fun th : Thread => th.pc.hids) th := by simp [hp, PC.hids, PC.tids]
    have m2 : o.id ∈ (fun th : Thread => th.pc.tp) th := by simp [hp, PC.tp, PC.tids]
    have f1 := h.hfree o.id (by rw [ht]; exact fm_mid m1)
    have e1 : (withPc th (.commitPublished o.id ⟨newId, o.m⟩ (s.committed o.m.key))).pc.hids =
        o.id :: (s.committed o.m.key).toList.map (·.id) := rfl
    have e2 : (withPc th (.commitPublished o.id ⟨newId, o.m⟩ (s.committed o.m.key))).pc.tp = [o.id, newId] := rfl
    have hcom : ∀ k o', updKey s.committed o.m.key (some ⟨newId, o.m⟩) k = some o' →
        (k = o.m.key ∧ o' = ⟨newId, o.m⟩) ∨ (k ≠ o.m.key ∧ s.committed k = some o') := by
      intro k o' ho'
      simp only [updKey] at ho'
      split at ho'
      · rename_i e; cases ho'; exact Or.inl ⟨e, rfl⟩
      · rename_i e; exact Or.inr ⟨e, ho'⟩
    have hex : ∀ x ∈ (s.committed o.m.key).toList.map (·.id), ∃ e, s.committed o.m.key = some e ∧ e.id = x := by
      intro x hx
      obtain ⟨e, he, rfl⟩ := mem_map.1 hx
      exact ⟨e, by simpa using he, rfl⟩
    refine ⟨fm_nodup_swap hh ?_ ?_, ?_, fm_nodup_swap ht0 ?_ ?_, ?_, ?_, ?_, ?_⟩
    · rw [e1, nodup_cons]
      constructor
      · intro hc
        obtain ⟨e, he, he'⟩ := hex _ hc
        exact f1.2.1 _ _ he he'
      · cases s.committed o.m.key <;> simp
    · rw [e1]
      intro x hx hx'
      rcases mem_cons.1 hx with rfl | hx
      · exact fm_other hh m1 hx'
      · obtain ⟨e, he, rfl⟩ := hex _ hx
        exact (h.hfree e.id (by rw [ht]; exact fm_mem_drop hx')).2.1 _ _ he rfl
    · intro x hx
      have hold : s.incomplete x = none ∧ (∀ k o', updKey s.committed o.m.key (some ⟨newId, o.m⟩) k = some o' → o'.id ≠ x)
          ∧ s.names x ≠ none := by
        have hnx : s.names x ≠ none → x ≠ newId := by rintro h rfl; exact h hn
        rcases fm_mem_swap hx with hx | hx
        · rw [e1] at hx
          rcases mem_cons.1 hx with rfl | hx
          · refine ⟨f1.1, ?_, f1.2.2⟩
            intro k o' ho'
            rcases hcom k o' ho' with ⟨_, rfl⟩ | ⟨_, ho'⟩
            · exact fun e => hnx f1.2.2 e.symm
            · exact f1.2.1 k o' ho'
          · obtain ⟨e, he, rfl⟩ := hex _ hx
            have hen := h.comNamed _ _ he
            refine ⟨?_, ?_, hen⟩
            · by_contra hne
              exact h.ic _ hne _ _ he rfl
            · intro k o' ho'
              rcases hcom k o' ho' with ⟨_, rfl⟩ | ⟨hk', ho'⟩
              · exact fun e => hnx hen e.symm
              · exact fun e' => hk' (h.comInj _ _ _ _ ho' he e')
        · have f2 := h.hfree x (by rw [ht]; exact fm_mem_drop hx)
          refine ⟨f2.1, ?_, f2.2.2⟩
          intro k o' ho'
          rcases hcom k o' ho' with ⟨_, rfl⟩ | ⟨_, ho'⟩
          · exact fun e => hnx f2.2.2 e.symm
          · exact f2.2.1 k o' ho'
      exact ⟨hold.1, hold.2.1, hup _ hold.2.2⟩
    · rw [e2]
      have : o.id ≠ newId := by intro e; exact hnm (e ▸ hn)
      simpa using this
    · rw [e2]
      intro x hx hx'
      simp only [mem_cons, not_mem_nil, or_false] at hx
      rcases hx with rfl | rfl
      · exact fm_other ht0 m2 hx'
      · exact (h.tpfree x (by rw [ht]; exact fm_mem_drop hx')).2 hn
    · intro x hx
      rcases fm_mem_swap hx with hx | hx
      · rw [e2] at hx
        simp only [mem_cons, not_mem_nil, or_false] at hx
        rcases hx with rfl | rfl
        · exact ⟨f1.1, hup _ f1.2.2⟩
        · exact ⟨hnone, hnew⟩
      · have f2 := h.tpfree x (by rw [ht]; exact fm_mem_drop hx)
        exact ⟨f2.1, hup _ f2.2⟩
    · intro x hx k o' ho'
      rcases hcom k o' ho' with ⟨_, rfl⟩ | ⟨_, ho'⟩
      · rintro rfl; exact hx hnone
      · exact h.ic x hx k o' ho'
    · intro k o' ho'
      rcases hcom k o' ho' with ⟨_, rfl⟩ | ⟨_, ho'⟩
      · exact hnew
      · exact hup _ (h.comNamed k o' ho')
    · intro k o1 k' o2 h1 h2 he
      rcases hcom k o1 h1 with ⟨rfl, rfl⟩ | ⟨_, h1⟩ <;> rcases hcom k' o2 h2 with ⟨rfl, rfl⟩ | ⟨_, h2⟩
      · rfl
      · exact absurd hn (by have := h.comNamed _ _ h2; rw [← he] at this; exact this)
      · exact absurd hn (by have := h.comNamed _ _ h1; rw [he] at this; exact this)
      · exact h.comInj _ _ _ _ h1 h2 he
  | commitUpdate ht hp _ =>
    refine h.swap ht rfl ?_ ?_ rfl rfl rfl
    · rw [hp]; exact sublist_append_right _ _
    · exact nil_sublist _
  | commitUpdatePanic ht hp _ => exact h.swap (pc := .dead) ht rfl (nil_sublist _) (nil_sublist _) rfl rfl rfl
  | commitDone ht hp hf => exact h.drop ht rfl rfl rfl rfl
  | commitReap ht hp hf => exact h.swap ht rfl (by rw [hp]; exact Sublist.refl _) (by rw [hp]; exact Sublist.refl _) rfl rfl rfl
  | delete k want hk hw =>
    rename_i o
    have e1 : (⟨s.nextCall, s.lin.length, .reap o .deleted⟩ : Thread).pc.hids = [o.id] := rfl
    have hcom : ∀ k' o', updKey s.committed k none k' = some o' → k' ≠ k ∧ s.committed k' = some o' := by
      intro k' o' ho'
      simp only [updKey] at ho'
      split at ho'
      · simp at ho'
      · rename_i e; exact ⟨e, ho'⟩
    refine ⟨fm_nodup_snoc h.hids (by rw [e1]; simp) ?_, ?_, h.tp.sublist (fm_snoc rfl),
      fun id hid => h.tpfree id ((fm_snoc rfl).subset hid), ?_, ?_, ?_⟩
    · rw [e1]
      intro x hx hx'
      simp only [mem_singleton] at hx
      subst hx
      exact (h.hfree _ hx').2.1 _ _ hk rfl
    · intro x hx
      simp only [fm_snoc', mem_append, e1, mem_singleton] at hx
      rcases hx with hx | rfl
      · obtain ⟨h1, h2, h3⟩ := h.hfree x hx
        exact ⟨h1, fun k' o' ho' => h2 k' o' (hcom k' o' ho').2, h3⟩
      · refine ⟨?_, ?_, h.comNamed _ _ hk⟩
        · by_contra hne
          exact h.ic _ hne _ _ hk rfl
        · intro k' o' ho' he
          obtain ⟨h1, h2⟩ := hcom k' o' ho'
          exact h1 (h.comInj _ _ _ _ h2 hk he)
    · intro x hx k' o' ho'
      exact h.ic x hx k' o' (hcom k' o' ho').2
    · intro k' o' ho'
      exact h.comNamed k' o' (hcom k' o' ho').2
    · intro k1 o1 k2 o2 h1 h2 he
      exact h.comInj _ _ _ _ (hcom _ _ h1).2 (hcom _ _ h2).2 he
  | reapTuple ht hp hd => exact h.swap (pc := .reapTuple _ _ _ _) ht rfl (nil_sublist _) (nil_sublist _) rfl rfl rfl
  | reapPanic ht hp hd => exact h.swap (pc := .dead) ht rfl (nil_sublist _) (nil_sublist _) rfl rfl rfl
  | reaped ht hp hf ha => exact h.drop ht rfl rfl rfl rfl

/-! ## What start-up finds -/

/-- the metadata of a tuple's object, as start-up reads it -/
def tmeta (dev : Mem) (t : Tuple) : Option Meta := Meta.dec (dev.read t.metaOff (2 ^ t.metaPow2))

structure LoadFrom (dev : Mem) (done : List Tuple) (l : LoadSt) : Prop where
  inc : ∀ id o, l.incomplete id = some o → ∃ t ∈ done, t.state = .incomplete ∧ t.id = id ∧ o.id = id ∧ tmeta dev t = some o.m
  com : ∀ k o, l.committed k = some o → ∃ t ∈ done, t.state = .committed ∧ t.id = o.id ∧ tmeta dev t = some o.m ∧ o.m.key = k

theorem loadFrom_one {dev : Mem} {done : List Tuple} {l l' : LoadSt} {t : Tuple} (h : LoadFrom dev done l)
    (ht : t ∈ done) (hs : loadOne c dev l t = some l') : LoadFrom dev done l' := by
  obtain ⟨m, hm, _, h'⟩ := loadOne_some hs
  obtain ⟨h1, h2⟩ := h
  have hupd : t.state = .committed → ∀ k o, updKey l.committed m.key (some ⟨t.id, m⟩) k = some o →
      ∃ t ∈ done, t.state = .committed ∧ t.id = o.id ∧ tmeta dev t = some o.m ∧ o.m.key = k := by
    intro hst k o ho
    simp only [updKey] at ho
    split at ho
    · rename_i e; cases ho; exact ⟨t, ht, hst, rfl, hm, e.symm⟩
    · exact h2 _ _ ho
  rcases h' with ⟨hst, _, e1, e2, _⟩ | ⟨hst, _, e1, e2, _⟩ | ⟨hst, e, _, e1, _, ⟨_, e2, _⟩ | ⟨_, e2, _⟩⟩
  · refine ⟨?_, by rw [e2]; exact h2⟩
    rw [e1]
    intro id o ho
    simp only [upd] at ho
    split at ho
    · rename_i e; cases ho; subst e; exact ⟨t, ht, hst, rfl, rfl, hm⟩
    · exact h1 _ _ ho
  · exact ⟨by rw [e1]; exact h1, by rw [e2]; exact hupd hst⟩
  · exact ⟨by rw [e1]; exact h1, by rw [e2]; exact h2⟩
  · exact ⟨by rw [e1]; exact h1, by rw [e2]; exact hupd hst⟩

theorem loadFrom_all {dev : Mem} {a0 : Buddy} {order : List Tuple} {l : LoadSt}
    (h : loadAll c dev ⟨a0, fun _ => none, fun _ => none, false⟩ order = some l) : LoadFrom dev order l :=
  loadAll_inv (fun _ ht _ _ hI hs => loadFrom_one hI ht hs) ⟨by simp, by simp⟩ h

theorem disk_id_inj {n max : Nat} {disk : Nat → List Tuple} (h : TS.newOk max n disk) {t u : Tuple}
    (ht : ∃ b, b < n ∧ t ∈ disk b) (hu : ∃ b, b < n ∧ u ∈ disk b) (he : t.id = u.id) : t = u := by
  obtain ⟨b, hb, ht⟩ := ht
  obtain ⟨b', hb', hu⟩ := hu
  obtain ⟨_, _, h3, h4⟩ := h
  by_cases hbb : b = b'
  · subst hbb
    exact inj_on_of_nodup_map (h3 b hb) ht hu he
  · exact absurd he (h4 b b' hb hb' hbb t ht u hu)

theorem hInv_load {s s' : DSt} {order : List Tuple} (hid : IdInv s) (hp : order.Perm (diskTuples c.n s.ts))
    (hl : load c s order = some s') : HInv s' := by
  obtain ⟨a0, l, _, h1, hok, rfl⟩ := load_some hl
  have hlf := loadFrom_all h1
  have hord : ∀ t ∈ order, ∃ b, b < c.n ∧ t ∈ s.ts.disk b := fun t ht => mem_diskTuples.1 (hp.mem_iff.1 ht)
  refine ⟨by simp, by simp, by simp, by simp, ?_, ?_, ?_⟩
  · intro id hne k o ho he
    obtain ⟨o', ho'⟩ := Option.ne_none_iff_exists'.1 hne
    obtain ⟨t, ht, hst, hti, _⟩ := hlf.inc id o' ho'
    obtain ⟨u, hu, hsu, hui, _⟩ := hlf.com k o ho
    have := disk_id_inj hok (hord t ht) (hord u hu) (by rw [hti, hui, he])
    subst this
    rw [hst] at hsu; cases hsu
  · intro k o ho
    obtain ⟨u, hu, hsu, hui, _⟩ := hlf.com k o ho
    obtain ⟨b, _, hb⟩ := hord u hu
    have := hid.imgs.disk b u hb
    rw [hui] at this; exact this
  · intro k o k' o' ho ho' he
    obtain ⟨u, hu, hsu, hui, hum, huk⟩ := hlf.com k o ho
    obtain ⟨u', hu', hsu', hui', hum', huk'⟩ := hlf.com k' o' ho'
    have := disk_id_inj hok (hord u hu) (hord u' hu') (by rw [hui, hui', he])
    subst this
    rw [hum] at hum'
    simp only [Option.some.injEq] at hum'
    rw [← huk, ← huk', hum']

theorem reach_h {s : DSt} (h : Reach c s) : HInv s := by
  induction h with
  | fresh h =>
    unfold fresh at h
    split at h
    · simp at h
    · cases h
      refine ⟨by simp, by simp, by simp, by simp, by simp, by simp, by simp⟩
  | step hr hs ih => exact hInv_step (reach_id hr) ih hs
  | restart order hr hp hl ih => exact hInv_load (reach_id hr) hp hl

/-! ## Which ids have tuples in memory -/

/-- token ids whose tuple exists -/
def PC.tmem : PC → List Nat
  | .createTuple o _ => [o.id]
  | .commitClaimed o _ => [o.id]
  | .commitSealed o _ => [o.id]
  | .commitPublished old _ _ => [old]
  | .reap o .kept => [o.id]
  | _ => []

def HasTuple (ts : TS) (id : Nat) (st : ObjState) : Prop := ∃ b, ∃ t ∈ ts.bundles b, t.id = id ∧ t.state = st

/-- the commit that made `o` visible has not changed its tuple yet -/
def Pending (s : DSt) (o : Obj) : Prop := ∃ th ∈ s.threads, ∃ old ex, th.pc = .commitPublished old o ex

structure KInv (s : DSt) : Prop where
  tk : ∀ id ∈ s.threads.flatMap (fun th => th.pc.tmem), HasTuple s.ts id .incomplete
  tki : ∀ id, s.incomplete id ≠ none → HasTuple s.ts id .incomplete
  ck : ∀ k o, s.committed k = some o → HasTuple s.ts o.id .committed ∨ Pending s o
  vk : ∀ o ∈ s.threads.flatMap (fun th => th.pc.vobj), HasTuple s.ts o.id .committed ∨ Pending s o
  pm : ∀ id ∈ s.threads.flatMap (fun th => th.pc.pnew), ∀ b, ∀ t ∈ s.ts.bundles b, t.id ≠ id
  ins : ∀ th ∈ s.threads, ∀ o t page, th.pc = .createMeta o t page ∨ th.pc = .createInsert o t → t.id = o.id ∧ t.state = .incomplete

theorem tmem_sub_tids (pc : PC) : ∀ x ∈ pc.tmem, x ∈ pc.tids := by
  intro x hx
  unfold PC.tmem at hx
  split at hx <;> simp_all [PC.tids]

theorem tids_sub_hids (pc : PC) : ∀ x ∈ pc.tids, x ∈ pc.hids := fun x hx => mem_append_left _ hx
theorem tids_sub_tp (pc : PC) : ∀ x ∈ pc.tids, x ∈ pc.tp := fun x hx => mem_append_left _ hx
theorem vobj_sub_hids (pc : PC) : ∀ o ∈ pc.vobj, o.id ∈ pc.hids := fun o ho => mem_append_right _ (mem_map_of_mem ho)

theorem hasTuple_insert {max n : Nat} {s s' : TS} {o : Tuple} (hs : s.insertObject max n o = some s') :
    (∀ id st, HasTuple s id st → HasTuple s' id st) ∧ HasTuple s' o.id o.state := by
  obtain ⟨b', _, _, _, _, rfl⟩ := insert_eq hs
  constructor
  · rintro id st ⟨b, t, ht, h1, h2⟩
    refine ⟨b, t, ?_, h1, h2⟩
    simp only [upd]; split
    · rename_i e; subst e; simp [ht]
    · exact ht
  · exact ⟨b', o, by simp [upd], rfl, rfl⟩

theorem hasTuple_update {max : Nat} {s s' : TS} {cur new : Nat} {st' : ObjState}
    (hs : s.updateObject max cur new st' = some s') :
    (∀ id st, id ≠ cur → HasTuple s id st → HasTuple s' id st) ∧ HasTuple s' new st' := by
  obtain ⟨b', u, h1, h2, h3, _, _, rfl⟩ := update_eq hs
  constructor
  · rintro id st hne ⟨b, t, ht, hA, hB⟩
    refine ⟨b, t, ?_, hA, hB⟩
    simp only [upd]; split
    · rename_i e; subst e
      simp only [mem_append, mem_filter]
      exact Or.inl ⟨ht, by rw [← hA] at hne; simpa using hne⟩
    · exact ht
  · exact ⟨b', _, by simp only [upd_same, mem_append, mem_singleton]; exact Or.inr rfl, rfl, rfl⟩

theorem hasTuple_delete {s s' : TS} {id : Nat} {t : Tuple} (hs : s.deleteObject id = some (s', t)) :
    ∀ id' st, id' ≠ id → HasTuple s id' st → HasTuple s' id' st := by
  obtain ⟨b', h1, h2, h3, rfl⟩ := delete_eq hs
  rintro id' st hne ⟨b, t, ht, hA, hB⟩
  refine ⟨b, t, ?_, hA, hB⟩
  simp only [upd]; split
  · rename_i e; subst e
    exact mem_filter.2 ⟨ht, by rw [← hA] at hne; simpa using hne⟩
  · exact ht

theorem pend_mem {s : DSt} {o : Obj} : Pending s o → o.id ∈ s.threads.flatMap (fun th => th.pc.pnew) := by
  rintro ⟨th, hth, old, ex, hp⟩
  exact mem_flatMap.2 ⟨th, hth, by simp [hp, PC.pnew]⟩

/-- a pending commit of another thread stays pending -/
theorem pend_swap {s s' : DSt} {pre post : List Thread} {th : Thread} {pc : PC} (ht : s.threads = pre ++ th :: post)
    (ht' : s'.threads = pre ++ withPc th pc :: post ∨ s'.threads = pre ++ post)
    (hp : ∀ old o ex, th.pc ≠ .commitPublished old o ex) {o : Obj} (h : Pending s o) : Pending s' o := by
  obtain ⟨x, hx, old, ex, hxp⟩ := h
  refine ⟨x, ?_, old, ex, hxp⟩
  rw [ht] at hx
  have hne : x ≠ th := by rintro rfl; exact hp _ _ _ hxp
  simp only [mem_append, mem_cons] at hx
  rcases ht' with e | e <;> rw [e] <;> simp only [mem_append, mem_cons] <;> tauto

/-- one thread moves on, the index is unchanged -/
theorem KInv.swap {s s' : DSt} (h : KInv s) {pre post : List Thread} {th : Thread} {pc : PC}
    (ht : s.threads = pre ++ th :: post)
    (ht' : s'.threads = pre ++ withPc th pc :: post) (hts : s'.ts = s.ts)
    (hi : ∀ id, s'.incomplete id ≠ none → s.incomplete id ≠ none) (hc : s'.committed = s.committed)
    (h1 : ∀ x ∈ pc.tmem, x ∈ th.pc.tmem) (h2 : ∀ x ∈ pc.vobj, x ∈ th.pc.vobj) (h3 : pc.pnew = [])
    (h4 : ∀ old o ex, th.pc ≠ .commitPublished old o ex)
    (h5 : ∀ o t page, pc = .createMeta o t page ∨ pc = .createInsert o t → t.id = o.id ∧ t.state = .incomplete) : KInv s' := by
  obtain ⟨k1, k2, k3, k4, k5, k6⟩ := h
  have hp : ∀ {o}, Pending s o → Pending s' o := fun h => pend_swap ht (Or.inl ht') h4 h
  have sub : ∀ {β : Type} {f : PC → List β}, (∀ x ∈ f pc, x ∈ f th.pc) → ∀ x ∈ s'.threads.flatMap (fun th => f th.pc),
      x ∈ s.threads.flatMap (fun th => f th.pc) := by
    intro β f hf x hx
    rw [ht'] at hx
    rw [ht]
    rcases fm_mem_swap hx with hx | hx
    · exact fm_mid (hf x hx)
    · exact fm_mem_drop hx
  refine ⟨?_, ?_, ?_, ?_, ?_, ?_⟩
  · rw [hts]; exact fun id hid => k1 id (sub h1 id hid)
  · rw [hts]; exact fun id hid => k2 id (hi id hid)
  · rw [hts, hc]; exact fun k o ho => (k3 k o ho).imp_right hp
  · rw [hts]; exact fun o ho => (k4 o (sub h2 o ho)).imp_right hp
  · rw [hts]; exact fun id hid => k5 id (sub (f := PC.pnew) (by rw [h3]; simp) id hid)
  · intro x hx
    rw [ht'] at hx
    rcases mem_swap (b := th) hx with rfl | hx
    · exact h5
    · exact k6 x (ht ▸ hx)

theorem KInv.drop {s s' : DSt} (h : KInv s) {pre post : List Thread} {th : Thread}
    (ht : s.threads = pre ++ th :: post)
    (ht' : s'.threads = pre ++ post) (hts : s'.ts = s.ts)
    (hi : ∀ id, s'.incomplete id ≠ none → s.incomplete id ≠ none ∨ HasTuple s.ts id .incomplete) (hc : s'.committed = s.committed)
    (h4 : ∀ old o ex, th.pc ≠ .commitPublished old o ex) : KInv s' := by
  obtain ⟨k1, k2, k3, k4, k5, k6⟩ := h
  have hp : ∀ {o}, Pending s o → Pending s' o := fun h => pend_swap (pc := .dead) ht (Or.inr ht') h4 h
  have sub : ∀ {β : Type} {f : PC → List β}, ∀ x ∈ s'.threads.flatMap (fun th => f th.pc),
      x ∈ s.threads.flatMap (fun th => f th.pc) := by
    intro β f x hx
    rw [ht'] at hx
    rw [ht]
    exact fm_mem_drop hx
  refine ⟨?_, ?_, ?_, ?_, ?_, ?_⟩
  · rw [hts]; exact fun id hid => k1 id (sub id hid)
  · rw [hts]; exact fun id hid => (hi id hid).elim (k2 id) (fun h => h)
  · rw [hts, hc]; exact fun k o ho => (k3 k o ho).imp_right hp
  · rw [hts]; exact fun o ho => (k4 o (sub o ho)).imp_right hp
  · rw [hts]; exact fun id hid => k5 id (sub id hid)
  · intro x hx
    rw [ht'] at hx
    exact k6 x (by rw [ht]; simp only [mem_append, mem_cons] at hx ⊢; tauto)

theorem KInv.same {s s' : DSt} (h : KInv s) (ht : s'.threads = s.threads) (hts : s'.ts.bundles = s.ts.bundles)
    (hi : s'.incomplete = s.incomplete) (hc : s'.committed = s.committed) : KInv s' := by
  obtain ⟨k1, k2, k3, k4, k5, k6⟩ := h
  refine ⟨?_, ?_, ?_, ?_, ?_, ?_⟩ <;> simp only [HasTuple, Pending, ht, hts, hi, hc]
  · exact k1
  · exact k2
  · exact k3
  · exact k4
  · exact k5
  · exact k6

theorem hasTuple_toBundle {max n : Nat} {s : TS} (hT : TInv max n s) {id : Nat} {st : ObjState} (h : HasTuple s id st) :
    ∃ b, s.toBundle id = some b ∧ ∃ t ∈ s.bundles b, t.id = id ∧ t.state = st := by
  obtain ⟨b, t, ht, h1, h2⟩ := h
  have hb : b < n := by
    by_contra hge
    rw [(hT.out b (by omega)).1] at ht
    simp at ht
  exact ⟨b, (hT.idx id b).2 ⟨hb, t, ht, h1⟩, t, ht, h1, h2⟩

theorem update_ok {max n : Nat} {s : TS} (hT : TInv max n s) {old new : Nat} {st st' : ObjState} (h : HasTuple s old st)
    (hnew : ∀ b, ∀ t ∈ s.bundles b, t.id ≠ new) : s.updateObject max old new st' ≠ none := by
  obtain ⟨b, hb, t, ht, h1, h2⟩ := hasTuple_toBundle hT h
  unfold TS.updateObject
  have hf : (s.bundles b).find? (fun t => t.id == old) ≠ none := by
    rw [Ne, find?_eq_none]
    intro hc
    exact hc t ht (by simpa using h1)
  obtain ⟨u, hu⟩ := Option.ne_none_iff_exists'.1 hf
  simp only [hb, hu, Option.bind_eq_bind, Option.bind_some]
  rw [if_neg, if_neg]
  · simp
  · intro hc
    obtain ⟨b', hb'⟩ := Option.isSome_iff_exists.1 hc
    simp only [upd] at hb'
    split at hb'
    · simp at hb'
    · obtain ⟨_, v, hv, hv'⟩ := (hT.idx new b').1 hb'
      exact hnew _ _ hv hv'
  · intro hc
    obtain ⟨v, hv, hv'⟩ := any_eq_true.1 hc
    exact hnew _ _ (mem_filter.1 hv).1 (by simpa using hv')

theorem delete_ok {max n : Nat} {s : TS} (hT : TInv max n s) {id : Nat} {st : ObjState} (h : HasTuple s id st) :
    s.deleteObject id ≠ none := by
  obtain ⟨b, hb, t, ht, h1, h2⟩ := hasTuple_toBundle hT h
  unfold TS.deleteObject
  have hf : (s.bundles b).find? (fun t => t.id == id) ≠ none := by
    rw [Ne, find?_eq_none]
    intro hc
    exact hc t ht (by simpa using h1)
  obtain ⟨u, hu⟩ := Option.ne_none_iff_exists'.1 hf
  simp [hb, hu]

theorem tInv_step {s s' : DSt} (h : TInv c.max c.n s.ts) (ht : Tickets s.ts) (hs : Step c s s') :
    TInv c.max c.n s'.ts ∧ Tickets s'.ts := by
  cases hs with
  | createInsert _ _ hi => exact ⟨insert_inv h hi, tickets_step h ht (.insert _ hi)⟩
  | commitUpdate _ _ hi => exact ⟨update_inv h hi, tickets_step h ht (.update _ _ _ hi)⟩
  | reapTuple _ _ hi => exact ⟨delete_inv h hi, tickets_step h ht (.delete _ _ hi)⟩
  | bg hi => exact ⟨bg_inv h hi, tickets_bg h ht hi⟩
  | _ => exact ⟨h, ht⟩

theorem reach_t {s : DSt} (h : Reach c s) : TInv c.max c.n s.ts ∧ Tickets s.ts := by
  induction h with
  | fresh h =>
    unfold fresh at h
    split at h
    · simp at h
    · cases h
      refine ⟨new_inv ⟨by simp, by simp, by simp, by simp⟩, tickets_new _⟩
  | step hr hs ih => exact tInv_step ih.1 ih.2 hs
  | restart order hr hp hl ih =>
    obtain ⟨a0, l, _, h1, hok, rfl⟩ := load_some hl
    exact ⟨new_inv hok, tickets_new _⟩

theorem kInv_step {s s' : DSt} (hT : TInv c.max c.n s.ts) (hid : IdInv s) (hH : HInv s) (h : KInv s) (hs : Step c s s') : KInv s' := by
  have hk := h
  obtain ⟨k1, k2, k3, k4, k5, k6⟩ := h
  cases hs with
  | createMeta junk ht hp hl ha hn hj =>
    exact hk.swap ht rfl rfl (fun _ h => h) rfl (by simp [PC.tmem]) (by simp [PC.vobj]) rfl (by rw [hp]; simp)
      (by rintro o t page (h | h) <;> cases h; exact ⟨rfl, rfl⟩)
  | createData key size created _ _ _ _ =>
    refine ⟨?_, k2, ?_, ?_, ?_, ?_⟩
    · exact fun id hid => k1 id ((fm_snoc rfl).subset hid)
    · exact fun k o ho => (k3 k o ho).imp_right (fun ⟨x, hx, hh⟩ => ⟨x, mem_append_left _ hx, hh⟩)
    · exact fun o ho => (k4 o ((fm_snoc rfl).subset ho)).imp_right (fun ⟨x, hx, hh⟩ => ⟨x, mem_append_left _ hx, hh⟩)
    · exact fun id hid => k5 id ((fm_snoc rfl).subset hid)
    · intro x hx
      rcases mem_append.1 hx with hx | hx
      · exact k6 x hx
      · simp only [mem_singleton] at hx; subst hx; simp
  | createDataPanic size _ _ =>
    refine ⟨?_, k2, ?_, ?_, ?_, ?_⟩
    · exact fun id hid => k1 id ((fm_snoc rfl).subset hid)
    · exact fun k o ho => (k3 k o ho).imp_right (fun ⟨x, hx, hh⟩ => ⟨x, mem_append_left _ hx, hh⟩)
    · exact fun o ho => (k4 o ((fm_snoc rfl).subset ho)).imp_right (fun ⟨x, hx, hh⟩ => ⟨x, mem_append_left _ hx, hh⟩)
    · exact fun id hid => k5 id ((fm_snoc rfl).subset hid)
    · intro x hx
      rcases mem_append.1 hx with hx | hx
      · exact k6 x hx
      · simp only [mem_singleton] at hx; subst hx; simp
  | createMetaPanic ht hp _ =>
    exact hk.swap (pc := .dead) ht rfl rfl (fun _ h => h) rfl (by simp [PC.tmem]) (by simp [PC.vobj]) rfl (by rw [hp]; simp) (by simp)
  | device dev' _ => exact hk.same rfl rfl rfl rfl
  | metaWritten ht hp =>
    refine hk.swap ht rfl rfl (fun _ h => h) rfl (by simp [PC.tmem]) (by simp [PC.vobj]) rfl (by rw [hp]; simp) ?_
    rintro o t page (h | h) <;> cases h
    exact k6 _ (ht ▸ mem_mid) _ _ _ (Or.inl hp)
  | createInsert ht hp hi =>
    rename_i pre th post o t ts'
    obtain ⟨e1, e2⟩ := k6 _ (ht ▸ mem_mid) o t [] (Or.inr hp)
    obtain ⟨g1, g2⟩ := hasTuple_insert hi
    rw [e1, e2] at g2
    have hpn : ∀ {o'}, Pending s o' → Pending ({ s with
        ts := ts'
        threads := pre ++ withPc th (.createTuple o s.ts.next) :: post
        recs := setRec s.recs t.metaOff (.live (chosen c.n s.ts)) } : DSt) o' :=
      fun h => pend_swap ht (Or.inl rfl) (by rw [hp]; simp) h
    refine ⟨?_, fun id hid => g1 _ _ (k2 id hid), ?_, ?_, ?_, ?_⟩
    · intro id hid
      rcases fm_mem_swap hid with hid | hid
      · simp only [withPc, PC.tmem, mem_singleton] at hid; subst hid; exact g2
      · exact g1 _ _ (k1 id (by rw [ht]; exact fm_mem_drop hid))
    · exact fun k o ho => (k3 k o ho).imp (g1 _ _) hpn
    · intro o' ho'
      refine (k4 o' ?_).imp (g1 _ _) hpn
      rw [ht]
      rcases fm_mem_swap ho' with hx | hx
      · simp [withPc, PC.vobj] at hx
      · exact fm_mem_drop hx
    · intro id hid' b u hu
      have hid'' : id ∈ (pre ++ post).flatMap (fun th => th.pc.pnew) := by
        rcases fm_mem_swap hid' with hx | hx
        · simp [withPc, PC.pnew] at hx
        · exact hx
      rcases insert_mem hi hu with hu | rfl
      · exact k5 id (by rw [ht]; exact fm_mem_drop hid'') b u hu
      · rw [e1]
        rintro rfl
        have htp := hH.tp
        rw [ht] at htp
        refine fm_other htp (x := o.id) (by simp [hp, PC.tp, PC.tids]) ?_
        obtain ⟨x, hx, hx'⟩ := mem_flatMap.1 hid''
        exact mem_flatMap.2 ⟨x, hx, mem_append_right _ hx'⟩
    · intro x hx
      rcases mem_swap (b := th) hx with rfl | hx
      · simp [withPc]
      · exact k6 x (ht ▸ hx)
  | createInsertPanic ht hp _ =>
    exact hk.swap (pc := .dead) ht rfl rfl (fun _ h => h) rfl (by simp [PC.tmem]) (by simp [PC.vobj]) rfl (by rw [hp]; simp) (by simp)
  | created ht hp hf =>
    rename_i pre th post o ticket
    refine hk.drop ht rfl rfl ?_ rfl (by rw [hp]; simp)
    intro id hid
    simp only [upd] at hid
    split at hid
    · rename_i e; subst e
      exact Or.inr (k1 _ (by rw [ht]; exact fm_mid (by simp [hp, PC.tmem])))
    · exact Or.inl hid
  | openHandle id hi => exact hk.same rfl rfl rfl rfl
  | writeStart data _ _ _ _ => exact hk.same rfl rfl rfl rfl
  | writeDone _ => exact hk.same rfl rfl rfl rfl
  | writeCancel _ => exact hk.same rfl rfl rfl rfl
  | orphanDone _ => exact hk.same rfl rfl rfl rfl
  | bg hb => exact hk.same rfl (bg_bundles hb).1 rfl rfl
  | commitRefused id hi => exact hk.same rfl rfl rfl rfl
  | missing k want _ => exact hk.same rfl rfl rfl rfl
  | inspect k want _ _ => exact hk.same rfl rfl rfl rfl
  | commitClaim id ifne hi =>
    rename_i o
    have e := hid.incKey _ _ hi
    refine ⟨?_, ?_, ?_, ?_, ?_, ?_⟩
    · intro x hx
      simp only [fm_snoc', mem_append, PC.tmem, mem_singleton] at hx
      rcases hx with hx | rfl
      · exact k1 x hx
      · rw [e]; exact k2 id (by rw [hi]; simp)
    · intro x hx
      simp only [upd] at hx
      split at hx
      · simp at hx
      · exact k2 x hx
    · exact fun k o ho => (k3 k o ho).imp_right (fun ⟨x, hx, hh⟩ => ⟨x, mem_append_left _ hx, hh⟩)
    · exact fun o ho => (k4 o ((fm_snoc rfl).subset ho)).imp_right (fun ⟨x, hx, hh⟩ => ⟨x, mem_append_left _ hx, hh⟩)
    · exact fun id hid => k5 id ((fm_snoc rfl).subset hid)
    · intro x hx
      rcases mem_append.1 hx with hx | hx
      · exact k6 x hx
      · simp only [mem_singleton] at hx; subst hx; simp
  | commitSeal ht hp =>
    exact hk.swap ht rfl rfl (fun _ h => h) rfl (by rw [hp]; exact fun _ h => h) (by simp [PC.vobj]) rfl (by rw [hp]; simp) (by simp)
  | commitKept ht hp _ _ =>
    exact hk.swap ht rfl rfl (fun _ h => h) rfl (by rw [hp]; exact fun _ h => h) (by simp [PC.vobj]) rfl (by rw [hp]; simp) (by simp)
  | commitPublish ht hp hw hkk hn =>
    rename_i pre th post o ifne newId
    have hpn : ∀ {o'}, Pending s o' → Pending ({ s with
        committed := updKey s.committed o.m.key (some ⟨newId, o.m⟩)
        threads := pre ++ withPc th (.commitPublished o.id ⟨newId, o.m⟩ (s.committed o.m.key)) :: post
        names := upd s.names newId (s.names o.id)
        lin := s.lin ++ [(th.call, .published o.id newId o.m ifne)]
        faults := (if busy s o.m.key then [.overlap] else []) ++ s.faults } : DSt) o' :=
      fun h => pend_swap ht (Or.inl rfl) (by rw [hp]; simp) h
    refine ⟨?_, k2, ?_, ?_, ?_, ?_⟩
    · intro id hid
      rcases fm_mem_swap hid with hid | hid
      · simp only [withPc, PC.tmem, mem_singleton] at hid; subst hid
        exact k1 _ (by rw [ht]; exact fm_mid (by simp [hp, PC.tmem]))
      · exact k1 id (by rw [ht]; exact fm_mem_drop hid)
    · intro k o' ho'
      simp only [updKey] at ho'
      split at ho'
      · cases ho'
        exact Or.inr ⟨_, mem_mid, _, _, rfl⟩
      · exact (k3 k o' ho').imp_right hpn
    · intro o' ho'
      rcases fm_mem_swap ho' with hx | hx
      · simp only [withPc, PC.vobj, Option.mem_toList] at hx
        exact (k3 _ o' hx).imp_right hpn
      · exact (k4 o' (by rw [ht]; exact fm_mem_drop hx)).imp_right hpn
    · intro id hid' b u hu
      rcases fm_mem_swap hid' with hx | hx
      · simp only [withPc, PC.pnew, mem_singleton] at hx
        subst hx
        intro e
        exact hid.imgs.mem b u hu (by rw [e]; exact hn)
      · exact k5 id (by rw [ht]; exact fm_mem_drop hx) b u hu
    · intro x hx
      rcases mem_swap (b := th) hx with rfl | hx
      · simp [withPc]
      · exact k6 x (ht ▸ hx)
  | commitUpdate ht hp hu =>
    rename_i pre th post old o ex ts'
    obtain ⟨g1, g2⟩ := hasTuple_update hu
    have hh := hH.hids
    have htp := hH.tp
    rw [ht] at hh htp
    have mold : old ∈ (fun th : Thread => th.pc.hids) th := by simp [hp, PC.hids, PC.tids]
    have fold := hH.hfree old (by rw [ht]; exact fm_mid mold)
    have hpend : ∀ {o'}, Pending s o' → o' = o ∨ Pending ({ s with
        ts := ts'
        threads := pre ++ withPc th (.commitTuple o ex s.ts.next) :: post } : DSt) o' := by
      rintro o' ⟨x, hx, old', ex', hx'⟩
      rw [ht] at hx
      rcases mem_swap (b := withPc th (.commitTuple o ex s.ts.next)) hx with rfl | hx
      · rw [hp] at hx'; cases hx'; exact Or.inl rfl
      · exact Or.inr ⟨x, hx, old', ex', hx'⟩
    have step : ∀ o', o'.id ≠ old → (HasTuple s.ts o'.id .committed ∨ Pending s o') → HasTuple ts' o'.id .committed ∨ Pending ({ s with
        ts := ts'
        threads := pre ++ withPc th (.commitTuple o ex s.ts.next) :: post } : DSt) o' := by
      rintro o' hne (h | h)
      · exact Or.inl (g1 _ _ hne h)
      · rcases hpend h with rfl | h
        · exact Or.inl g2
        · exact Or.inr h
    refine ⟨?_, ?_, ?_, ?_, ?_, ?_⟩
    · intro id hid
      rcases fm_mem_swap hid with hid | hid
      · simp [withPc, PC.tmem] at hid
      · refine g1 _ _ ?_ (k1 id (by rw [ht]; exact fm_mem_drop hid))
        rintro rfl
        refine fm_other hh mold ?_
        obtain ⟨x, hx, hx'⟩ := mem_flatMap.1 hid
        exact mem_flatMap.2 ⟨x, hx, tids_sub_hids _ _ (tmem_sub_tids _ _ hx')⟩
    · intro id hid'
      refine g1 _ _ ?_ (k2 id hid')
      rintro rfl
      exact hid' fold.1
    · intro k o' ho'
      exact step o' (fold.2.1 k o' ho') (k3 k o' ho')
    · intro o' ho'
      have ho'' : o' ∈ s.threads.flatMap (fun th => th.pc.vobj) := by
        rw [ht]
        rcases fm_mem_swap ho' with hx | hx
        · exact fm_mid (by rw [hp]; exact hx)
        · exact fm_mem_drop hx
      refine step o' ?_ (k4 o' ho'')
      rintro e
      rcases fm_mem_swap ho' with hx | hx
      · have hnd : th.pc.hids.Nodup := by
          have := hh.sublist (l₁ := th.pc.hids) (by
            simp only [flatMap_append, flatMap_cons]
            exact (sublist_append_left _ _).trans (sublist_append_right _ _))
          exact this
        rw [hp] at hnd
        simp only [PC.hids, PC.tids, singleton_append, nodup_cons] at hnd
        exact hnd.1 (e ▸ mem_map_of_mem hx)
      · refine fm_other hh mold ?_
        obtain ⟨x, hx, hx'⟩ := mem_flatMap.1 hx
        exact mem_flatMap.2 ⟨x, hx, e ▸ vobj_sub_hids _ _ hx'⟩
    · intro id hid' b u hu'
      have hid'' : id ∈ (pre ++ post).flatMap (fun th => th.pc.pnew) := by
        rcases fm_mem_swap hid' with hx | hx
        · simp [withPc, PC.pnew] at hx
        · exact hx
      rcases update_mem hu hu' with hu' | ⟨v, hv, hve, _, rfl⟩
      · exact k5 id (by rw [ht]; exact fm_mem_drop hid'') b u hu'
      · rintro rfl
        refine fm_other htp (x := o.id) (by simp [hp, PC.tp, PC.pnew]) ?_
        obtain ⟨x, hx, hx'⟩ := mem_flatMap.1 hid''
        exact mem_flatMap.2 ⟨x, hx, mem_append_right _ hx'⟩
    · intro x hx
      rcases mem_swap (b := th) hx with rfl | hx
      · simp [withPc]
      · exact k6 x (ht ▸ hx)
  | commitUpdatePanic ht hp hu =>
    rename_i pre th post old o ex
    refine absurd hu (update_ok hT (k1 old (by rw [ht]; exact fm_mid (by simp [hp, PC.tmem]))) ?_)
    exact k5 o.id (by rw [ht]; exact fm_mid (by simp [hp, PC.pnew]))
  | commitDone ht hp hf => exact hk.drop ht rfl rfl (fun _ h => Or.inl h) rfl (by rw [hp]; simp)
  | commitReap ht hp hf =>
    exact hk.swap ht rfl rfl (fun _ h => h) rfl (by simp [PC.tmem]) (by rw [hp]; simp [PC.vobj]) rfl (by rw [hp]; simp) (by simp)
  | delete k want hkk hw =>
    rename_i o
    refine ⟨?_, k2, ?_, ?_, ?_, ?_⟩
    · exact fun id hid => k1 id ((fm_snoc rfl).subset hid)
    · intro k' o' ho'
      simp only [updKey] at ho'
      split at ho'
      · simp at ho'
      · exact (k3 k' o' ho').imp_right (fun ⟨x, hx, hh⟩ => ⟨x, mem_append_left _ hx, hh⟩)
    · intro o' ho'
      simp only [fm_snoc', mem_append, PC.vobj, mem_singleton] at ho'
      rcases ho' with ho' | rfl
      · exact (k4 o' ho').imp_right (fun ⟨x, hx, hh⟩ => ⟨x, mem_append_left _ hx, hh⟩)
      · exact (k3 _ _ hkk).imp_right (fun ⟨x, hx, hh⟩ => ⟨x, mem_append_left _ hx, hh⟩)
    · exact fun id hid => k5 id ((fm_snoc rfl).subset hid)
    · intro x hx
      rcases mem_append.1 hx with hx | hx
      · exact k6 x hx
      · simp only [mem_singleton] at hx; subst hx; simp
  | reapTuple ht hp hd =>
    rename_i pre th post o why ts' t
    have g1 := hasTuple_delete hd
    have hh := hH.hids
    rw [ht] at hh
    have mo : o.id ∈ (fun th : Thread => th.pc.hids) th := by
      cases why <;> simp [hp, PC.hids, PC.tids, PC.vobj]
    have fo := hH.hfree o.id (by rw [ht]; exact fm_mid mo)
    have hpn : ∀ {o'}, Pending s o' → Pending ({ s with
        ts := ts'
        threads := pre ++ withPc th (.reapTuple o t s.ts.next why) :: post
        recs := setRec s.recs t.metaOff (.dying ((s.ts.toBundle o.id).getD 0)) } : DSt) o' :=
      fun h => pend_swap ht (Or.inl rfl) (by rw [hp]; simp) h
    refine ⟨?_, ?_, ?_, ?_, ?_, ?_⟩
    · intro id hid
      rcases fm_mem_swap hid with hid | hid
      · simp [withPc, PC.tmem] at hid
      · refine g1 _ _ ?_ (k1 id (by rw [ht]; exact fm_mem_drop hid))
        rintro rfl
        refine fm_other hh mo ?_
        obtain ⟨x, hx, hx'⟩ := mem_flatMap.1 hid
        exact mem_flatMap.2 ⟨x, hx, tids_sub_hids _ _ (tmem_sub_tids _ _ hx')⟩
    · intro id hid'
      refine g1 _ _ ?_ (k2 id hid')
      rintro rfl
      exact hid' fo.1
    · intro k o' ho'
      exact (k3 k o' ho').imp (g1 _ _ (fo.2.1 k o' ho')) hpn
    · intro o' ho'
      rcases fm_mem_swap ho' with hx | hx
      · simp [withPc, PC.vobj] at hx
      · refine (k4 o' (by rw [ht]; exact fm_mem_drop hx)).imp (g1 _ _ ?_) hpn
        intro e
        refine fm_other hh mo ?_
        obtain ⟨x, hx, hx'⟩ := mem_flatMap.1 hx
        exact mem_flatMap.2 ⟨x, hx, e ▸ vobj_sub_hids _ _ hx'⟩
    · intro id hid' b u hu'
      refine k5 id ?_ b u (delete_mem hd hu')
      rw [ht]
      rcases fm_mem_swap hid' with hx | hx
      · simp [withPc, PC.pnew] at hx
      · exact fm_mem_drop hx
    · intro x hx
      rcases mem_swap (b := th) hx with rfl | hx
      · simp [withPc]
      · exact k6 x (ht ▸ hx)
  | reapPanic ht hp hd =>
    exact hk.swap (pc := .dead) ht rfl rfl (fun _ h => h) rfl (by simp [PC.tmem]) (by simp [PC.vobj]) rfl (by rw [hp]; simp) (by simp)
  | reaped ht hp hf ha => exact hk.drop ht rfl rfl (fun _ h => Or.inl h) rfl (by rw [hp]; simp)

theorem kInv_load {s s' : DSt} {order : List Tuple} (hp : order.Perm (diskTuples c.n s.ts))
    (hl : load c s order = some s') : KInv s' := by
  obtain ⟨a0, l, _, h1, hok, rfl⟩ := load_some hl
  have hlf := loadFrom_all h1
  have hord : ∀ t ∈ order, ∃ b, b < c.n ∧ t ∈ s.ts.disk b := fun t ht => mem_diskTuples.1 (hp.mem_iff.1 ht)
  refine ⟨by simp, ?_, ?_, by simp, by simp, by simp⟩
  · intro id hne
    obtain ⟨o', ho'⟩ := Option.ne_none_iff_exists'.1 hne
    obtain ⟨t, ht, hst, hti, _⟩ := hlf.inc id o' ho'
    obtain ⟨b, _, hb⟩ := hord t ht
    exact ⟨b, t, hb, hti, hst⟩
  · intro k o ho
    obtain ⟨u, hu, hsu, hui, _⟩ := hlf.com k o ho
    obtain ⟨b, _, hb⟩ := hord u hu
    exact Or.inl ⟨b, u, hb, hui, hsu⟩

theorem reach_k {s : DSt} (h : Reach c s) : KInv s := by
  induction h with
  | fresh h =>
    unfold fresh at h
    split at h
    · simp at h
    · cases h
      refine ⟨by simp, by simp, by simp, by simp, by simp, by simp⟩
  | step hr hs ih => exact kInv_step (reach_t hr).1 (reach_id hr) (reach_h hr) ih hs
  | restart order hr hp hl ih => exact kInv_load hp hl

end Direct
end Blobd
