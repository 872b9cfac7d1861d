import Verif.Spec.DirectStore
import Verif.Proofs.DirectSettled
/-! Linearizability of the direct store: each call takes effect at one moment between its start and its
answer (C27). -/
namespace Blobd
namespace Direct
open List

variable {c : SCfg}

/-- ids of objects being created -/
def PC.cid : PC → List Nat
  | .createMeta o _ _ => [o.id]
  | .createInsert o _ => [o.id]
  | .createTuple o _ => [o.id]
  | _ => []

/-- ids under which tuples will be put -/
def PC.nid : PC → List Nat
  | .createMeta _ t _ => [t.id]
  | .createInsert _ t => [t.id]
  | .commitClaimed o _ => [o.id]
  | .commitSealed o _ => [o.id]
  | .commitPublished _ o _ => [o.id]
  | _ => []

/-- what the call's own events are so far -/
def PC.own : PC → List Ev → Prop
  | .createData _, l => l = []
  | .createMeta _ _ _, l => l = []
  | .createInsert _ _, l => l = []
  | .createTuple _ _, l => l = []
  | .commitClaimed o _, l => l = [.claimed o.id o.m]
  | .commitSealed o _, l => l = [.claimed o.id o.m]
  | .commitPublished old o _, l => ∃ ifne, l = [.claimed old o.m, .published old o.id o.m ifne]
  | .commitTuple o _ _, l => ∃ old ifne, l = [.claimed old o.m, .published old o.id o.m ifne]
  | .reap _ (.replaced n), l => ∃ old ifne, l = [.claimed old n.m, .published old n.id n.m ifne]
  | .reap o .kept, l => l = [.claimed o.id o.m, .kept o.id o.m]
  | .reap o .deleted, l => ∃ k want, l = [.removed k want o.id]
  | .reapTuple _ _ _ (.replaced n), l => ∃ old ifne, l = [.claimed old n.m, .published old n.id n.m ifne]
  | .reapTuple o _ _ .kept, l => l = [.claimed o.id o.m, .kept o.id o.m]
  | .reapTuple o _ _ .deleted, l => ∃ k want, l = [.removed k want o.id]
  | .dead, _ => True

/-- the own events of a call that started when `start` events had happened -/
def ownEvs (lin : List (Nat × Ev)) (start call : Nat) : List Ev :=
  ((lin.drop start).filter (fun e => e.1 = call)).map (·.2)

theorem ownEvs_append {lin : List (Nat × Ev)} {start call : Nat} (hs : start ≤ lin.length) (x : Nat × Ev) :
    ownEvs (lin ++ [x]) start call = ownEvs lin start call ++ (if x.1 = call then [x.2] else []) := by
  unfold ownEvs
  rw [drop_append_of_le_length hs, filter_append, map_append]
  by_cases h : x.1 = call <;> simp [h]

/-- `P` holds of every tuple in memory, in a page image being written, and on the device -/
structure Imgs (P : Tuple → Prop) (s : TS) : Prop where
  mem : ∀ b, ∀ t ∈ s.bundles b, P t
  fly : ∀ w ∈ s.inflight, ∀ t ∈ w.2, P t
  disk : ∀ b, ∀ t ∈ s.disk b, P t

/-- the part of the invariant about ids -/
structure IdInv (s : DSt) : Prop where
  incKey : ∀ id o, s.incomplete id = some o → o.id = id
  incNamed : ∀ id, s.incomplete id ≠ none → s.names id ≠ none
  cids : (s.threads.flatMap (fun th => th.pc.cid)).Nodup
  cidFree : ∀ th ∈ s.threads, ∀ id ∈ th.pc.cid, s.incomplete id = none ∧ s.names id ≠ none
  nids : ∀ th ∈ s.threads, ∀ id ∈ th.pc.nid, s.names id ≠ none
  comKey : ∀ k o, s.committed k = some o → o.m.key = k
  imgs : Imgs (fun t => s.names t.id ≠ none) s.ts

theorem upd_ne_none {β : Type} {f : Nat → Option β} {i j : Nat} {v : Option β} (h : f j ≠ none) (hv : v ≠ none) :
    upd f i v j ≠ none := by
  unfold upd; split
  · exact hv
  · exact h

theorem Imgs.mono {P Q : Tuple → Prop} {s : TS} (h : Imgs P s) (hpq : ∀ t, P t → Q t) : Imgs Q s :=
  ⟨fun b t ht => hpq _ (h.mem b t ht), fun w hw t ht => hpq _ (h.fly w hw t ht), fun b t ht => hpq _ (h.disk b t ht)⟩

theorem memOp_imgs {P : Tuple → Prop} {s s' : TS} {b : Nat} (hm : MemOp s s' b) (h : Imgs P s)
    (h1 : ∀ b, ∀ t ∈ s'.bundles b, P t) : Imgs P s' := by
  refine ⟨h1, ?_, ?_⟩
  · rw [hm.sig.2]; exact h.fly
  · rw [hm.disk]; exact h.disk

theorem bg_imgs {n : Nat} {P : Tuple → Prop} {s s' : TS} (hs : TS.BgStep n s s') (h : Imgs P s) : Imgs P s' := by
  obtain ⟨h1, h2, h3⟩ := h
  suffices hh : (∀ w ∈ s'.inflight, ∀ t ∈ w.2, P t) ∧ (∀ b, ∀ t ∈ s'.disk b, P t) from
    ⟨by rw [(bg_bundles hs).1]; exact h1, hh.1, hh.2⟩
  cases hs with
  | snapshot hb =>
    refine ⟨?_, h3⟩
    intro w hw
    have hw' : w ∈ ((List.range n).filter s.dirty).map (fun b => (b, s.bundles b)) := by
      revert hw
      simp only [TS.inflight, TS.snapshot]
      split
      · rename_i ws sg hx
        split at hx
        · simp at hx
        · simp only [Option.some.injEq, Prod.mk.injEq] at hx
          obtain ⟨rfl, _⟩ := hx
          exact id
      · simp
    obtain ⟨b, _, rfl⟩ := mem_map.1 hw'
    exact h1 b
  | write i hw =>
    obtain ⟨ws, sg, b, ts, hb, hi, rfl⟩ := writePage_eq hw
    have e : s.inflight = ws := by simp [TS.inflight, hb]
    rw [e] at h2
    constructor
    · intro w hw
      exact h2 w (mem_of_mem_eraseIdx hw)
    · intro b' t ht
      simp only [upd] at ht
      split at ht
      · exact h2 _ (mem_of_getElem? hi) t ht
      · exact h3 b' t ht
  | signal hw =>
    obtain ⟨sg, hb, rfl⟩ := signal_eq hw
    refine ⟨by simp [TS.inflight], h3⟩

theorem insert_mem {max n : Nat} {s s' : TS} {o : Tuple} (hs : s.insertObject max n o = some s') {b : Nat} {t : Tuple}
    (ht : t ∈ s'.bundles b) : t ∈ s.bundles b ∨ t = o := by
  obtain ⟨b', _, _, _, _, rfl⟩ := insert_eq hs
  simp only [upd] at ht
  split at ht
  · rename_i e; subst e; simpa using ht
  · exact Or.inl ht

theorem update_mem {max : Nat} {s s' : TS} {cur new : Nat} {st : ObjState} (hs : s.updateObject max cur new st = some s')
    {b : Nat} {t : Tuple} (ht : t ∈ s'.bundles b) : t ∈ s.bundles b ∨ ∃ u ∈ s.bundles b, u.id = cur ∧
      s.toBundle cur = some b ∧ t = { u with id := new, state := st } := by
  obtain ⟨b', u, h1, h2, h3, _, _, rfl⟩ := update_eq hs
  simp only [upd] at ht
  split at ht
  · rename_i e; subst e
    simp only [mem_append, mem_filter, mem_singleton] at ht
    rcases ht with ht | ht
    · exact Or.inl ht.1
    · exact Or.inr ⟨u, by grind, by grind, h1, ht⟩
  · exact Or.inl ht

theorem delete_mem {s s' : TS} {id : Nat} {t : Tuple} (hs : s.deleteObject id = some (s', t)) {b : Nat} {u : Tuple}
    (ht : u ∈ s'.bundles b) : u ∈ s.bundles b := by
  obtain ⟨b', h1, h2, h3, rfl⟩ := delete_eq hs
  simp only [upd] at ht
  split at ht
  · rename_i e; subst e; exact (mem_filter.1 ht).1
  · exact ht

theorem insert_imgs {max n : Nat} {P : Tuple → Prop} {s s' : TS} {o : Tuple} (hs : s.insertObject max n o = some s')
    (h : Imgs P s) (ho : P o) : Imgs P s' := by
  obtain ⟨b, hm, _⟩ := insert_memOp hs
  refine memOp_imgs hm h (fun b t ht => ?_)
  rcases insert_mem hs ht with h' | rfl
  · exact h.mem _ _ h'
  · exact ho

theorem update_imgs {max : Nat} {P : Tuple → Prop} {s s' : TS} {cur new : Nat} {st : ObjState}
    (hs : s.updateObject max cur new st = some s')
    (h : Imgs P s) (ho : ∀ b, ∀ u ∈ s.bundles b, u.id = cur → P u → P { u with id := new, state := st }) : Imgs P s' := by
  obtain ⟨b, hm, _⟩ := update_memOp hs
  refine memOp_imgs hm h (fun b t ht => ?_)
  rcases update_mem hs ht with h' | ⟨u, hu, he, _, rfl⟩
  · exact h.mem _ _ h'
  · exact ho b u hu he (h.mem _ _ hu)

theorem delete_imgs {P : Tuple → Prop} {s s' : TS} {id : Nat} {t : Tuple} (hs : s.deleteObject id = some (s', t))
    (h : Imgs P s) : Imgs P s' := by
  obtain ⟨b, hm, _⟩ := delete_memOp hs
  exact memOp_imgs hm h (fun b t ht => h.mem _ _ (delete_mem hs ht))

/-- the thread list with one thread replaced -/
theorem mem_swap {pre post : List Thread} {a b x : Thread} (h : x ∈ pre ++ a :: post) :
    x = a ∨ x ∈ pre ++ b :: post := by
  simp only [mem_append, mem_cons] at h ⊢
  tauto

theorem cid_swap {pre post : List Thread} {th : Thread} {pc : PC} (hc : pc.cid.Sublist th.pc.cid) :
    ((pre ++ withPc th pc :: post).flatMap (fun th => th.pc.cid)).Sublist
      ((pre ++ th :: post).flatMap (fun th => th.pc.cid)) := by
  simp only [flatMap_append, flatMap_cons, withPc]
  exact Sublist.append (Sublist.refl _) (Sublist.append hc (Sublist.refl _))

theorem cid_drop {pre post : List Thread} {th : Thread} :
    ((pre ++ post).flatMap (fun th => th.pc.cid)).Sublist
      ((pre ++ th :: post).flatMap (fun th => th.pc.cid)) := by
  simp only [flatMap_append, flatMap_cons]
  exact Sublist.append (Sublist.refl _) (sublist_append_right _ _)

/-- a step that changes only the threads, the index and things unrelated to ids -/
theorem IdInv.next {s s' : DSt} (h : IdInv s) (hi : s'.incomplete = s.incomplete) (hn : s'.names = s.names)
    (hk : ∀ k o, s'.committed k = some o → o.m.key = k)
    (hc : (s'.threads.flatMap (fun th => th.pc.cid)).Sublist (s.threads.flatMap (fun th => th.pc.cid)))
    (hd : ∀ th ∈ s'.threads, ∀ id ∈ th.pc.nid, s.names id ≠ none)
    (ht : Imgs (fun t => s.names t.id ≠ none) s'.ts) : IdInv s' := by
  refine ⟨by rw [hi]; exact h.incKey, by rw [hi, hn]; exact h.incNamed, h.cids.sublist hc, ?_, by rw [hn]; exact hd, hk,
    by rw [hn]; exact ht⟩
  intro th hth id hid
  obtain ⟨x, hx, hx'⟩ := mem_flatMap.1 (hc.subset (mem_flatMap.2 ⟨th, hth, hid⟩))
  rw [hi, hn]
  exact h.cidFree x hx id hx'

theorem nid_swap {s : DSt} (h : IdInv s) {pre post : List Thread} {th : Thread} {pc : PC}
    (ht : s.threads = pre ++ th :: post) (hp : ∀ id ∈ pc.nid, s.names id ≠ none) :
    ∀ x ∈ pre ++ withPc th pc :: post, ∀ id ∈ x.pc.nid, s.names id ≠ none := by
  intro x hx id hid
  rcases mem_swap (b := th) hx with rfl | hx
  · exact hp id hid
  · exact h.nids x (ht ▸ hx) id hid

theorem nid_drop {s : DSt} (h : IdInv s) {pre post : List Thread} {th : Thread}
    (ht : s.threads = pre ++ th :: post) :
    ∀ x ∈ pre ++ post, ∀ id ∈ x.pc.nid, s.names id ≠ none := by
  intro x hx id hid
  exact h.nids x (by rw [ht]; simp only [mem_append, mem_cons] at hx ⊢; tauto) id hid

theorem nid_snoc {s : DSt} (h : IdInv s) {th : Thread} (hp : th.pc.nid = []) :
    ∀ x ∈ s.threads ++ [th], ∀ id ∈ x.pc.nid, s.names id ≠ none := by
  intro x hx id hid
  rcases mem_append.1 hx with hx | hx
  · exact h.nids x hx id hid
  · simp only [mem_singleton] at hx
    subst hx
    rw [hp] at hid; simp at hid

theorem cid_snoc {l : List Thread} {th : Thread} (hp : th.pc.cid = []) :
    ((l ++ [th]).flatMap (fun th => th.pc.cid)).Sublist (l.flatMap (fun th => th.pc.cid)) := by
  simp [flatMap_append, hp]

theorem nodup_mid {A B : List Nat} {x : Nat} (h : (A ++ ([x] ++ B)).Nodup) (hx : x ∈ A ∨ x ∈ B) : False := by
  grind [List.nodup_append]

theorem mem_mid {pre post : List Thread} {th : Thread} : th ∈ pre ++ th :: post := by simp

set_option maxHeartbeats 1000000 in
theorem idInv_step {s s' : DSt} (h : IdInv s) (hs : Step c s s') : IdInv s' := by
  have h0 := h
  obtain ⟨h1, h2, h3, h4, h5, h6, h7⟩ := h
  have hn : ∀ (i : Nat) (v : Nat × Meta), ∀ x, s.names x ≠ none → upd s.names i (some v) x ≠ none :=
    fun i v x hx => upd_ne_none hx (by simp)
  cases hs with
  | createMeta junk ht hp hl ha hi hj =>
    rename_i pre th post m mo a' id
    have := hn id (mo, m)
    refine ⟨h1, fun i hi => this i (h2 i hi), ?_, ?_, ?_, h6, h7.mono (fun t ht => this t.id ht)⟩
    all_goals (simp only [ht] at h3 h4 h5)
    all_goals (simp only [withPc])
    · have hnot : id ∉ flatMap (fun th : Thread => th.pc.cid) (pre ++ th :: post) := by
        intro hc
        obtain ⟨x, hx, hx'⟩ := mem_flatMap.1 hc
        exact (h4 x hx id hx').2 hi
      simp only [flatMap_append, flatMap_cons, hp, PC.cid] at h3 hnot ⊢
      simp only [nil_append] at h3 hnot
      grind [List.nodup_append]
    · intro x hx id' hid
      have hnone : s.incomplete id = none := by
        by_contra hne
        exact h2 id hne hi
      have : x.pc.cid = [id] ∨ x ∈ pre ++ th :: post := by grind [PC.cid]
      rcases this with hh | hh
      · rw [hh] at hid
        simp only [mem_singleton] at hid
        subst hid
        exact ⟨hnone, by simp [upd]⟩
      · exact ⟨(h4 x hh id' hid).1, this id' (h4 x hh id' hid).2⟩
    · intro x hx id' hid
      have : x.pc.nid = [id] ∨ x ∈ pre ++ th :: post := by grind [PC.nid]
      rcases this with hh | hh
      · rw [hh] at hid
        simp only [mem_singleton] at hid
        subst hid
        simp [upd]
      · exact this id' (h5 x hh id' hid)
  | createData key size created _ _ _ _ =>
    exact h0.next rfl rfl h6 (cid_snoc rfl) (nid_snoc h0 rfl) h7
  | createDataPanic size _ _ => exact h0.next rfl rfl h6 (cid_snoc rfl) (nid_snoc h0 rfl) h7
  | createMetaPanic ht hp _ =>
    exact h0.next rfl rfl h6 (ht ▸ cid_swap (nil_sublist _)) (nid_swap h0 ht (by simp [PC.nid])) h7
  | device dev' _ => exact h0.next rfl rfl h6 (Sublist.refl _) h5 h7
  | metaWritten ht hp =>
    refine h0.next rfl rfl h6 (ht ▸ cid_swap (by rw [hp]; exact Sublist.refl _)) (nid_swap h0 ht ?_) h7
    intro id hid
    exact h5 _ (ht ▸ mem_mid) id (by rw [hp]; exact hid)
  | createInsert ht hp hi =>
    refine h0.next rfl rfl h6 (ht ▸ cid_swap (by rw [hp]; exact Sublist.refl _)) (nid_swap h0 ht (by simp [PC.nid])) ?_
    exact insert_imgs hi h7 (h5 _ (ht ▸ mem_mid) _ (by rw [hp]; simp [PC.nid]))
  | createInsertPanic ht hp hi =>
    exact h0.next rfl rfl h6 (ht ▸ cid_swap (nil_sublist _)) (nid_swap h0 ht (by simp [PC.nid])) h7
  | created ht hp hi =>
    rename_i pre th post o ticket
    rw [ht] at h3
    have hnd := h3
    simp only [flatMap_append, flatMap_cons, hp, PC.cid] at hnd
    refine ⟨?_, ?_, h3.sublist cid_drop, ?_, nid_drop h0 ht, h6, h7⟩
    · intro id o' ho'
      simp only [upd] at ho'
      split at ho'
      · rename_i e; cases ho'; exact e.symm
      · exact h1 _ _ ho'
    · intro id hid
      simp only [upd] at hid
      split at hid
      · rename_i e; subst e
        exact (h4 th (ht ▸ mem_mid) o.id (by rw [hp]; simp [PC.cid])).2
      · exact h2 _ hid
    · intro x hx id hid
      have hx' : x ∈ s.threads := by rw [ht]; simp only [mem_append, mem_cons] at hx ⊢; tauto
      have := h4 x hx' id hid
      refine ⟨?_, this.2⟩
      have hne : id ≠ o.id := by
        rintro rfl
        have hm : o.id ∈ flatMap (fun th : Thread => th.pc.cid) pre ∨ o.id ∈ flatMap (fun th : Thread => th.pc.cid) post := by
          rcases mem_append.1 hx with hx | hx
          · exact Or.inl (mem_flatMap.2 ⟨x, hx, hid⟩)
          · exact Or.inr (mem_flatMap.2 ⟨x, hx, hid⟩)
        exact nodup_mid hnd hm
      simp only [upd, if_neg hne]
      exact this.1
  | openHandle id hi => exact h0.next rfl rfl h6 (Sublist.refl _) h5 h7
  | writeStart data _ _ _ _ => exact h0.next rfl rfl h6 (Sublist.refl _) h5 h7
  | writeDone _ => exact h0.next rfl rfl h6 (Sublist.refl _) h5 h7
  | writeCancel _ => exact h0.next rfl rfl h6 (Sublist.refl _) h5 h7
  | orphanDone _ => exact h0.next rfl rfl h6 (Sublist.refl _) h5 h7
  | commitRefused id hi => exact h0.next rfl rfl h6 (Sublist.refl _) h5 h7
  | missing k want _ => exact h0.next rfl rfl h6 (Sublist.refl _) h5 h7
  | inspect k want _ _ => exact h0.next rfl rfl h6 (Sublist.refl _) h5 h7
  | bg hb => exact h0.next rfl rfl h6 (Sublist.refl _) h5 (bg_imgs hb h7)
  | commitClaim id ifne hi =>
    refine ⟨?_, ?_, h3.sublist (cid_snoc rfl), ?_, ?_, h6, h7⟩
    · intro id' o' ho'
      simp only [upd] at ho'
      split at ho'
      · simp at ho'
      · exact h1 _ _ ho'
    · intro id' hid
      simp only [upd] at hid
      split at hid
      · simp at hid
      · exact h2 _ hid
    · intro x hx id' hid
      obtain ⟨y, hy, hy'⟩ := mem_flatMap.1 ((cid_snoc rfl).subset (mem_flatMap.2 ⟨x, hx, hid⟩))
      refine ⟨?_, (h4 y hy id' hy').2⟩
      simp only [upd]
      split
      · rfl
      · exact (h4 y hy id' hy').1
    · intro x hx id' hid
      rcases mem_append.1 hx with hx | hx
      · exact h5 x hx id' hid
      · simp only [mem_singleton] at hx
        subst hx
        simp only [PC.nid, mem_singleton] at hid
        subst hid
        rw [h1 _ _ hi]
        exact h2 _ (by rw [hi]; simp)
  | commitSeal ht hp =>
    refine h0.next rfl rfl h6 (ht ▸ cid_swap (nil_sublist _)) (nid_swap h0 ht ?_) h7
    intro id hid
    exact h5 _ (ht ▸ mem_mid) id (by rw [hp]; exact hid)
  | commitKept ht hp _ _ =>
    exact h0.next rfl rfl h6 (ht ▸ cid_swap (nil_sublist _)) (nid_swap h0 ht (by simp [PC.nid])) h7
  | commitPublish ht hp hw hk hi =>
    rename_i pre th post o ifne newId
    have hnm : s.names o.id ≠ none := h5 _ (ht ▸ mem_mid) _ (by rw [hp]; simp [PC.nid])
    have hup : ∀ x, s.names x ≠ none → upd s.names newId (s.names o.id) x ≠ none := fun x hx => upd_ne_none hx hnm
    refine ⟨h1, fun i hi => hup i (h2 i hi), h3.sublist (ht ▸ cid_swap (nil_sublist _)), ?_, ?_, ?_, h7.mono (fun t ht => hup t.id ht)⟩
    · intro x hx id' hid
      have hcs : ((pre ++ withPc th (.commitPublished o.id ⟨newId, o.m⟩ (s.committed o.m.key)) :: post).flatMap
          (fun th => th.pc.cid)).Sublist _ := cid_swap (nil_sublist _)
      obtain ⟨y, hy, hy'⟩ := mem_flatMap.1 (hcs.subset (mem_flatMap.2 ⟨x, hx, hid⟩))
      have := h4 y (ht ▸ hy) id' hy'
      exact ⟨this.1, hup _ this.2⟩
    · intro x hx id' hid
      rcases mem_swap (b := th) hx with rfl | hx
      · simp only [withPc, PC.nid, mem_singleton] at hid
        subst hid
        simpa [upd] using hnm
      · exact hup _ (h5 x (ht ▸ hx) id' hid)
    · intro k' o' ho'
      simp only [updKey] at ho'
      split at ho'
      · rename_i e; cases ho'; exact e.symm
      · exact h6 _ _ ho'
  | commitUpdate ht hp hu =>
    refine h0.next rfl rfl h6 (ht ▸ cid_swap (nil_sublist _)) (nid_swap h0 ht (by simp [PC.nid])) ?_
    refine update_imgs hu h7 (fun b u hu he hP => ?_)
    exact h5 _ (ht ▸ mem_mid) _ (by rw [hp]; simp [PC.nid])
  | commitUpdatePanic ht hp hu =>
    exact h0.next rfl rfl h6 (ht ▸ cid_swap (nil_sublist _)) (nid_swap h0 ht (by simp [PC.nid])) h7
  | commitDone ht hp hf => exact h0.next rfl rfl h6 (ht ▸ cid_drop) (nid_drop h0 ht) h7
  | commitReap ht hp hf =>
    exact h0.next rfl rfl h6 (ht ▸ cid_swap (nil_sublist _)) (nid_swap h0 ht (by simp [PC.nid])) h7
  | delete k want hk hw =>
    refine h0.next rfl rfl ?_ (cid_snoc rfl) (nid_snoc h0 rfl) h7
    intro k' o' ho'
    simp only [updKey] at ho'
    split at ho'
    · simp at ho'
    · exact h6 _ _ ho'
  | reapTuple ht hp hd =>
    refine h0.next rfl rfl h6 (ht ▸ cid_swap (nil_sublist _)) (nid_swap h0 ht (by simp [PC.nid])) (delete_imgs hd h7)
  | reapPanic ht hp hd =>
    exact h0.next rfl rfl h6 (ht ▸ cid_swap (nil_sublist _)) (nid_swap h0 ht (by simp [PC.nid])) h7
  | reaped ht hp hf ha => exact h0.next rfl rfl h6 (ht ▸ cid_drop) (nid_drop h0 ht) h7

/-! ## Start-up -/

theorem loadOne_some {dev : Mem} {l l' : LoadSt} {t : Tuple} (h : loadOne c dev l t = some l') :
    ∃ m, Meta.dec (dev.read t.metaOff (2 ^ t.metaPow2)) = some m ∧ (calcObjectLayoutDirect c.pages m.size).isSome ∧
      ((t.state = .incomplete ∧ l.incomplete t.id = none ∧ l'.incomplete = upd l.incomplete t.id (some ⟨t.id, m⟩) ∧
          l'.committed = l.committed ∧ l'.dup = l.dup ∧
          Spec.markAll l.alloc ((t.metaOff, t.metaPow2) :: m.dataPages c.pages) = some l'.alloc) ∨
       (t.state = .committed ∧ l.committed m.key = none ∧ l'.incomplete = l.incomplete ∧
          l'.committed = updKey l.committed m.key (some ⟨t.id, m⟩) ∧ l'.dup = l.dup ∧
          Spec.markAll l.alloc ((t.metaOff, t.metaPow2) :: m.dataPages c.pages) = some l'.alloc) ∨
       (t.state = .committed ∧ ∃ e, l.committed m.key = some e ∧ l'.incomplete = l.incomplete ∧ l'.dup = true ∧
          ((e.id > t.id ∧ l'.committed = l.committed ∧ l'.alloc = l.alloc) ∨
           (e.id < t.id ∧ l'.committed = updKey l.committed m.key (some ⟨t.id, m⟩) ∧
            Spec.markAll l.alloc ((t.metaOff, t.metaPow2) :: m.dataPages c.pages) = some l'.alloc)))) := by
  unfold loadOne at h
  split at h
  · simp at h
  · rename_i m hm
    split at h
    · simp at h
    · rename_i lay hlay
      refine ⟨m, hm, by rw [hlay]; rfl, ?_⟩
      simp only at h
      split at h
      · rename_i hst
        split at h
        · simp at h
        · rename_i hnone
          split at h
          · simp at h
          · rename_i a ha
            cases h
            exact Or.inl ⟨hst, by simpa using hnone, rfl, rfl, rfl, ha⟩
      · rename_i hst
        split at h
        · rename_i hnone
          split at h
          · simp at h
          · rename_i a ha
            cases h
            exact Or.inr (Or.inl ⟨hst, hnone, rfl, rfl, rfl, ha⟩)
        · rename_i e he
          split at h
          · simp at h
          · rename_i hne
            split at h
            · rename_i hgt
              cases h
              exact Or.inr (Or.inr ⟨hst, e, he, rfl, rfl, Or.inl ⟨hgt, rfl, rfl⟩⟩)
            · rename_i hle
              split at h
              · simp at h
              · rename_i a ha
                cases h
                exact Or.inr (Or.inr ⟨hst, e, he, rfl, rfl, Or.inr ⟨by omega, rfl, ha⟩⟩)

/-- ids and keys in the structures being rebuilt -/
structure LoadIds (N : Nat → Prop) (l : LoadSt) : Prop where
  incKey : ∀ id o, l.incomplete id = some o → o.id = id ∧ N id
  comKey : ∀ k o, l.committed k = some o → o.m.key = k

theorem loadIds_one {N : Nat → Prop} {dev : Mem} {l l' : LoadSt} {t : Tuple} (h : LoadIds N l) (ht : N t.id)
    (hs : loadOne c dev l t = some l') : LoadIds N l' := by
  obtain ⟨m, _, _, h'⟩ := loadOne_some hs
  obtain ⟨h1, h2⟩ := h
  have hupd : ∀ k o, updKey l.committed m.key (some ⟨t.id, m⟩) k = some o → o.m.key = k := by
    intro k o ho
    simp only [updKey] at ho
    split at ho
    · rename_i e; cases ho; exact e.symm
    · exact h2 _ _ ho
  rcases h' with ⟨_, _, e1, e2, _⟩ | ⟨_, _, e1, e2, _⟩ | ⟨_, e, _, e1, _, ⟨_, e2, _⟩ | ⟨_, e2, _⟩⟩
  · refine ⟨?_, by rw [e2]; exact h2⟩
    rw [e1]
    intro id o ho
    simp only [upd] at ho
    split at ho
    · rename_i e; cases ho; subst e; exact ⟨rfl, ht⟩
    · exact h1 _ _ ho
  · exact ⟨by rw [e1]; exact h1, by rw [e2]; exact hupd⟩
  · exact ⟨by rw [e1]; exact h1, by rw [e2]; exact h2⟩
  · exact ⟨by rw [e1]; exact h1, by rw [e2]; exact hupd⟩

theorem loadAll_cons {dev : Mem} {l : LoadSt} {t : Tuple} {ts : List Tuple} :
    loadAll c dev l (t :: ts) = (loadOne c dev l t).bind (fun l' => loadAll c dev l' ts) := by
  simp only [loadAll, foldlM_cons]; rfl

/-- an invariant of the loop -/
theorem loadAll_inv {dev : Mem} {I : LoadSt → Prop} {order : List Tuple}
    (hI : ∀ t ∈ order, ∀ l l', I l → loadOne c dev l t = some l' → I l') {l l' : LoadSt} (hl : I l)
    (h : loadAll c dev l order = some l') : I l' := by
  induction order generalizing l with
  | nil => simp only [loadAll, foldlM_nil] at h; cases h; exact hl
  | cons t ts ih =>
    rw [loadAll_cons] at h
    cases h1 : loadOne c dev l t with
    | none => rw [h1] at h; simp at h
    | some l1 =>
      rw [h1] at h
      exact ih (fun t ht => hI t (mem_cons_of_mem _ ht)) (hI t mem_cons_self l l1 hl h1) h

theorem load_some {s s' : DSt} {order : List Tuple} (h : load c s order = some s') :
    ∃ a0 l, Buddy.new c.heap.pageNumBits c.heap.base c.heap.heap c.heap.pages c.heap.dir = some a0 ∧
      loadAll c s.dev ⟨a0, fun _ => none, fun _ => none, false⟩ order = some l ∧ TS.newOk c.max c.n s.ts.disk ∧
      s' = {
        dev := s.dev, alloc := l.alloc, ts := TS.new c.max c.n s.ts.disk
        incomplete := l.incomplete, committed := l.committed
        handles := [], sealed := [], writers := [], orphans := [], threads := []
        nextCall := s.nextCall, names := s.names
        recs := diskRecs c.n s.dev s.ts
        base := (l.committed, l.incomplete), lin := [], acks := []
        faults := (if l.dup then [.duplicateKey] else []) ++ s.faults } := by
  unfold load at h
  split at h
  · simp at h
  · rename_i a0 h0
    split at h
    · simp at h
    · rename_i l hl
      split at h
      · rename_i hok
        cases h
        exact ⟨a0, l, h0, hl, hok, rfl⟩
      · simp at h

theorem mem_diskTuples {n : Nat} {ts : TS} {t : Tuple} : t ∈ diskTuples n ts ↔ ∃ b, b < n ∧ t ∈ ts.disk b := by
  simp [diskTuples]

theorem idInv_load {s s' : DSt} {order : List Tuple} (h : IdInv s) (hp : order.Perm (diskTuples c.n s.ts))
    (hl : load c s order = some s') : IdInv s' := by
  obtain ⟨a0, l, _, h1, hok, rfl⟩ := load_some hl
  have hload : LoadIds (fun id => s.names id ≠ none) l := by
    refine loadAll_inv (fun t ht l l' hI hs => loadIds_one hI ?_ hs) ⟨by simp, by simp⟩ h1
    obtain ⟨b, _, hb⟩ := mem_diskTuples.1 (hp.mem_iff.1 ht)
    exact h.imgs.disk b t hb
  refine ⟨fun id o ho => (hload.1 id o ho).1, ?_, by simp, by simp, by simp, hload.2, ?_⟩
  · intro id hid
    obtain ⟨o, ho⟩ := Option.ne_none_iff_exists'.1 hid
    exact (hload.1 id o ho).2
  · exact ⟨h.imgs.disk, by simp [TS.inflight, TS.new], h.imgs.disk⟩

theorem idInv_fresh {dev : Mem} {s : DSt} (h : fresh c dev = some s) : IdInv s := by
  unfold fresh at h
  split at h
  · simp at h
  · cases h
    refine ⟨by simp, by simp, by simp, by simp, by simp, by simp, ⟨by simp [TS.new], by simp [TS.new, TS.inflight], by simp [TS.new]⟩⟩

theorem reach_id {s : DSt} (h : Reach c s) : IdInv s := by
  induction h with
  | fresh h => exact idInv_fresh h
  | step _ hs ih => exact idInv_step ih hs
  | restart order _ hp hl ih => exact idInv_load ih hp hl

/-! ## The history -/

structure LinInv (s : DSt) : Prop where
  abs : absRun ⟨s.base.1, s.base.2⟩ (s.lin.map (·.2)) = some ⟨s.committed, s.incomplete⟩
  calls : (s.threads.map (·.call)).Nodup
  lt : ∀ th ∈ s.threads, th.call < s.nextCall ∧ th.start ≤ s.lin.length
  linLt : ∀ e ∈ s.lin, e.1 < s.nextCall
  own : ∀ th ∈ s.threads, th.pc.own (ownEvs s.lin th.start th.call)
  acks : ∀ a ∈ s.acks, a.stop ≤ s.lin.length ∧ Explained s.lin a

theorem absRun_append {a b : Abs} {l : List Ev} {e : Ev} (h : absRun a l = some b) :
    absRun a (l ++ [e]) = absStep b e := by
  simp only [absRun, foldlM_append] at h ⊢
  rw [h]
  simp

theorem explained_append {lin : List (Nat × Ev)} {a : Ack} (hs : a.stop ≤ lin.length) (h : Explained lin a) (x : Nat × Ev) :
    Explained (lin ++ [x]) a := by
  unfold Explained at h ⊢
  rw [take_append_of_le_length hs]
  exact h

theorem explained_own {lin : List (Nat × Ev)} {a : Ack} (hs : a.stop = lin.length) :
    Explained lin a = (match a.resp with
      | .created id => ∃ m, ownEvs lin a.start a.call = [.created id m]
      | .committed (some id) => ∃ old m ifne, ownEvs lin a.start a.call = [.claimed old m, .published old id m ifne]
      | .committed none => ∃ old m, ownEvs lin a.start a.call = [.claimed old m, .kept old m]
      | .deleted => ∃ k want id, ownEvs lin a.start a.call = [.removed k want id]
      | .notFound => (∃ id, ownEvs lin a.start a.call = [.refused id]) ∨ ∃ k want, ownEvs lin a.start a.call = [.missing k want]
      | .inspected id m => ∃ k want, ownEvs lin a.start a.call = [.found k want id m]) := by
  unfold Explained ownEvs
  rw [hs, take_length]
  rfl

/-- steps without an event -/
theorem LinInv.quiet {s s' : DSt} (h : LinInv s) (hb : s'.base = s.base) (hl : s'.lin = s.lin)
    (hc : s'.committed = s.committed) (hi : s'.incomplete = s.incomplete) (hn : s'.nextCall = s.nextCall)
    (hcs : (s'.threads.map (·.call)).Sublist (s.threads.map (·.call)))
    (ht : ∀ t' ∈ s'.threads, ∃ t ∈ s.threads, t'.call = t.call ∧ t'.start = t.start ∧ ∀ l, t.pc.own l → t'.pc.own l)
    (ha : ∀ a ∈ s'.acks, a ∈ s.acks ∨ (a.stop = s.lin.length ∧ Explained s.lin a)) : LinInv s' := by
  refine ⟨by rw [hb, hl, hc, hi]; exact h.abs, h.calls.sublist hcs, ?_, by rw [hl, hn]; exact h.linLt, ?_, ?_⟩
  · intro t' ht'
    obtain ⟨t, ht, e1, e2, _⟩ := ht t' ht'
    rw [e1, e2, hn, hl]; exact h.lt t ht
  · intro t' ht'
    obtain ⟨t, ht, e1, e2, e3⟩ := ht t' ht'
    rw [e1, e2, hl]; exact e3 _ (h.own t ht)
  · intro a ha'
    rw [hl]
    rcases ha a ha' with h' | ⟨h', h''⟩
    · exact h.acks a h'
    · exact ⟨by omega, h''⟩

theorem calls_swap {pre post : List Thread} {th : Thread} {pc : PC} :
    ((pre ++ withPc th pc :: post).map (·.call)).Sublist ((pre ++ th :: post).map (·.call)) := by
  simp [withPc]

theorem calls_drop {pre post : List Thread} {th : Thread} :
    ((pre ++ post).map (·.call)).Sublist ((pre ++ th :: post).map (·.call)) := by
  simp only [map_append, map_cons]
  exact Sublist.append (Sublist.refl _) (sublist_cons_self _ _)

theorem own_swap {threads pre post : List Thread} {th : Thread} {pc : PC} (ht : threads = pre ++ th :: post)
    (ho : ∀ l, th.pc.own l → pc.own l) :
    ∀ t' ∈ pre ++ withPc th pc :: post, ∃ t ∈ threads, t'.call = t.call ∧ t'.start = t.start ∧ ∀ l, t.pc.own l → t'.pc.own l := by
  intro t' ht'
  rcases mem_swap (b := th) ht' with rfl | hx
  · exact ⟨th, ht ▸ mem_mid, rfl, rfl, ho⟩
  · exact ⟨t', ht ▸ hx, rfl, rfl, fun _ h => h⟩

theorem own_drop {threads pre post : List Thread} {th : Thread} (ht : threads = pre ++ th :: post) :
    ∀ t' ∈ pre ++ post, ∃ t ∈ threads, t'.call = t.call ∧ t'.start = t.start ∧ ∀ l, t.pc.own l → t'.pc.own l := by
  intro t' ht'
  refine ⟨t', ?_, rfl, rfl, fun _ h => h⟩
  rw [ht]; simp only [mem_append, mem_cons] at ht' ⊢; tauto

theorem LinInv.swap {s s' : DSt} (h : LinInv s) {pre post : List Thread} {th : Thread} {pc : PC}
    (ht : s.threads = pre ++ th :: post) (ho : ∀ l, th.pc.own l → pc.own l)
    (ht' : s'.threads = pre ++ withPc th pc :: post) (hb : s'.base = s.base) (hl : s'.lin = s.lin)
    (hc : s'.committed = s.committed) (hi : s'.incomplete = s.incomplete) (hn : s'.nextCall = s.nextCall)
    (ha : s'.acks = s.acks) : LinInv s' := by
  refine h.quiet hb hl hc hi hn ?_ ?_ ?_
  · rw [ht', ht]; exact calls_swap
  · rw [ht']; exact own_swap ht ho
  · rw [ha]; exact fun a h => Or.inl h

/-- other threads of a list with distinct calls -/
theorem calls_other {pre post : List Thread} {th x : Thread} (h : ((pre ++ th :: post).map (·.call)).Nodup)
    (hx : x ∈ pre ++ post) : x.call ≠ th.call := by
  simp only [map_append, map_cons] at h
  intro he
  have : th.call ∈ pre.map (·.call) ∨ th.call ∈ post.map (·.call) := by
    rcases mem_append.1 hx with hx | hx
    · exact Or.inl (mem_map.2 ⟨x, hx, he⟩)
    · exact Or.inr (mem_map.2 ⟨x, hx, he⟩)
  exact nodup_mid h this

theorem own_other {lin : List (Nat × Ev)} {th : Thread} (hs : th.start ≤ lin.length) {x : Nat × Ev} (hne : x.1 ≠ th.call)
    (h : th.pc.own (ownEvs lin th.start th.call)) : th.pc.own (ownEvs (lin ++ [x]) th.start th.call) := by
  rw [ownEvs_append hs, if_neg hne, append_nil]; exact h

theorem acks_append {s : DSt} (h : LinInv s) (x : Nat × Ev) :
    ∀ a ∈ s.acks, a.stop ≤ (s.lin ++ [x]).length ∧ Explained (s.lin ++ [x]) a := by
  intro a ha
  obtain ⟨h1, h2⟩ := h.acks a ha
  exact ⟨by simp; omega, explained_append h1 h2 x⟩

/-- a running call takes effect -/
theorem LinInv.event {s s' : DSt} (h : LinInv s) {pre post : List Thread} {th : Thread} {ev : Ev}
    (ht : s.threads = pre ++ th :: post) (hl : s'.lin = s.lin ++ [(th.call, ev)])
    (hb : s'.base = s.base) (hn : s'.nextCall = s.nextCall)
    (habs : absStep ⟨s.committed, s.incomplete⟩ ev = some ⟨s'.committed, s'.incomplete⟩)
    (hth : s'.threads = pre ++ post ∨ ∃ pc, s'.threads = pre ++ withPc th pc :: post ∧
      pc.own (ownEvs s.lin th.start th.call ++ [ev]))
    (ha : ∀ a ∈ s'.acks, a ∈ s.acks ∨ (a.stop = s'.lin.length ∧ Explained s'.lin a)) : LinInv s' := by
  have hcall := h.calls
  rw [ht] at hcall
  have hself := h.lt th (ht ▸ mem_mid)
  have hold : ∀ x ∈ pre ++ post, x ∈ s.threads := fun x hx => by
    rw [ht]; simp only [mem_append, mem_cons] at hx ⊢; tauto
  have hmem : ∀ x ∈ s'.threads, x ∈ pre ++ post ∨ ∃ pc, x = withPc th pc ∧ pc.own (ownEvs s.lin th.start th.call ++ [ev]) := by
    intro x hx
    rcases hth with e | ⟨pc, e, ho⟩
    · exact Or.inl (e ▸ hx)
    · rw [e] at hx
      simp only [mem_append, mem_cons] at hx ⊢
      rcases hx with hx | rfl | hx
      · exact Or.inl (Or.inl hx)
      · exact Or.inr ⟨pc, rfl, ho⟩
      · exact Or.inl (Or.inr hx)
  refine ⟨?_, ?_, ?_, ?_, ?_, ?_⟩
  · rw [hb, hl, map_append, map_cons, map_nil, absRun_append h.abs]; exact habs
  · rcases hth with e | ⟨pc, e, _⟩ <;> rw [e]
    · exact hcall.sublist calls_drop
    · exact hcall.sublist calls_swap
  · intro x hx
    rw [hn, hl]
    rcases hmem x hx with hx | ⟨pc, rfl, _⟩
    · have := h.lt x (hold x hx)
      simp only [length_append, length_cons, length_nil]
      omega
    · simp only [length_append, length_cons, length_nil, withPc]
      omega
  · intro e he
    rw [hl] at he
    rw [hn]
    rcases mem_append.1 he with he | he
    · exact h.linLt e he
    · simp only [mem_singleton] at he
      subst he
      exact hself.1
  · intro x hx
    rw [hl]
    rcases hmem x hx with hx | ⟨pc, rfl, ho⟩
    · exact own_other (h.lt x (hold x hx)).2 (fun e => calls_other hcall hx e.symm) (h.own x (hold x hx))
    · show pc.own (ownEvs (s.lin ++ [(th.call, ev)]) th.start th.call)
      rw [ownEvs_append hself.2, if_pos rfl]
      exact ho
  · intro a ha'
    rcases ha a ha' with h' | ⟨h', h''⟩
    · rw [hl]; exact acks_append h _ a h'
    · exact ⟨by omega, h''⟩

/-- a new call takes effect at once -/
theorem LinInv.start {s s' : DSt} (h : LinInv s) {ev : Ev}
    (hl : s'.lin = s.lin ++ [(s.nextCall, ev)])
    (hb : s'.base = s.base) (hn : s'.nextCall = s.nextCall + 1)
    (habs : absStep ⟨s.committed, s.incomplete⟩ ev = some ⟨s'.committed, s'.incomplete⟩)
    (hth : s'.threads = s.threads ∨ ∃ pc, s'.threads = s.threads ++ [⟨s.nextCall, s.lin.length, pc⟩] ∧ pc.own [ev])
    (ha : s'.acks = s.acks ∨ ∃ r, s'.acks = s.acks ++ [⟨s.nextCall, s.lin.length, s.lin.length + 1, r⟩] ∧
      Explained [(s.nextCall, ev)] ⟨s.nextCall, 0, 1, r⟩) : LinInv s' := by
  have hnone : ownEvs (s.lin ++ [(s.nextCall, ev)]) s.lin.length s.nextCall = [ev] := by
    rw [ownEvs_append (Nat.le_refl _), if_pos rfl]
    simp [ownEvs]
  refine ⟨?_, ?_, ?_, ?_, ?_, ?_⟩
  · rw [hb, hl, map_append, map_cons, map_nil, absRun_append h.abs]; exact habs
  · rcases hth with e | ⟨pc, e, _⟩ <;> rw [e]
    · exact h.calls
    · rw [map_append, map_cons, map_nil]
      refine h.calls.append (by simp) ?_
      intro x hx hx'
      simp only [mem_singleton] at hx'
      subst hx'
      obtain ⟨t, ht, he⟩ := mem_map.1 hx
      have := (h.lt t ht).1
      omega
  · intro x hx
    rw [hn, hl]
    have : x ∈ s.threads ∨ (x.call = s.nextCall ∧ x.start = s.lin.length) := by
      rcases hth with e | ⟨pc, e, _⟩
      · exact Or.inl (e ▸ hx)
      · rw [e] at hx
        rcases mem_append.1 hx with hx | hx
        · exact Or.inl hx
        · simp only [mem_singleton] at hx; subst hx; exact Or.inr ⟨rfl, rfl⟩
    simp only [length_append, length_cons, length_nil]
    rcases this with hx | hx
    · have := h.lt x hx; omega
    · omega
  · intro e he
    rw [hl] at he
    rw [hn]
    rcases mem_append.1 he with he | he
    · have := h.linLt e he; omega
    · simp only [mem_singleton] at he
      subst he
      simp
  · intro x hx
    rw [hl]
    have hold : x ∈ s.threads → x.pc.own (ownEvs (s.lin ++ [(s.nextCall, ev)]) x.start x.call) := by
      intro hx
      have := h.lt x hx
      exact own_other this.2 (by simp only; omega) (h.own x hx)
    rcases hth with e | ⟨pc, e, ho⟩
    · exact hold (e ▸ hx)
    · rw [e] at hx
      rcases mem_append.1 hx with hx | hx
      · exact hold hx
      · simp only [mem_singleton] at hx
        subst hx
        simp only [hnone]
        exact ho
  · intro a ha'
    rw [hl]
    rcases ha with e | ⟨r, e, hr⟩
    · exact acks_append h _ a (e ▸ ha')
    · rw [e] at ha'
      rcases mem_append.1 ha' with ha' | ha'
      · exact acks_append h _ a ha'
      · simp only [mem_singleton] at ha'
        subst ha'
        refine ⟨by simp, ?_⟩
        have e1 : take (s.lin.length + 1) (s.lin ++ [(s.nextCall, ev)]) = s.lin ++ [(s.nextCall, ev)] := by
          rw [take_of_length_le]; simp
        unfold Explained at hr ⊢
        simp only [e1, drop_left]
        simpa using hr

theorem linInv_step {s s' : DSt} (hid : IdInv s) (h : LinInv s) (hs : Step c s s') : LinInv s' := by
  have idq : ∀ t' ∈ s.threads, ∃ t ∈ s.threads, t'.call = t.call ∧ t'.start = t.start ∧ ∀ l, t.pc.own l → t'.pc.own l :=
    fun t ht => ⟨t, ht, rfl, rfl, fun _ h => h⟩
  have q : ∀ {s1 : DSt}, s1.base = s.base → s1.lin = s.lin → s1.committed = s.committed → s1.incomplete = s.incomplete →
      s1.nextCall = s.nextCall → s1.threads = s.threads → s1.acks = s.acks → LinInv s1 := by
    intro s1 e1 e2 e3 e4 e5 e6 e7
    exact h.quiet e1 e2 e3 e4 e5 (by rw [e6]) (by rw [e6]; exact idq) (by rw [e7]; exact fun a h => Or.inl h)
  cases hs with
  | createData key size created _ _ _ _ =>
    refine ⟨h.abs, ?_, ?_, fun e he => Nat.lt_succ_of_lt (h.linLt e he), ?_, h.acks⟩
    · rw [map_append, map_cons, map_nil]
      refine h.calls.append (by simp) ?_
      intro x hx hx'
      simp only [mem_singleton] at hx'
      subst hx'
      obtain ⟨t, ht, he⟩ := mem_map.1 hx
      have := (h.lt t ht).1
      omega
    · intro x hx
      simp only at hx ⊢
      rcases mem_append.1 hx with hx | hx
      · have := h.lt x hx; omega
      · simp only [mem_singleton] at hx; subst hx; simp
    · intro x hx
      simp only at hx ⊢
      rcases mem_append.1 hx with hx | hx
      · exact h.own x hx
      · simp only [mem_singleton] at hx; subst hx; simp [PC.own, ownEvs]
  | createDataPanic size _ _ =>
    refine ⟨h.abs, ?_, ?_, fun e he => Nat.lt_succ_of_lt (h.linLt e he), ?_, h.acks⟩
    · rw [map_append, map_cons, map_nil]
      refine h.calls.append (by simp) ?_
      intro x hx hx'
      simp only [mem_singleton] at hx'
      subst hx'
      obtain ⟨t, ht, he⟩ := mem_map.1 hx
      have := (h.lt t ht).1
      omega
    · intro x hx
      simp only at hx ⊢
      rcases mem_append.1 hx with hx | hx
      · have := h.lt x hx; omega
      · simp only [mem_singleton] at hx; subst hx; simp
    · intro x hx
      simp only at hx ⊢
      rcases mem_append.1 hx with hx | hx
      · exact h.own x hx
      · simp only [mem_singleton] at hx; subst hx; simp [PC.own, ownEvs]
  | createMeta junk ht hp hl ha hi hj => exact h.swap ht (by rw [hp]; exact fun _ h => h) rfl rfl rfl rfl rfl rfl rfl
  | createMetaPanic ht hp _ => exact h.swap (pc := .dead) ht (fun _ _ => trivial) rfl rfl rfl rfl rfl rfl rfl
  | device dev' _ => exact q rfl rfl rfl rfl rfl rfl rfl
  | metaWritten ht hp => exact h.swap ht (by rw [hp]; exact fun _ h => h) rfl rfl rfl rfl rfl rfl rfl
  | createInsert ht hp hi => exact h.swap ht (by rw [hp]; exact fun _ h => h) rfl rfl rfl rfl rfl rfl rfl
  | createInsertPanic ht hp hi => exact h.swap (pc := .dead) ht (fun _ _ => trivial) rfl rfl rfl rfl rfl rfl rfl
  | created ht hp hi =>
    rename_i pre th post o ticket
    refine h.event ht rfl rfl rfl ?_ (Or.inl rfl) ?_
    · have := (hid.cidFree th (ht ▸ mem_mid) o.id (by rw [hp]; simp [PC.cid])).1
      simp [absStep, this]
    · intro a ha
      rcases mem_append.1 ha with ha | ha
      · exact Or.inl ha
      · simp only [mem_singleton] at ha
        subst ha
        refine Or.inr ⟨by simp, ?_⟩
        rw [explained_own (by simp)]
        have ho := h.own th (ht ▸ mem_mid)
        rw [hp] at ho
        simp only [PC.own] at ho
        have hst := (h.lt th (ht ▸ mem_mid)).2
        simp only
        rw [ownEvs_append hst, if_pos rfl, ho]
        exact ⟨_, rfl⟩
  | openHandle id hi => exact q rfl rfl rfl rfl rfl rfl rfl
  | writeStart data _ _ _ _ => exact q rfl rfl rfl rfl rfl rfl rfl
  | writeDone _ => exact q rfl rfl rfl rfl rfl rfl rfl
  | writeCancel _ => exact q rfl rfl rfl rfl rfl rfl rfl
  | orphanDone _ => exact q rfl rfl rfl rfl rfl rfl rfl
  | commitRefused id hi =>
    refine h.start rfl rfl rfl ?_ (Or.inl rfl) (Or.inr ⟨_, rfl, ?_⟩)
    · simp [absStep, hi]
    · simp [Explained]
  | missing k want hk =>
    refine h.start rfl rfl rfl ?_ (Or.inl rfl) (Or.inr ⟨_, rfl, ?_⟩)
    · simp only [absStep]
      cases hc : s.committed k with
      | none => rfl
      | some o => simp [hk o hc]
    · simp [Explained]
  | inspect k want hk hw =>
    refine h.start rfl rfl rfl ?_ (Or.inl rfl) (Or.inr ⟨_, rfl, ?_⟩)
    · simp [absStep, hk, hw]
    · simp [Explained]
  | bg hb => exact q rfl rfl rfl rfl rfl rfl rfl
  | commitClaim id ifne hi =>
    rename_i o
    have e := hid.incKey _ _ hi
    refine h.start rfl rfl rfl ?_ (Or.inr ⟨_, rfl, ?_⟩) (Or.inl rfl)
    · subst e
      simp [absStep, hi]
    · simp [PC.own, e]
  | commitSeal ht hp => exact h.swap ht (by rw [hp]; exact fun _ h => h) rfl rfl rfl rfl rfl rfl rfl
  | commitKept ht hp _ hk =>
    refine h.event ht rfl rfl rfl ?_ (Or.inr ⟨_, rfl, ?_⟩) (fun a h => Or.inl h)
    · simp [absStep, hk]
    · have ho := h.own _ (ht ▸ mem_mid)
      rw [hp] at ho
      simp only [PC.own] at ho ⊢
      rw [ho]; rfl
  | commitPublish ht hp hw hk hi =>
    refine h.event ht rfl rfl rfl ?_ (Or.inr ⟨_, rfl, ?_⟩) (fun a h => Or.inl h)
    · simp only [absStep]
      rw [if_neg]
      rintro ⟨h1, h2⟩
      exact h2 (hk h1)
    · have ho := h.own _ (ht ▸ mem_mid)
      rw [hp] at ho
      simp only [PC.own] at ho ⊢
      rw [ho]; exact ⟨_, rfl⟩
  | commitUpdate ht hp hu =>
    exact h.swap ht (by rw [hp]; exact fun _ ⟨i, h⟩ => ⟨_, i, h⟩) rfl rfl rfl rfl rfl rfl rfl
  | commitUpdatePanic ht hp hu => exact h.swap (pc := .dead) ht (fun _ _ => trivial) rfl rfl rfl rfl rfl rfl rfl
  | commitDone ht hp hf =>
    rename_i pre th post o ticket
    refine h.quiet rfl rfl rfl rfl rfl (ht ▸ calls_drop) (own_drop ht) ?_
    intro a ha
    rcases mem_append.1 ha with ha | ha
    · exact Or.inl ha
    · simp only [mem_singleton] at ha
      subst ha
      refine Or.inr ⟨rfl, ?_⟩
      rw [explained_own rfl]
      have ho := h.own _ (ht ▸ mem_mid)
      rw [hp] at ho
      obtain ⟨old, ifne, ho⟩ := ho
      exact ⟨_, _, _, ho⟩
  | commitReap ht hp hf =>
    exact h.swap ht (by rw [hp]; exact fun _ h => h) rfl rfl rfl rfl rfl rfl rfl
  | delete k want hk hw =>
    rename_i o
    refine h.start rfl rfl rfl ?_ (Or.inr ⟨_, rfl, ?_⟩) (Or.inl rfl)
    · simp [absStep, hk, hw]
    · exact ⟨_, _, rfl⟩
  | reapTuple ht hp hd =>
    refine h.swap ht (by rw [hp]; intro l hl; rename_i why _ _; cases why <;> exact hl) rfl rfl rfl rfl rfl rfl rfl
  | reapPanic ht hp hd => exact h.swap (pc := .dead) ht (fun _ _ => trivial) rfl rfl rfl rfl rfl rfl rfl
  | reaped ht hp hf ha =>
    rename_i pre th post o t ticket why a'
    refine h.quiet rfl rfl rfl rfl rfl (ht ▸ calls_drop) (own_drop ht) ?_
    intro a ha
    rcases mem_append.1 ha with ha | ha
    · exact Or.inl ha
    · simp only [mem_singleton] at ha
      subst ha
      refine Or.inr ⟨rfl, ?_⟩
      rw [explained_own rfl]
      have ho := h.own _ (ht ▸ mem_mid)
      rw [hp] at ho
      cases why with
      | replaced nw => obtain ⟨old, ifne, ho⟩ := ho; exact ⟨_, _, _, ho⟩
      | kept => exact ⟨_, _, ho⟩
      | deleted => obtain ⟨k, want, ho⟩ := ho; exact ⟨_, _, _, ho⟩

theorem reach_lin {s : DSt} (h : Reach c s) : LinInv s := by
  induction h with
  | fresh h =>
    unfold fresh at h
    split at h
    · simp at h
    · cases h
      refine ⟨rfl, by simp, by simp, by simp, by simp, by simp⟩
  | step hr hs ih => exact linInv_step (reach_id hr) ih hs
  | restart order hr hp hl ih =>
    obtain ⟨a0, l, _, h1, hok, rfl⟩ := load_some hl
    refine ⟨rfl, by simp, by simp, by simp, by simp, by simp⟩

/-! ## Ids are never reused -/

structure FreshInv (s : DSt) : Prop where
  nodup : (s.lin.flatMap (fun e => e.2.newId) ++ s.threads.flatMap (fun th => th.pc.cid)).Nodup
  named : ∀ id ∈ s.lin.flatMap (fun e => e.2.newId) ++ s.threads.flatMap (fun th => th.pc.cid), s.names id ≠ none
  bcom : ∀ k o, s.base.1 k = some o → s.names o.id ≠ none ∧
    o.id ∉ s.lin.flatMap (fun e => e.2.newId) ++ s.threads.flatMap (fun th => th.pc.cid)
  btok : ∀ id o, s.base.2 id = some o → s.names id ≠ none ∧
    id ∉ s.lin.flatMap (fun e => e.2.newId) ++ s.threads.flatMap (fun th => th.pc.cid)

theorem FreshInv.next {s s' : DSt} (h : FreshInv s) (hb : s'.base = s.base)
    (hn : ∀ id, s.names id ≠ none → s'.names id ≠ none)
    (hp : ∃ l, (s'.lin.flatMap (fun e => e.2.newId) ++ s'.threads.flatMap (fun th => th.pc.cid)).Perm l ∧
      (l.Sublist (s.lin.flatMap (fun e => e.2.newId) ++ s.threads.flatMap (fun th => th.pc.cid)) ∨
       ∃ id l', l = id :: l' ∧ l'.Sublist (s.lin.flatMap (fun e => e.2.newId) ++ s.threads.flatMap (fun th => th.pc.cid)) ∧
         s.names id = none ∧ s'.names id ≠ none)) : FreshInv s' := by
  obtain ⟨l, hl, hl'⟩ := hp
  obtain ⟨h1, h2, h3, h4⟩ := h
  rcases hl' with hsub | ⟨id, l', rfl, hsub, hid, hid'⟩
  · refine ⟨(hl.nodup_iff).2 (h1.sublist hsub), ?_, ?_, ?_⟩
    · intro id hi; exact hn _ (h2 id (hsub.subset (hl.mem_iff.1 hi)))
    · intro k o ho
      rw [hb] at ho
      exact ⟨hn _ (h3 k o ho).1, fun hi => (h3 k o ho).2 (hsub.subset (hl.mem_iff.1 hi))⟩
    · intro k o ho
      rw [hb] at ho
      exact ⟨hn _ (h4 k o ho).1, fun hi => (h4 k o ho).2 (hsub.subset (hl.mem_iff.1 hi))⟩
  · have hmem : ∀ x, x ∈ s'.lin.flatMap (fun e => e.2.newId) ++ s'.threads.flatMap (fun th => th.pc.cid) →
        x = id ∨ x ∈ s.lin.flatMap (fun e => e.2.newId) ++ s.threads.flatMap (fun th => th.pc.cid) := by
      intro x hx
      rcases mem_cons.1 (hl.mem_iff.1 hx) with h | h
      · exact Or.inl h
      · exact Or.inr (hsub.subset h)
    refine ⟨(hl.nodup_iff).2 (nodup_cons.2 ⟨fun hi => h2 id (hsub.subset hi) hid, h1.sublist hsub⟩), ?_, ?_, ?_⟩
    · intro x hx
      rcases hmem x hx with rfl | h
      · exact hid'
      · exact hn _ (h2 x h)
    · intro k o ho
      rw [hb] at ho
      refine ⟨hn _ (h3 k o ho).1, fun hi => ?_⟩
      rcases hmem _ hi with h | h
      · exact (h3 k o ho).1 (h ▸ hid)
      · exact (h3 k o ho).2 h
    · intro k o ho
      rw [hb] at ho
      refine ⟨hn _ (h4 k o ho).1, fun hi => ?_⟩
      rcases hmem _ hi with h | h
      · exact (h4 k o ho).1 (h ▸ hid)
      · exact (h4 k o ho).2 h

theorem freshInv_step {s s' : DSt} (hi : IdInv s) (h : FreshInv s) (hs : Step c s s') : FreshInv s' := by
  have hself : ∀ l : List Nat, ∃ l', l.Perm l' ∧ (l'.Sublist l ∨ ∃ id l'', l' = id :: l'' ∧ l''.Sublist l ∧
      s.names id = none ∧ s'.names id ≠ none) := fun l => ⟨l, Perm.refl _, Or.inl (Sublist.refl _)⟩
  have hsub : ∀ {A A' B B' : List Nat} {P : Nat → Prop}, A'.Sublist A → B'.Sublist B → ∃ l, (A' ++ B').Perm l ∧
      (l.Sublist (A ++ B) ∨ ∃ id l', l = id :: l' ∧ l'.Sublist (A ++ B) ∧ s.names id = none ∧ s'.names id ≠ none) :=
    fun h1 h2 => ⟨_, Perm.refl _, Or.inl (h1.append h2)⟩
  cases hs with
  | createMeta junk ht hp hl ha hn hj =>
    rename_i pre th post m mo a' id
    refine h.next rfl (fun x hx => upd_ne_none hx (by simp)) ?_
    refine ⟨id :: (flatMap (fun e => e.2.newId) s.lin ++ flatMap (fun th => th.pc.cid) (pre ++ post)), ?_, Or.inr ⟨id, _, rfl, ?_, hn, by simp [upd]⟩⟩
    · simp only [flatMap_append, flatMap_cons, withPc, PC.cid]
      rw [perm_iff_count]
      intro x
      simp only [count_append, count_cons, count_nil]
      omega
    · rw [ht]; exact (Sublist.refl _).append cid_drop
  | createData key size created _ _ _ _ => exact h.next rfl (fun _ h => h) (hsub (P := fun _ => True) (Sublist.refl _) (cid_snoc rfl))
  | createDataPanic size _ _ => exact h.next rfl (fun _ h => h) (hsub (P := fun _ => True) (Sublist.refl _) (cid_snoc rfl))
  | createMetaPanic ht hp _ =>
    exact h.next rfl (fun _ h => h) (hsub (P := fun _ => True) (Sublist.refl _) (ht ▸ cid_swap (nil_sublist _)))
  | device dev' _ => exact h.next rfl (fun _ h => h) (hself _)
  | metaWritten ht hp =>
    exact h.next rfl (fun _ h => h) (hsub (P := fun _ => True) (Sublist.refl _) (ht ▸ cid_swap (by rw [hp]; exact Sublist.refl _)))
  | createInsert ht hp _ =>
    exact h.next rfl (fun _ h => h) (hsub (P := fun _ => True) (Sublist.refl _) (ht ▸ cid_swap (by rw [hp]; exact Sublist.refl _)))
  | createInsertPanic ht hp _ =>
    exact h.next rfl (fun _ h => h) (hsub (P := fun _ => True) (Sublist.refl _) (ht ▸ cid_swap (nil_sublist _)))
  | created ht hp hf =>
    rename_i pre th post o ticket
    refine h.next rfl (fun _ h => h) ⟨_, ?_, Or.inl (Sublist.refl _)⟩
    rw [ht]
    simp only [flatMap_append, flatMap_cons, flatMap_nil, hp, PC.cid, Ev.newId]
    rw [perm_iff_count]
    intro x
    simp only [count_append, count_cons, count_nil]
    omega
  | openHandle id hi => exact h.next rfl (fun _ h => h) (hself _)
  | writeStart data _ _ _ _ => exact h.next rfl (fun _ h => h) (hself _)
  | writeDone _ => exact h.next rfl (fun _ h => h) (hself _)
  | writeCancel _ => exact h.next rfl (fun _ h => h) (hself _)
  | orphanDone _ => exact h.next rfl (fun _ h => h) (hself _)
  | bg hb => exact h.next rfl (fun _ h => h) (hself _)
  | commitRefused id hi =>
    exact h.next rfl (fun _ h => h) (hsub (P := fun _ => True) (by simp [Ev.newId]) (Sublist.refl _))
  | missing k want _ =>
    exact h.next rfl (fun _ h => h) (hsub (P := fun _ => True) (by simp [Ev.newId]) (Sublist.refl _))
  | inspect k want _ _ =>
    exact h.next rfl (fun _ h => h) (hsub (P := fun _ => True) (by simp [Ev.newId]) (Sublist.refl _))
  | commitClaim id ifne hi =>
    exact h.next rfl (fun _ h => h) (hsub (P := fun _ => True) (by simp [Ev.newId]) (cid_snoc rfl))
  | commitSeal ht hp =>
    exact h.next rfl (fun _ h => h) (hsub (P := fun _ => True) (Sublist.refl _) (ht ▸ cid_swap (nil_sublist _)))
  | commitKept ht hp _ _ =>
    exact h.next rfl (fun _ h => h) (hsub (P := fun _ => True) (by simp [Ev.newId]) (ht ▸ cid_swap (nil_sublist _)))
  | commitPublish ht hp hw hk hn =>
    rename_i pre th post o ifne newId
    have hnm : s.names o.id ≠ none := hi.nids _ (ht ▸ mem_mid) _ (by rw [hp]; simp [PC.nid])
    refine h.next rfl (fun x hx => upd_ne_none hx hnm) ?_
    refine ⟨newId :: (flatMap (fun e => e.2.newId) s.lin ++ flatMap (fun th => th.pc.cid) (pre ++ post)), ?_,
      Or.inr ⟨newId, _, rfl, ?_, hn, by simpa [upd] using hnm⟩⟩
    · simp only [flatMap_append, flatMap_cons, flatMap_nil, withPc, PC.cid, Ev.newId]
      rw [perm_iff_count]
      intro x
      simp only [count_append, count_cons, count_nil]
      omega
    · rw [ht]; exact (Sublist.refl _).append cid_drop
  | commitUpdate ht hp _ =>
    exact h.next rfl (fun _ h => h) (hsub (P := fun _ => True) (Sublist.refl _) (ht ▸ cid_swap (nil_sublist _)))
  | commitUpdatePanic ht hp _ =>
    exact h.next rfl (fun _ h => h) (hsub (P := fun _ => True) (Sublist.refl _) (ht ▸ cid_swap (nil_sublist _)))
  | commitDone ht hp hf =>
    exact h.next rfl (fun _ h => h) (hsub (P := fun _ => True) (Sublist.refl _) (ht ▸ cid_drop))
  | commitReap ht hp hf =>
    exact h.next rfl (fun _ h => h) (hsub (P := fun _ => True) (Sublist.refl _) (ht ▸ cid_swap (nil_sublist _)))
  | delete k want hk hw =>
    exact h.next rfl (fun _ h => h) (hsub (P := fun _ => True) (by simp [Ev.newId]) (cid_snoc rfl))
  | reapTuple ht hp hd =>
    exact h.next rfl (fun _ h => h) (hsub (P := fun _ => True) (Sublist.refl _) (ht ▸ cid_swap (nil_sublist _)))
  | reapPanic ht hp hd =>
    exact h.next rfl (fun _ h => h) (hsub (P := fun _ => True) (Sublist.refl _) (ht ▸ cid_swap (nil_sublist _)))
  | reaped ht hp hf ha =>
    exact h.next rfl (fun _ h => h) (hsub (P := fun _ => True) (Sublist.refl _) (ht ▸ cid_drop))

theorem loadCom_named {N : Nat → Prop} {dev : Mem} {l l' : LoadSt} {t : Tuple} (h : ∀ k o, l.committed k = some o → N o.id)
    (ht : N t.id) (hs : loadOne c dev l t = some l') : ∀ k o, l'.committed k = some o → N o.id := by
  obtain ⟨m, _, _, h'⟩ := loadOne_some hs
  have hupd : ∀ k o, updKey l.committed m.key (some ⟨t.id, m⟩) k = some o → N o.id := by
    intro k o ho
    simp only [updKey] at ho
    split at ho
    · cases ho; exact ht
    · exact h _ _ ho
  rcases h' with ⟨_, _, e1, e2, _⟩ | ⟨_, _, e1, e2, _⟩ | ⟨_, e, _, e1, _, ⟨_, e2, _⟩ | ⟨_, e2, _⟩⟩ <;> rw [e2]
  · exact h
  · exact hupd
  · exact h
  · exact hupd

theorem reach_fresh {s : DSt} (h : Reach c s) : FreshInv s := by
  induction h with
  | fresh h =>
    unfold fresh at h
    split at h
    · simp at h
    · cases h
      refine ⟨by simp, by simp, by simp, by simp⟩
  | step hr hs ih => exact freshInv_step (reach_id hr) ih hs
  | @restart s1 s2 order hr hp hl ih =>
    have hid := idInv_load (reach_id hr) hp hl
    have hid0 := reach_id hr
    obtain ⟨a0, l, _, h1, hok, rfl⟩ := load_some hl
    refine ⟨by simp, by simp, ?_, ?_⟩
    · intro k o ho
      refine ⟨?_, by simp⟩
      refine loadAll_inv (I := fun l => ∀ k o, l.committed k = some o → s1.names o.id ≠ none)
        (fun t ht l l' hI hs => loadCom_named (N := fun id => s1.names id ≠ none) hI ?_ hs) (by simp) h1 k o ho
      obtain ⟨b, _, hb⟩ := mem_diskTuples.1 (hp.mem_iff.1 ht)
      exact hid0.imgs.disk b t hb
    · intro id o ho
      exact ⟨hid.incNamed id (by simp only at ho ⊢; rw [ho]; simp), by simp⟩

end Direct
end Blobd
