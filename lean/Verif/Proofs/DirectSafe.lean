import Verif.Proofs.DirectIds
import Verif.Proofs.DirectPages
import Verif.Proofs.DirectSettled
/-! Page safety of the direct store, part 1: tuples, names and records. -/
namespace Blobd
namespace Direct
open List

variable {c : SCfg}

/-! ## Named objects -/

def NamedO (names : Nat → Option (Nat × Meta)) (o : Obj) : Prop := ∃ mo, names o.id = some (mo, o.m)

/-- objects a call holds -/
def PC.objs : PC → List Obj
  | .createMeta o _ _ => [o]
  | .createInsert o _ => [o]
  | .createTuple o _ => [o]
  | .commitClaimed o _ => [o]
  | .commitSealed o _ => [o]
  | .commitPublished _ o ex => o :: ex.toList
  | .commitTuple o ex _ => o :: ex.toList
  | .reap o _ => [o]
  | .reapTuple o _ _ _ => [o]
  | _ => []

structure NInv (s : DSt) : Prop where
  inc : ∀ id o, s.incomplete id = some o → NamedO s.names o
  com : ∀ k o, s.committed k = some o → NamedO s.names o
  han : ∀ o ∈ s.handles, NamedO s.names o
  thr : ∀ th ∈ s.threads, ∀ o ∈ th.pc.objs, NamedO s.names o
  pub : ∀ th ∈ s.threads, ∀ old o ex, th.pc = .commitPublished old o ex → s.names o.id = s.names old

theorem NInv.next {s s' : DSt} (h : NInv s) (hi : s'.incomplete = s.incomplete) (hc : s'.committed = s.committed)
    (hh : s'.handles = s.handles) (hn : s'.names = s.names)
    (ht : ∀ th ∈ s'.threads, (∀ o ∈ th.pc.objs, NamedO s.names o) ∧
      ∀ old o ex, th.pc = .commitPublished old o ex → s.names o.id = s.names old) : NInv s' := by
  refine ⟨?_, ?_, ?_, ?_, ?_⟩
  · rw [hi, hn]; exact h.inc
  · rw [hc, hn]; exact h.com
  · rw [hh, hn]; exact h.han
  · rw [hn]; exact fun th hth => (ht th hth).1
  · rw [hn]; exact fun th hth => (ht th hth).2

theorem NInv.same {s : DSt} (h : NInv s) : ∀ th ∈ s.threads, (∀ o ∈ th.pc.objs, NamedO s.names o) ∧
      ∀ old o ex, th.pc = .commitPublished old o ex → s.names o.id = s.names old :=
  fun th hth => ⟨h.thr th hth, h.pub th hth⟩

theorem NInv.swapT {s : DSt} (h : NInv s) {pre post : List Thread} {th : Thread} {pc : PC}
    (ht : s.threads = pre ++ th :: post) (ho : ∀ o ∈ pc.objs, o ∈ th.pc.objs)
    (hp : ∀ old o ex, pc ≠ .commitPublished old o ex) :
    ∀ x ∈ pre ++ withPc th pc :: post, (∀ o ∈ x.pc.objs, NamedO s.names o) ∧
      ∀ old o ex, x.pc = .commitPublished old o ex → s.names o.id = s.names old := by
  intro x hx
  rcases mem_swap (b := th) hx with rfl | hx
  · exact ⟨fun o h1 => h.thr th (ht ▸ mem_mid) o (ho o h1), fun old o ex h1 => absurd h1 (hp old o ex)⟩
  · exact h.same x (ht ▸ hx)

theorem NInv.dropT {s : DSt} (h : NInv s) {pre post : List Thread} {th : Thread}
    (ht : s.threads = pre ++ th :: post) :
    ∀ x ∈ pre ++ post, (∀ o ∈ x.pc.objs, NamedO s.names o) ∧
      ∀ old o ex, x.pc = .commitPublished old o ex → s.names o.id = s.names old := by
  intro x hx
  refine h.same x ?_
  rw [ht]
  rcases mem_append.1 hx with h | h <;> simp [h]

theorem NInv.snocT {s : DSt} (h : NInv s) {th : Thread} (ho : ∀ o ∈ th.pc.objs, NamedO s.names o)
    (hp : ∀ old o ex, th.pc ≠ .commitPublished old o ex) :
    ∀ x ∈ s.threads ++ [th], (∀ o ∈ x.pc.objs, NamedO s.names o) ∧
      ∀ old o ex, x.pc = .commitPublished old o ex → s.names o.id = s.names old := by
  intro x hx
  rcases mem_append.1 hx with hx | hx
  · exact h.same x hx
  · cases mem_singleton.1 hx
    exact ⟨ho, fun old o ex h1 => absurd h1 (hp old o ex)⟩

theorem named_ext {names : Nat → Option (Nat × Meta)} {id : Nat} {v : Option (Nat × Meta)} (hn : names id = none) {o : Obj}
    (h : NamedO names o) : NamedO (upd names id v) o := by
  obtain ⟨mo, h⟩ := h
  refine ⟨mo, ?_⟩
  rw [upd_ne]
  · exact h
  · intro e; rw [e] at h; rw [hn] at h; cases h

theorem names_ext {names : Nat → Option (Nat × Meta)} {id id' : Nat} {v : Option (Nat × Meta)} {x : Nat × Meta}
    (hn : names id = none) (h : names id' = some x) : upd names id v id' = some x := by
  rw [upd_ne]
  · exact h
  · intro e; rw [e] at h; rw [hn] at h; cases h

theorem nInv_step {s s' : DSt} (hid : IdInv s) (h : NInv s) (hs : Step c s s') : NInv s' := by
  cases hs with
  | createData key size created h1 h2 h3 h4 => exact h.next rfl rfl rfl rfl (h.snocT (by simp [PC.objs]) (by simp))
  | createDataPanic size h1 h2 => exact h.next rfl rfl rfl rfl (h.snocT (by simp [PC.objs]) (by simp))
  | @createMeta pre th post m mo a' id junk ht hp hl ha hn hj =>
    refine ⟨fun id o ho => named_ext hn (h.inc id o ho), fun k o ho => named_ext hn (h.com k o ho),
      fun o ho => named_ext hn (h.han o ho), ?_, ?_⟩
    · intro x hx o ho
      rcases mem_swap (b := th) hx with rfl | hx
      · simp only [withPc, PC.objs, mem_singleton] at ho
        subst ho
        exact ⟨mo, upd_same _ _ _⟩
      · exact named_ext hn (h.thr x (ht ▸ hx) o ho)
    · intro x hx old o ex hpc
      rcases mem_swap (b := th) hx with rfl | hx
      · simp [withPc] at hpc
      · have h1 := h.pub x (ht ▸ hx) old o ex hpc
        obtain ⟨mo', h2⟩ := h.thr x (ht ▸ hx) o (by rw [hpc]; simp [PC.objs])
        show upd s.names id _ o.id = upd s.names id _ old
        rw [names_ext hn h2, names_ext hn (h1 ▸ h2)]
  | createMetaPanic ht hp ha => exact h.next rfl rfl rfl rfl (h.swapT ht (by simp [PC.objs]) (by simp))
  | device d hd => exact h.next rfl rfl rfl rfl h.same
  | metaWritten ht hp => exact h.next rfl rfl rfl rfl (h.swapT ht (by rw [hp]; simp [PC.objs]) (by simp))
  | createInsert ht hp hi => exact h.next rfl rfl rfl rfl (h.swapT ht (by rw [hp]; simp [PC.objs]) (by simp))
  | createInsertPanic ht hp hi => exact h.next rfl rfl rfl rfl (h.swapT ht (by simp [PC.objs]) (by simp))
  | @created pre th post o ticket ht hp hf =>
    have h1 := h.dropT ht
    refine ⟨?_, h.com, h.han, fun x hx => (h1 x hx).1, fun x hx => (h1 x hx).2⟩
    intro id o' ho
    simp only [upd] at ho
    split at ho
    · cases ho; exact h.thr th (ht ▸ mem_mid) o (by rw [hp]; simp [PC.objs])
    · exact h.inc id o' ho
  | openHandle id ho =>
    refine ⟨h.inc, h.com, ?_, h.thr, h.pub⟩
    intro o' ho'
    rcases mem_cons.1 ho' with rfl | ho'
    · exact h.inc id _ ho
    · exact h.han o' ho'
  | writeStart data h1 h2 h3 h4 => exact h.next rfl rfl rfl rfl h.same
  | writeDone hw => exact h.next rfl rfl rfl rfl h.same
  | writeCancel hw => exact h.next rfl rfl rfl rfl h.same
  | orphanDone hw => exact h.next rfl rfl rfl rfl h.same
  | @commitClaim o id ifne ho =>
    have h1 := h.snocT (th := ⟨s.nextCall, s.lin.length, .commitClaimed o ifne⟩)
      (by simp only [PC.objs, mem_singleton, forall_eq]; exact h.inc id o ho) (by simp)
    refine ⟨?_, h.com, h.han, fun x hx => (h1 x hx).1, fun x hx => (h1 x hx).2⟩
    intro id' o' ho'
    simp only [upd] at ho'
    split at ho'
    · cases ho'
    · exact h.inc id' o' ho'
  | commitRefused id ho => exact h.next rfl rfl rfl rfl h.same
  | commitSeal ht hp => exact h.next rfl rfl rfl rfl (h.swapT ht (by rw [hp]; simp [PC.objs]) (by simp))
  | commitKept ht hp hw hc => exact h.next rfl rfl rfl rfl (h.swapT ht (by rw [hp]; simp [PC.objs]) (by simp))
  | @commitPublish pre th post o ifne newId ht hp hw hc hn =>
    obtain ⟨mo, hmo⟩ := h.thr th (ht ▸ mem_mid) o (by rw [hp]; simp [PC.objs])
    have hne : upd s.names newId (s.names o.id) o.id = some (mo, o.m) := names_ext hn hmo
    have hnew : NamedO (upd s.names newId (s.names o.id)) ⟨newId, o.m⟩ := ⟨mo, by rw [upd_same]; exact hmo⟩
    refine ⟨fun id o ho => named_ext hn (h.inc id o ho), ?_, fun o ho => named_ext hn (h.han o ho), ?_, ?_⟩
    · intro k o' ho'
      simp only [updKey] at ho'
      split at ho'
      · cases ho'; exact hnew
      · exact named_ext hn (h.com k o' ho')
    · intro x hx o' ho'
      rcases mem_swap (b := th) hx with rfl | hx
      · simp only [withPc, PC.objs, mem_cons, Option.mem_toList] at ho'
        rcases ho' with rfl | ho'
        · exact hnew
        · exact named_ext hn (h.com _ o' ho')
      · exact named_ext hn (h.thr x (ht ▸ hx) o' ho')
    · intro x hx old o' ex hpc
      rcases mem_swap (b := th) hx with rfl | hx
      · simp only [withPc, PC.commitPublished.injEq] at hpc
        obtain ⟨rfl, rfl, _⟩ := hpc
        show upd s.names newId _ newId = upd s.names newId _ o.id
        rw [hne, upd_same, hmo]
      · have h1 := h.pub x (ht ▸ hx) old o' ex hpc
        obtain ⟨mo', h2⟩ := h.thr x (ht ▸ hx) o' (by rw [hpc]; simp [PC.objs])
        show upd s.names newId _ o'.id = upd s.names newId _ old
        rw [names_ext hn h2, names_ext hn (h1 ▸ h2)]
  | commitUpdate ht hp hu => exact h.next rfl rfl rfl rfl (h.swapT ht (by rw [hp]; simp [PC.objs]) (by simp))
  | commitUpdatePanic ht hp hu => exact h.next rfl rfl rfl rfl (h.swapT ht (by simp [PC.objs]) (by simp))
  | commitDone ht hp hf => exact h.next rfl rfl rfl rfl (h.dropT ht)
  | commitReap ht hp hf => exact h.next rfl rfl rfl rfl (h.swapT ht (by rw [hp]; simp [PC.objs]) (by simp))
  | @delete o k want ho hw =>
    have h1 := h.snocT (th := ⟨s.nextCall, s.lin.length, .reap o .deleted⟩)
      (by simp only [PC.objs, mem_singleton, forall_eq]; exact h.com k o ho) (by simp)
    refine ⟨h.inc, ?_, h.han, fun x hx => (h1 x hx).1, fun x hx => (h1 x hx).2⟩
    intro k' o' ho'
    simp only [updKey] at ho'
    split at ho'
    · cases ho'
    · exact h.com k' o' ho'
  | missing k want hm => exact h.next rfl rfl rfl rfl h.same
  | inspect k want ho hw => exact h.next rfl rfl rfl rfl h.same
  | reapTuple ht hp hd => exact h.next rfl rfl rfl rfl (h.swapT ht (by rw [hp]; simp [PC.objs]) (by simp))
  | reapPanic ht hp hd => exact h.next rfl rfl rfl rfl (h.swapT ht (by simp [PC.objs]) (by simp))
  | reaped ht hp hf ha => exact h.next rfl rfl rfl rfl (h.dropT ht)
  | bg hb => exact h.next rfl rfl rfl rfl h.same

/-! ## Tuples and records -/

abbrev Names := Nat → Option (Nat × Meta)

/-- a tuple of bundle `b` belongs to a record; an older image (`dy`) may also hold removed ones -/
def TupOk (names : Names) (recs : List Rec) (b : Nat) (dy : Bool) (t : Tuple) : Prop :=
  ∃ m, names t.id = some (t.metaOff, m) ∧
    (⟨t.metaOff, t.metaPow2, m, .live b⟩ ∈ recs ∨ (dy = true ∧ ⟨t.metaOff, t.metaPow2, m, .dying b⟩ ∈ recs))

structure ImgOk (max : Nat) (names : Names) (recs : List Rec) (b : Nat) (dy : Bool) (l : List Tuple) : Prop where
  len : l.length ≤ max
  nd : (l.map (·.metaOff)).Nodup
  tup : ∀ t ∈ l, TupOk names recs b dy t

def noOff (mo : Nat) (l : List Tuple) : Prop := ∀ u ∈ l, u.metaOff ≠ mo

/-- what a call knows about its metadata page -/
def RTh (n : Nat) (names : Names) (recs : List Rec) (ts : TS) : PC → Prop
  | .createMeta o t _ => names o.id = some (t.metaOff, o.m) ∧ ⟨t.metaOff, t.metaPow2, o.m, .fresh⟩ ∈ recs
  | .createInsert o t => names o.id = some (t.metaOff, o.m) ∧ ⟨t.metaOff, t.metaPow2, o.m, .fresh⟩ ∈ recs
  | .reapTuple o t ticket _ => names o.id = some (t.metaOff, o.m) ∧
      ∃ b, b < n ∧ ⟨t.metaOff, t.metaPow2, o.m, .dying b⟩ ∈ recs ∧ Settled ts b (noOff t.metaOff) ticket
  | _ => True

def PC.hold : PC → List Nat
  | .createMeta _ t _ => [t.metaOff]
  | .createInsert _ t => [t.metaOff]
  | .reapTuple _ t _ _ => [t.metaOff]
  | _ => []

structure RInv (c : SCfg) (s : DSt) : Prop where
  nd : (s.recs.map (·.mo)).Nodup
  mem : ∀ b, ImgOk c.max s.names s.recs b false (s.ts.bundles b)
  fly : ∀ w ∈ s.ts.inflight, ImgOk c.max s.names s.recs w.1 true w.2
  disk : ∀ b, ImgOk c.max s.names s.recs b true (s.ts.disk b)
  thr : ∀ th ∈ s.threads, RTh c.n s.names s.recs s.ts th.pc
  hold : (s.threads.flatMap (fun th => th.pc.hold)).Nodup

theorem rec_uniq {recs : List Rec} (h : (recs.map (·.mo)).Nodup) {r r' : Rec} (hr : r ∈ recs) (hr' : r' ∈ recs)
    (he : r.mo = r'.mo) : r = r' := inj_on_of_nodup_map h hr hr' he

theorem setRec_mo (recs : List Rec) (mo : Nat) (st : RecSt) : (setRec recs mo st).map (·.mo) = recs.map (·.mo) := by
  simp only [setRec, map_map]
  apply map_congr_left
  intro r _
  simp only [Function.comp]
  split <;> rfl

theorem setRec_ne {recs : List Rec} {mo : Nat} {st : RecSt} {r : Rec} (h : r ∈ recs) (hn : r.mo ≠ mo) : r ∈ setRec recs mo st :=
  mem_map.2 ⟨r, h, by rw [if_neg hn]⟩

theorem setRec_eq {recs : List Rec} {mo mp : Nat} {m : Meta} {st st' : RecSt} (h : ⟨mo, mp, m, st'⟩ ∈ recs) :
    ⟨mo, mp, m, st⟩ ∈ setRec recs mo st :=
  mem_map.2 ⟨_, h, by simp⟩

theorem setRec_inv {recs : List Rec} {mo : Nat} {st : RecSt} {r : Rec} (h : r ∈ setRec recs mo st) :
    (r.mo ≠ mo ∧ r ∈ recs) ∨ (r.mo = mo ∧ r.st = st ∧ ∃ st', ⟨r.mo, r.mp, r.m, st'⟩ ∈ recs) := by
  obtain ⟨r0, h0, h1⟩ := mem_map.1 h
  split at h1
  · rename_i he; subst h1; exact Or.inr ⟨he, rfl, r0.st, h0⟩
  · rename_i he; subst h1; exact Or.inl ⟨he, h0⟩

theorem ImgOk.imp {max : Nat} {names names' : Names} {recs recs' : List Rec} {b : Nat} {dy dy' : Bool} {l : List Tuple}
    (h : ImgOk max names recs b dy l) (hi : ∀ t ∈ l, TupOk names recs b dy t → TupOk names' recs' b dy' t) :
    ImgOk max names' recs' b dy' l := ⟨h.len, h.nd, fun t ht => hi t ht (h.tup t ht)⟩

/-- the image lists and threads under a step that leaves the tuple index alone -/
theorem RInv.map {s s' : DSt} (h : RInv c s) (hts : s'.ts = s.ts) (hnd : (s'.recs.map (·.mo)).Nodup)
    (hi : ∀ b dy l, ImgOk c.max s.names s.recs b dy l → (l = s.ts.bundles b ∨ (b, l) ∈ s.ts.inflight ∨ l = s.ts.disk b) →
      ImgOk c.max s'.names s'.recs b dy l)
    (ht : ∀ th ∈ s'.threads, RTh c.n s'.names s'.recs s.ts th.pc) (hh : (s'.threads.flatMap (fun th => th.pc.hold)).Nodup) :
    RInv c s' := by
  refine ⟨hnd, ?_, ?_, ?_, ?_, hh⟩
  · intro b; rw [hts]; exact hi _ _ _ (h.mem b) (Or.inl rfl)
  · intro w hw; rw [hts] at hw; exact hi _ _ _ (h.fly w hw) (Or.inr (Or.inl hw))
  · intro b; rw [hts]; exact hi _ _ _ (h.disk b) (Or.inr (Or.inr rfl))
  · rw [hts]; exact ht

theorem RInv.quiet {s s' : DSt} (h : RInv c s) (hts : s'.ts = s.ts) (hr : s'.recs = s.recs) (hn : s'.names = s.names)
    (ht : ∀ th ∈ s'.threads, RTh c.n s.names s.recs s.ts th.pc) (hh : (s'.threads.flatMap (fun th => th.pc.hold)).Nodup) :
    RInv c s' := by
  refine h.map hts (by rw [hr]; exact h.nd) ?_ (by rw [hr, hn]; exact ht) hh
  intro b dy l hl _; rw [hr, hn]; exact hl

theorem RInv.same {s s' : DSt} (h : RInv c s) (hts : s'.ts = s.ts) (hr : s'.recs = s.recs) (hn : s'.names = s.names)
    (ht : s'.threads = s.threads) : RInv c s' :=
  h.quiet hts hr hn (by rw [ht]; exact h.thr) (by rw [ht]; exact h.hold)

theorem RInv.swap {s s' : DSt} (h : RInv c s) {pre post : List Thread} {th : Thread} {pc : PC}
    (ht : s.threads = pre ++ th :: post) (ht' : s'.threads = pre ++ withPc th pc :: post)
    (hts : s'.ts = s.ts) (hr : s'.recs = s.recs) (hn : s'.names = s.names)
    (hp : RTh c.n s.names s.recs s.ts th.pc → RTh c.n s.names s.recs s.ts pc) (hh : pc.hold.Sublist th.pc.hold) : RInv c s' := by
  refine h.quiet hts hr hn ?_ ?_
  · rw [ht']
    intro x hx
    rcases mem_swap (b := th) hx with rfl | hx
    · exact hp (h.thr th (ht ▸ mem_mid))
    · exact h.thr x (ht ▸ hx)
  · rw [ht']
    have := h.hold
    rw [ht] at this
    exact this.sublist (fm_swap hh)

theorem RInv.drop {s s' : DSt} (h : RInv c s) {pre post : List Thread} {th : Thread}
    (ht : s.threads = pre ++ th :: post) (ht' : s'.threads = pre ++ post)
    (hts : s'.ts = s.ts) (hr : s'.recs = s.recs) (hn : s'.names = s.names) : RInv c s' := by
  refine h.quiet hts hr hn ?_ ?_
  · rw [ht']
    intro x hx
    refine h.thr x (ht ▸ ?_)
    rcases mem_append.1 hx with h | h <;> simp [h]
  · rw [ht']
    have := h.hold
    rw [ht] at this
    exact this.sublist fm_drop

theorem RInv.snoc {s s' : DSt} (h : RInv c s) {th : Thread} (ht' : s'.threads = s.threads ++ [th])
    (hts : s'.ts = s.ts) (hr : s'.recs = s.recs) (hn : s'.names = s.names)
    (hp : RTh c.n s.names s.recs s.ts th.pc) (hh : th.pc.hold = []) : RInv c s' := by
  refine h.quiet hts hr hn ?_ ?_
  · rw [ht']
    intro x hx
    rcases mem_append.1 hx with hx | hx
    · exact h.thr x hx
    · cases mem_singleton.1 hx; exact hp
  · rw [ht']
    exact h.hold.sublist (fm_snoc hh)

/-- each held metadata offset has a record that is not in memory any more or not yet -/
theorem rth_hold {n : Nat} {names : Names} {recs : List Rec} {ts : TS} {pc : PC} (h : RTh n names recs ts pc) :
    ∀ mo ∈ pc.hold, ∃ r ∈ recs, r.mo = mo ∧ ∀ b, r.st ≠ .live b := by
  intro mo hm
  cases pc <;> simp only [PC.hold, mem_singleton, not_mem_nil] at hm
  · subst hm; exact ⟨_, h.2, rfl, by simp⟩
  · subst hm; exact ⟨_, h.2, rfl, by simp⟩
  · subst hm
    obtain ⟨_, b, _, h1, _⟩ := h
    exact ⟨_, h1, rfl, by simp⟩

/-- threads when the record at `mo`, not theirs, changes -/
theorem rth_rec {n : Nat} {names : Names} {recs recs' : List Rec} {ts ts' : TS} {pc : PC} {mo : Nat}
    (h : RTh n names recs ts pc) (hm : mo ∉ pc.hold) (hr : ∀ r ∈ recs, r.mo ≠ mo → r ∈ recs')
    (hset : ∀ b mo' ticket, b < n → mo' ∈ pc.hold → Settled ts b (noOff mo') ticket → Settled ts' b (noOff mo') ticket) : RTh n names recs' ts' pc := by
  cases pc <;> simp only [PC.hold, mem_singleton, not_mem_nil] at hm
  case createMeta o t page => exact ⟨h.1, hr _ h.2 (fun e => hm e.symm)⟩
  case createInsert o t => exact ⟨h.1, hr _ h.2 (fun e => hm e.symm)⟩
  case reapTuple o t ticket why =>
    obtain ⟨h1, b, h2, h3, h4⟩ := h
    exact ⟨h1, b, h2, hr _ h3 (fun e => hm e.symm), hset _ _ _ h2 (by simp [PC.hold]) h4⟩
  all_goals trivial

theorem rth_names {n : Nat} {names : Names} {recs recs' : List Rec} {ts : TS} {pc : PC} {id : Nat} {v : Option (Nat × Meta)}
    (hn : names id = none) (h : RTh n names recs ts pc) (hr : ∀ r ∈ recs, r ∈ recs') : RTh n (upd names id v) recs' ts pc := by
  cases pc
  case createMeta o t page => exact ⟨names_ext hn h.1, hr _ h.2⟩
  case createInsert o t => exact ⟨names_ext hn h.1, hr _ h.2⟩
  case reapTuple o t ticket why =>
    obtain ⟨h1, b, h2, h3, h4⟩ := h
    exact ⟨names_ext hn h1, b, h2, hr _ h3, h4⟩
  all_goals trivial

theorem tup_names {names : Names} {recs recs' : List Rec} {b : Nat} {dy : Bool} {t : Tuple} {id : Nat} {v : Option (Nat × Meta)}
    (hn : names id = none) (h : TupOk names recs b dy t) (hr : ∀ r ∈ recs, r ∈ recs') : TupOk (upd names id v) recs' b dy t := by
  obtain ⟨m, h1, h2⟩ := h
  exact ⟨m, names_ext hn h1, h2.imp (hr _) (fun h => ⟨h.1, hr _ h.2⟩)⟩

/-- the images under a step of the background loop -/
theorem rInv_bg {s : DSt} {ts' : TS} (h : RInv c s) (hT : TInv c.max c.n s.ts) (hK : Tickets s.ts) (hb : TS.BgStep c.n s.ts ts') :
    RInv c { s with ts := ts' } := by
  have hmem : ts'.bundles = s.ts.bundles := by
    cases hb with
    | snapshot _ => rfl
    | write i hw => obtain ⟨_, _, _, _, _, _, rfl⟩ := writePage_eq hw; rfl
    | signal hw => obtain ⟨_, _, rfl⟩ := signal_eq hw; rfl
  refine ⟨h.nd, by intro b; simp only [hmem]; exact h.mem b, ?_, ?_, ?_, h.hold⟩
  · cases hb with
    | snapshot hbn =>
      intro w hw
      simp only [(snapshot_sig hT).2, mem_map] at hw
      obtain ⟨b, _, rfl⟩ := hw
      exact (h.mem b).imp (fun t _ ht => by
        obtain ⟨m, h1, h2⟩ := ht
        exact ⟨m, h1, Or.inl (h2.resolve_right (by simp))⟩)
    | write i hw =>
      obtain ⟨ws, sg, b, l, hbt, hwi, rfl⟩ := writePage_eq hw
      intro w hw
      refine h.fly w ?_
      simp only [TS.inflight, hbt] at hw ⊢
      exact mem_of_mem_eraseIdx hw
    | signal hw =>
      obtain ⟨sg, hbt, rfl⟩ := signal_eq hw
      intro w hw
      simp [TS.inflight] at hw
  · cases hb with
    | snapshot _ => exact h.disk
    | write i hw =>
      obtain ⟨ws, sg, b, l, hbt, hwi, rfl⟩ := writePage_eq hw
      intro b'
      show ImgOk _ _ _ _ _ (upd s.ts.disk b l b')
      by_cases hbb : b' = b
      · subst hbb
        rw [upd_same]
        exact h.fly (b', l) (by simp only [TS.inflight, hbt]; exact mem_of_getElem? hwi)
      · rw [upd_ne hbb]; exact h.disk b'
    | signal hw => obtain ⟨sg, hbt, rfl⟩ := signal_eq hw; exact h.disk
  · intro th hth
    have := h.thr th hth
    generalize th.pc = pc at this
    cases pc
    case reapTuple o t ticket why =>
      obtain ⟨h1, b, h2, h3, h4⟩ := this
      exact ⟨h1, b, h2, h3, settled_bg hT hK h2 h4 hb⟩
    all_goals exact this

/-! ## Pages -/

def regs (c : SCfg) (r : Rec) : List (Nat × Nat) := objPages c r.mo r.mp r.m

/-- pages of calls that have not got a record yet -/
def PC.pages (c : SCfg) : PC → List (Nat × Nat)
  | .createData m => m.dataPages c.pages
  | _ => []

/-- a description that can be stored: every page offset is among the data pages -/
structure Meta.Sound (c : SCfg) (m : Meta) : Prop where
  size : m.size < 2 ^ 64
  created : m.created < 2 ^ 63
  lay : (calcObjectLayoutDirect c.pages m.size).isSome
  offs : ∀ o ∈ m.lpages ++ m.tails, ∃ p, (o, p) ∈ m.dataPages c.pages

structure AInv (c : SCfg) (s : DSt) : Prop where
  alloc : ∃ leaked, Buddy.Inv c.heap s.alloc
    (s.recs.flatMap (regs c) ++ (s.threads.flatMap (fun th => th.pc.pages c) ++ leaked))
  lay : ∀ r ∈ s.recs, (calcObjectLayoutDirect c.pages r.m.size).isSome
  sound : ∀ th ∈ s.threads, ∀ m, th.pc = .createData m → m.Sound c

theorem pw_nodup {l : List (Nat × Nat)} (h : l.Pairwise Spec.PageDisj) : l.Nodup :=
  by
  refine h.imp ?_
  rintro a b hab rfl
  exact Buddy.not_disj_self a hab

theorem pw_ne {l : List (Nat × Nat)} (h : l.Pairwise Spec.PageDisj) {a b : Nat × Nat} (ha : a ∈ l) (hb : b ∈ l) (hne : a ≠ b) :
    Spec.PageDisj a b :=
  have : Std.Symm Spec.PageDisj := ⟨fun _ _ h => h.symm⟩
  h.forall ha hb hne

theorem AInv.disj {s : DSt} (h : AInv c s) : (s.recs.flatMap (regs c)).Pairwise Spec.PageDisj := by
  obtain ⟨lk, h⟩ := h.alloc
  exact (pairwise_append.1 h.disj).1

/-- pages of different records, and different pages of one record, share no byte -/
theorem AInv.recs_disj {s : DSt} (h : AInv c s) {r r' : Rec} {a a' : Nat × Nat} (hr : r ∈ s.recs) (hr' : r' ∈ s.recs)
    (ha : a ∈ regs c r) (ha' : a' ∈ regs c r') (hne : r ≠ r' ∨ a ≠ a') : Spec.PageDisj a a' := by
  have hd := h.disj
  refine pw_ne hd (mem_flatMap.2 ⟨r, hr, ha⟩) (mem_flatMap.2 ⟨r', hr', ha'⟩) ?_
  rcases hne with hne | hne
  · rintro rfl
    have h2 := (nodup_flatMap.1 (pw_nodup hd)).2
    have : Std.Symm (Function.onFun List.Disjoint (regs c)) := ⟨fun _ _ h => h.symm⟩
    exact h2.forall hr hr' hne ha ha'
  · exact hne

theorem AInv.meta_data {s : DSt} (h : AInv c s) {r r' : Rec} {a : Nat × Nat} (hr : r ∈ s.recs) (hr' : r' ∈ s.recs)
    (ha : a ∈ r'.m.dataPages c.pages) : Spec.PageDisj (r.mo, r.mp) a := by
  refine h.recs_disj hr hr' (by simp [regs, objPages]) (by simp [regs, objPages, ha]) ?_
  by_cases he : r = r'
  · subst he
    refine Or.inr ?_
    rintro rfl
    have h2 := (nodup_flatMap.1 (pw_nodup h.disj)).1 r hr
    exact (nodup_cons.1 h2).1 ha
  · exact Or.inl he

theorem setRec_regs (recs : List Rec) (mo : Nat) (st : RecSt) : (setRec recs mo st).flatMap (regs c) = recs.flatMap (regs c) := by
  simp only [setRec, flatMap_map]
  congr 1
  funext r
  split <;> rfl

theorem setRec_lay {recs : List Rec} {mo : Nat} {st : RecSt} (h : ∀ r ∈ recs, (calcObjectLayoutDirect c.pages r.m.size).isSome) :
    ∀ r ∈ setRec recs mo st, (calcObjectLayoutDirect c.pages r.m.size).isSome := by
  intro r hr
  rcases setRec_inv hr with ⟨_, h1⟩ | ⟨_, _, st', h1⟩
  · exact h r h1
  · exact h ⟨r.mo, r.mp, r.m, st'⟩ h1

/-- nothing about pages changes -/
theorem AInv.quiet {s s' : DSt} (h : AInv c s) (ha : s'.alloc = s.alloc) (hr : s'.recs.flatMap (regs c) = s.recs.flatMap (regs c))
    (hl : ∀ r ∈ s'.recs, (calcObjectLayoutDirect c.pages r.m.size).isSome)
    (hp : ∃ lk, (s.threads.flatMap (fun th => th.pc.pages c)).Perm (s'.threads.flatMap (fun th => th.pc.pages c) ++ lk))
    (ht : ∀ th ∈ s'.threads, ∀ m, th.pc = .createData m → th ∈ s.threads) : AInv c s' := by
  obtain ⟨lk, hi⟩ := h.alloc
  obtain ⟨lk', hp⟩ := hp
  refine ⟨⟨lk' ++ lk, ?_⟩, hl, fun th hth m hm => h.sound th (ht th hth m hm) m hm⟩
  rw [ha, hr]
  refine hi.perm (Perm.append_left _ ?_)
  rw [← append_assoc]
  exact hp.append_right _

theorem AInv.swap {s s' : DSt} (h : AInv c s) {pre post : List Thread} {th : Thread} {pc : PC}
    (ht : s.threads = pre ++ th :: post) (ht' : s'.threads = pre ++ withPc th pc :: post) (hp : pc.pages c = [])
    (hm : ∀ m, pc ≠ .createData m) (ha : s'.alloc = s.alloc) (hr : s'.recs.flatMap (regs c) = s.recs.flatMap (regs c))
    (hl : ∀ r ∈ s'.recs, (calcObjectLayoutDirect c.pages r.m.size).isSome) : AInv c s' := by
  refine h.quiet ha hr hl ⟨th.pc.pages c, ?_⟩ ?_
  · rw [ht, ht']
    simp only [flatMap_append, flatMap_cons, withPc, hp, nil_append, append_assoc]
    exact Perm.append_left _ perm_append_comm
  · rw [ht']
    intro x hx m hxm
    rcases mem_swap (b := th) hx with rfl | hx
    · exact absurd hxm (hm m)
    · exact ht ▸ hx

theorem AInv.drop {s s' : DSt} (h : AInv c s) {pre post : List Thread} {th : Thread}
    (ht : s.threads = pre ++ th :: post) (ht' : s'.threads = pre ++ post)
    (ha : s'.alloc = s.alloc) (hr : s'.recs = s.recs) : AInv c s' := by
  refine h.quiet ha (by rw [hr]) (by rw [hr]; exact h.lay) ⟨th.pc.pages c, ?_⟩ ?_
  · rw [ht, ht']
    simp only [flatMap_append, flatMap_cons, append_assoc]
    exact Perm.append_left _ perm_append_comm
  · rw [ht']
    intro x hx m hxm
    rw [ht]
    rcases mem_append.1 hx with h | h <;> simp [h]

theorem AInv.snoc {s s' : DSt} (h : AInv c s) {th : Thread} (ht' : s'.threads = s.threads ++ [th]) (hp : th.pc.pages c = [])
    (hm : ∀ m, th.pc ≠ .createData m) (ha : s'.alloc = s.alloc) (hr : s'.recs = s.recs) : AInv c s' := by
  refine h.quiet ha (by rw [hr]) (by rw [hr]; exact h.lay) ⟨[], ?_⟩ ?_
  · rw [ht']
    simp [flatMap_append, hp]
  · rw [ht']
    intro x hx m hxm
    rcases mem_append.1 hx with hx | hx
    · exact hx
    · cases mem_singleton.1 hx; exact absurd hxm (hm m)

theorem AInv.same {s s' : DSt} (h : AInv c s) (ht : s'.threads = s.threads) (ha : s'.alloc = s.alloc) (hr : s'.recs = s.recs) :
    AInv c s' := by
  refine h.quiet ha (by rw [hr]) (by rw [hr]; exact h.lay) ⟨[], by rw [ht]; simp⟩ (by rw [ht]; exact fun x hx _ _ => hx)

theorem filter_perm {recs : List Rec} (h : (recs.map (·.mo)).Nodup) {r : Rec} (hr : r ∈ recs) :
    recs.Perm (r :: recs.filter (fun x => x.mo ≠ r.mo)) := by
  induction recs with
  | nil => simp at hr
  | cons x recs ih =>
    simp only [map_cons, nodup_cons] at h
    rcases mem_cons.1 hr with rfl | hr
    · have : recs.filter (fun x => decide (x.mo ≠ r.mo)) = recs := by
        rw [filter_eq_self]
        intro y hy
        simp only [ne_eq, decide_not, Bool.not_eq_eq_eq_not, Bool.not_true, decide_eq_false_iff_not]
        intro he
        exact h.1 (mem_map.2 ⟨y, hy, he⟩)
      rw [filter_cons_of_neg (by simp), this]
    · have hne : x.mo ≠ r.mo := fun e => h.1 (mem_map.2 ⟨r, hr, e.symm⟩)
      rw [filter_cons_of_pos (by simpa using hne)]
      exact ((ih h.2 hr).cons x).trans (Perm.swap _ _ _)

theorem Inv.lower {hc : Spec.HeapCfg} {a : Buddy} {l : List (Nat × Nat)} (h : Buddy.Inv hc a l) {x : Nat × Nat} (hx : x ∈ l) :
    x.1 < hc.base + hc.heap := by
  have h1 := (h.pgs x hx).1.2.2
  have := Nat.two_pow_pos x.2
  omega

theorem request_le {pages : Pages} (hsl : pages.spage ≤ pages.lpage) {n : Nat} (h : n ≤ 2 ^ pages.lpage) :
    Buddy.requestPow2 pages n ≤ pages.lpage := by
  unfold Buddy.requestPow2
  have := nextPow2Exp_le h
  omega

theorem tails_range (hc : c.Ok) {size : Nat} {lay : ObjectLayout} (h : calcObjectLayoutDirect c.pages size = some lay) :
    ∀ e ∈ lay.tailPageSizes.toList, c.pages.spage ≤ e ∧ e ≤ c.pages.lpage := by
  obtain ⟨lay', e, _, h1, _⟩ := Props.C01_layout_exact c.pages size hc.sl hc.l32 hc.l24
  have : calcObjectLayout c.pages size = some lay := by
    unfold calcObjectLayoutDirect at h
    split at h
    · exact h
    · cases h
  rw [e] at this
  cases this
  exact h1

theorem aInv_step (hc : c.Ok) {s s' : DSt} (hR : RInv c s) (h : AInv c s) (hs : Step c s s')
    (hf : .largeMetadata ∉ s'.faults) : AInv c s' := by
  cases hs with
  | @createData lay offs a' key size created h1 h2 h3 h4 =>
    obtain ⟨lk, hi⟩ := h.alloc
    have ht : ∀ e ∈ lay.tailPageSizes.toList, c.pages.spage ≤ e ∧ e ≤ c.pages.lpage :=
      tails_range hc h3
    obtain ⟨hs1, hs2⟩ := sizes_exps (pages := c.pages) hc.sl ht
    obtain ⟨hlen, hi'⟩ := allocPages_inv hi hs2 h4
    have hdp := dataPages_alloc (created := created) (key := key) h3 hlen
    have e1 : offs.zip ((dataSizes c.pages lay).map (Buddy.requestPow2 c.heap.pages)) = offs.zip (replicate lay.lpageCount c.pages.lpage ++ lay.tailPageSizes.toList) := by
      rw [← hs1]; rfl
    rw [e1, ← hdp] at hi'
    refine ⟨⟨lk, ?_⟩, h.lay, ?_⟩
    · simp only [flatMap_append, flatMap_cons, flatMap_nil, append_nil, PC.pages]
      refine hi'.perm ?_
      refine perm_append_comm_assoc _ _ _ |>.trans (Perm.append_left _ ?_)
      rw [append_assoc]
      exact perm_append_comm_assoc _ _ _
    · intro th hth m hm
      rcases mem_append.1 hth with hth | hth
      · exact h.sound th hth m hm
      · cases mem_singleton.1 hth
        simp only [PC.createData.injEq] at hm
        subst hm
        refine ⟨h1, h2, by rw [h3]; rfl, ?_⟩
        intro o ho
        rw [hdp]
        simp only [take_append_drop] at ho
        obtain ⟨i, hi, rfl⟩ := getElem_of_mem ho
        have hl2 : i < (replicate lay.lpageCount c.pages.lpage ++ lay.tailPageSizes.toList).length := by
          rw [hlen] at hi; simpa [dataSizes] using hi
        exact ⟨_, mem_iff_getElem.2 ⟨i, by simp only [length_zip]; omega, getElem_zip⟩⟩
  | @createDataPanic lay a' size h1 h2 =>
    obtain ⟨lk, hi⟩ := h.alloc
    have ht : ∀ e ∈ lay.tailPageSizes.toList, c.pages.spage ≤ e ∧ e ≤ c.pages.lpage :=
      tails_range hc h1
    obtain ⟨hs1, hs2⟩ := sizes_exps (pages := c.pages) hc.sl ht
    obtain ⟨lk', hi'⟩ := allocPages_inv hi hs2 h2
    refine ⟨⟨lk' ++ lk, ?_⟩, h.lay, ?_⟩
    · simp only [flatMap_append, flatMap_cons, flatMap_nil, append_nil, PC.pages]
      refine hi'.perm ?_
      refine perm_append_comm_assoc _ _ _ |>.trans (Perm.append_left _ ?_)
      exact perm_append_comm_assoc _ _ _
    · intro th hth m hm
      rcases mem_append.1 hth with hth | hth
      · exact h.sound th hth m hm
      · cases mem_singleton.1 hth; simp at hm
  | @createMeta pre th post m mo a' id junk ht hp hl ha hn hj =>
    obtain ⟨lk, hi⟩ := h.alloc
    have hrec : MetaPage.directRecorded c.pages m.enc.length = MetaPage.allocated c.pages m.enc.length := by
      by_contra hne
      simp only [if_neg hne] at hf
      simp at hf
    rcases hi.alloc m.enc.length (request_le hc.sl hl) with ⟨n, b', e, _, h1, _⟩ | ⟨b', e, _⟩
    · rw [e] at ha
      simp only [Prod.mk.injEq, Outcome.ok.injEq] at ha
      obtain ⟨rfl, rfl⟩ := ha
      refine ⟨⟨lk, h1.perm ?_⟩, ?_, ?_⟩
      · simp only [ht, flatMap_append, flatMap_cons, withPc, PC.pages, nil_append, regs, objPages, hrec, MetaPage.allocated, hp,
          cons_append]
        refine Perm.cons _ ?_
        have e1 : c.heap.pages = c.pages := rfl
        simp only [append_assoc]
        refine (Perm.append_left _ (perm_append_comm_assoc _ _ _)).trans ?_
        exact perm_append_comm_assoc _ _ _
      · intro r hr
        rcases mem_cons.1 hr with rfl | hr
        · exact (h.sound th (ht ▸ mem_mid) m hp).lay
        · exact h.lay r hr
      · intro x hx m' hm'
        rcases mem_swap (b := th) hx with rfl | hx
        · simp [withPc] at hm'
        · exact h.sound x (ht ▸ hx) m' hm'
    · rw [e] at ha; simp at ha
  | @createMetaPanic pre th post m a' ht hp ha =>
    have h2 : AInv c { s with alloc := a' } := by
      rcases ha with ⟨_, rfl⟩ | ⟨_, ha⟩
      · exact h
      · obtain ⟨lk, hi⟩ := h.alloc
        refine ⟨⟨lk, ?_⟩, h.lay, h.sound⟩
        by_cases hb : Buddy.requestPow2 c.heap.pages m.enc.length ≤ c.heap.pages.lpage
        · rcases hi.alloc m.enc.length hb with ⟨n, b', e, _⟩ | ⟨b', e, h1, _⟩
          · rw [e] at ha; simp at ha
          · rw [e] at ha
            simp only [Prod.mk.injEq, true_and] at ha
            subst ha
            exact h1
        · exfalso
          unfold Buddy.allocate at ha
          rw [hi.hpages] at ha
          simp only [if_neg hb] at ha
          simp at ha
    exact h2.swap (s' := { s with alloc := a', threads := pre ++ withPc th .dead :: post }) ht rfl rfl (by simp) rfl rfl h.lay
  | device d hd => exact h.same rfl rfl rfl
  | metaWritten ht hp => exact h.swap ht rfl rfl (by simp) rfl rfl h.lay
  | createInsert ht hp hi => exact h.swap ht rfl rfl (by simp) rfl (setRec_regs _ _ _) (setRec_lay h.lay)
  | createInsertPanic ht hp hi => exact h.swap ht rfl rfl (by simp) rfl rfl h.lay
  | created ht hp hf => exact h.drop ht rfl rfl rfl
  | openHandle id ho => exact h.same rfl rfl rfl
  | writeStart data h1 h2 h3 h4 => exact h.same rfl rfl rfl
  | writeDone hw => exact h.same rfl rfl rfl
  | writeCancel hw => exact h.same rfl rfl rfl
  | orphanDone hw => exact h.same rfl rfl rfl
  | commitClaim id ifne ho => exact h.snoc rfl rfl (by simp) rfl rfl
  | commitRefused id ho => exact h.same rfl rfl rfl
  | commitSeal ht hp => exact h.swap ht rfl rfl (by simp) rfl rfl h.lay
  | commitKept ht hp hw hc => exact h.swap ht rfl rfl (by simp) rfl rfl h.lay
  | commitPublish ht hp hw hc hn => exact h.swap ht rfl rfl (by simp) rfl rfl h.lay
  | commitUpdate ht hp hu => exact h.swap ht rfl rfl (by simp) rfl rfl h.lay
  | commitUpdatePanic ht hp hu => exact h.swap ht rfl rfl (by simp) rfl rfl h.lay
  | commitDone ht hp hf => exact h.drop ht rfl rfl rfl
  | commitReap ht hp hf => exact h.swap ht rfl rfl (by simp) rfl rfl h.lay
  | delete k want ho hw => exact h.snoc rfl rfl (by simp) rfl rfl
  | missing k want hm => exact h.same rfl rfl rfl
  | inspect k want ho hw => exact h.same rfl rfl rfl
  | reapTuple ht hp hd => exact h.swap ht rfl rfl (by simp) rfl (setRec_regs _ _ _) (setRec_lay h.lay)
  | reapPanic ht hp hd => exact h.swap ht rfl rfl (by simp) rfl rfl h.lay
  | @reaped pre th post o t ticket why a' ht hp hft ha =>
    obtain ⟨lk, hi⟩ := h.alloc
    have hth := hR.thr th (ht ▸ mem_mid)
    rw [hp] at hth
    obtain ⟨_, b, _, hrec, _⟩ := hth
    have hperm := filter_perm hR.nd hrec
    have hi2 := hi.perm ((hperm.flatMap_right (regs c)).append_right _)
    simp only [flatMap_cons] at hi2
    have hi3 : Buddy.Inv c.heap s.alloc ((o.m.dataPages c.pages ++ [(t.metaOff, t.metaPow2)]) ++
        ((s.recs.filter (fun x => x.mo ≠ t.metaOff)).flatMap (regs c) ++ (s.threads.flatMap (fun th => th.pc.pages c) ++ lk))) := by
      refine hi2.perm ?_
      simp only [regs, objPages, append_assoc]
      refine Perm.trans ?_ perm_middle.symm
      simp
    obtain ⟨a2, e2, h2⟩ := releaseAll_inv hi3
    rw [ha] at e2
    cases e2
    refine ⟨⟨lk, ?_⟩, ?_, ?_⟩
    · refine h2.perm (Perm.append_left _ (Perm.append_right _ ?_))
      simp [ht, hp, PC.pages]
    · intro r hr; exact h.lay r (mem_of_mem_filter hr)
    · intro x hx m' hm'
      refine h.sound x ?_ m' hm'
      rw [ht]
      rcases mem_append.1 hx with h | h <;> simp [h]
  | bg hb => exact h.same rfl rfl rfl

/-- the page just allocated for metadata is not the metadata page of a record -/
theorem fresh_mo (hc : c.Ok) {s : DSt} (h : AInv c s) {m : Meta} {mo : Nat} {a' : Buddy} (hl : m.enc.length ≤ 2 ^ c.pages.lpage)
    (ha : s.alloc.allocate m.enc.length = (.ok mo, a')) : mo ∉ s.recs.map (·.mo) := by
  obtain ⟨lk, hi⟩ := h.alloc
  rcases hi.alloc m.enc.length (request_le hc.sl hl) with ⟨n, b', e, _, h1, _⟩ | ⟨b', e, _⟩
  · rw [e] at ha
    simp only [Prod.mk.injEq, Outcome.ok.injEq] at ha
    obtain ⟨rfl, rfl⟩ := ha
    intro hm
    obtain ⟨r, hr, he⟩ := mem_map.1 hm
    have h2 := (pairwise_cons.1 h1.disj).1 (r.mo, r.mp) (mem_append_left _ (mem_flatMap.2 ⟨r, hr, by simp [regs, objPages]⟩))
    have := Nat.two_pow_pos (Buddy.requestPow2 c.heap.pages m.enc.length)
    have := Nat.two_pow_pos r.mp
    unfold Spec.PageDisj at h2
    simp only [he] at h2
    omega
  · rw [e] at ha; simp at ha

/-- a tuple's record is not a fresh one -/
theorem tup_ne_fresh {names : Names} {recs : List Rec} (hnd : (recs.map (·.mo)).Nodup) {b : Nat} {dy : Bool} {t : Tuple}
    (h : TupOk names recs b dy t) {r : Rec} (hr : r ∈ recs) (hf : r.st = .fresh) : t.metaOff ≠ r.mo := by
  intro he
  obtain ⟨m, _, h1 | ⟨_, h1⟩⟩ := h
  · have := rec_uniq hnd h1 hr he
    rw [← this] at hf; simp at hf
  · have := rec_uniq hnd h1 hr he
    rw [← this] at hf; simp at hf

theorem tup_setRec {names : Names} {recs : List Rec} {b : Nat} {dy : Bool} {t : Tuple} {mo : Nat} {st : RecSt}
    (h : TupOk names recs b dy t) (hne : t.metaOff ≠ mo) : TupOk names (setRec recs mo st) b dy t := by
  obtain ⟨m, h0, h1⟩ := h
  exact ⟨m, h0, h1.imp (fun h => setRec_ne h hne) (fun h => ⟨h.1, setRec_ne h.2 hne⟩)⟩

theorem rInv_step (hc : c.Ok) {s s' : DSt} (hT : TInv c.max c.n s.ts) (hK : Tickets s.ts) (hKI : KInv s) (hN : NInv s)
    (hA : AInv c s) (h : RInv c s) (hs : Step c s s') : RInv c s' := by
  cases hs with
  | createData key size created h1 h2 h3 h4 => exact h.snoc rfl rfl rfl rfl trivial rfl
  | createDataPanic size h1 h2 => exact h.snoc rfl rfl rfl rfl trivial rfl
  | @createMeta pre th post m mo a' id junk ht hp hl ha hn hj =>
    have hmo := fresh_mo hc hA hl ha
    refine h.map rfl (by rw [map_cons, nodup_cons]; exact ⟨hmo, h.nd⟩) ?_ ?_ ?_
    · intro b dy l hl _
      exact hl.imp (fun t _ ht => tup_names hn ht (fun r hr => mem_cons_of_mem _ hr))
    · intro x hx
      rcases mem_swap (b := th) hx with rfl | hx
      · exact ⟨upd_same _ _ _, mem_cons_self⟩
      · exact rth_names hn (h.thr x (ht ▸ hx)) (fun r hr => mem_cons_of_mem _ hr)
    · have hh := h.hold
      rw [ht] at hh
      refine fm_nodup_swap hh (by simp [withPc, PC.hold]) ?_
      intro x hx hx'
      simp only [withPc, PC.hold, mem_singleton] at hx
      subst hx
      obtain ⟨y, hy, hxy⟩ := mem_flatMap.1 hx'
      obtain ⟨r, hr, he, _⟩ := rth_hold (h.thr y (ht ▸ (by rcases mem_append.1 hy with h | h <;> simp [h]))) _ hxy
      exact hmo (mem_map.2 ⟨r, hr, he⟩)
  | createMetaPanic ht hp ha => exact h.swap ht rfl rfl rfl rfl (fun _ => trivial) (nil_sublist _)
  | device d hd => exact h.same rfl rfl rfl rfl
  | metaWritten ht hp =>
    refine h.swap ht rfl rfl rfl rfl ?_ ?_
    · rw [hp]; exact fun h => h
    · rw [hp]; exact Sublist.refl _
  | @createInsert pre th post o t ts' ht hp hi =>
    obtain ⟨hn0, hr0⟩ : RTh c.n s.names s.recs s.ts (.createInsert o t) := hp ▸ h.thr th (ht ▸ mem_mid)
    have hid := (hKI.ins th (ht ▸ mem_mid) o t [] (Or.inr hp)).1
    obtain ⟨b, hm, hbm, hbb⟩ := insert_memOp hi
    obtain ⟨b2, hb2, _, _, hlen, _⟩ := insert_eq hi
    rw [hbm] at hb2
    cases hb2
    have hch : chosen c.n s.ts = b := by simp [chosen, hbm]
    have hne : ∀ {b' dy u}, TupOk s.names s.recs b' dy u → u.metaOff ≠ t.metaOff :=
      fun hu => tup_ne_fresh h.nd hu hr0 rfl
    have hh := h.hold
    rw [ht] at hh
    refine ⟨?_, ?_, ?_, ?_, ?_, hh.sublist (fm_swap (nil_sublist _))⟩
    · show ((setRec _ _ _).map _).Nodup
      rw [setRec_mo]; exact h.nd
    · intro b'
      by_cases hb' : b' = b
      · subst hb'
        show ImgOk _ _ _ _ _ (ts'.bundles b')
        rw [hbb]
        refine ⟨by simpa using hlen, ?_, ?_⟩
        · rw [map_append, nodup_append]
          refine ⟨(h.mem b').nd, by simp, ?_⟩
          intro x hx y hy hxy
          obtain ⟨u, hu, rfl⟩ := mem_map.1 hx
          simp only [map_cons, map_nil, mem_singleton] at hy
          exact hne ((h.mem b').tup u hu) (hxy.trans hy)
        · intro u hu
          rcases mem_append.1 hu with hu | hu
          · exact tup_setRec ((h.mem b').tup u hu) (hne ((h.mem b').tup u hu))
          · cases mem_singleton.1 hu
            exact ⟨o.m, by rw [hid]; exact hn0, Or.inl (by rw [hch]; exact setRec_eq hr0)⟩
      · show ImgOk _ _ _ _ _ (ts'.bundles b')
        rw [hm.others b' hb']
        exact (h.mem b').imp (fun u _ hu => tup_setRec hu (hne hu))
    · intro w hw
      have hw : w ∈ ts'.inflight := hw
      rw [hm.sig.2] at hw
      exact (h.fly w hw).imp (fun u _ hu => tup_setRec hu (hne hu))
    · intro b'
      show ImgOk _ _ _ _ _ (ts'.disk b')
      rw [hm.disk]
      exact (h.disk b').imp (fun u _ hu => tup_setRec hu (hne hu))
    · intro x hx
      have hx : x ∈ pre ++ withPc th (.createTuple o s.ts.next) :: post := hx
      by_cases hxe : x = withPc th (.createTuple o s.ts.next)
      · subst hxe; trivial
      · have hx' : x ∈ pre ++ post := by
          rcases mem_append.1 hx with hx | hx
          · exact mem_append_left _ hx
          · exact mem_append_right _ ((mem_cons.1 hx).resolve_left hxe)
        have hxo := h.thr x (ht ▸ (by rcases mem_append.1 hx' with h | h <;> simp [h]))
        have hxh : t.metaOff ∉ x.pc.hold := fun hc =>
          fm_other hh (by rw [hp]; simp [PC.hold]) (mem_flatMap.2 ⟨x, hx', hc⟩)
        refine rth_rec hxo hxh (fun r hr hn => setRec_ne hr hn) ?_
        intro b' mo' ticket hb' hmo' hset
        refine settled_memOp hset hm ?_
        by_cases hbb' : b' = b
        · subst hbb'
          rw [hbb]
          intro u hu
          rcases mem_append.1 hu with hu | hu
          · exact hset.mem u hu
          · cases mem_singleton.1 hu
            rintro rfl
            exact hxh hmo'
        · rw [hm.others b' hbb']; exact hset.mem
  | createInsertPanic ht hp hi => exact h.swap ht rfl rfl rfl rfl (fun _ => trivial) (nil_sublist _)
  | created ht hp hf => exact h.drop ht rfl rfl rfl rfl
  | openHandle id ho => exact h.same rfl rfl rfl rfl
  | writeStart data h1 h2 h3 h4 => exact h.same rfl rfl rfl rfl
  | writeDone hw => exact h.same rfl rfl rfl rfl
  | writeCancel hw => exact h.same rfl rfl rfl rfl
  | orphanDone hw => exact h.same rfl rfl rfl rfl
  | commitClaim id ifne ho => exact h.snoc rfl rfl rfl rfl trivial rfl
  | commitRefused id ho => exact h.same rfl rfl rfl rfl
  | commitSeal ht hp => exact h.swap ht rfl rfl rfl rfl (fun _ => trivial) (nil_sublist _)
  | commitKept ht hp hw hc => exact h.swap ht rfl rfl rfl rfl (fun _ => trivial) (nil_sublist _)
  | @commitPublish pre th post o ifne newId ht hp hw hc hn =>
    have hh := h.hold
    rw [ht] at hh
    refine h.map rfl h.nd ?_ ?_ (hh.sublist (fm_swap (nil_sublist _)))
    · intro b dy l hl _
      exact hl.imp (fun t _ ht => tup_names hn ht (fun r hr => hr))
    · intro x hx
      rcases mem_swap (b := th) hx with rfl | hx
      · trivial
      · exact rth_names hn (h.thr x (ht ▸ hx)) (fun r hr => hr)
  | @commitUpdate pre th post old o ex ts' ht hp hu =>
    have hpub := hN.pub th (ht ▸ mem_mid) old o ex hp
    obtain ⟨b, hm, hbt⟩ := update_memOp hu
    obtain ⟨b2, t, hb2, htb, hti, _, _, hts⟩ := update_eq hu
    rw [hbt] at hb2
    cases hb2
    have hbb : ts'.bundles b = (s.ts.bundles b).filter (fun t : Tuple => t.id != old) ++ [{ t with id := o.id, state := .committed }] := by
      rw [hts]; exact upd_same _ _ _
    have hh := h.hold
    rw [ht] at hh
    refine ⟨h.nd, ?_, ?_, ?_, ?_, hh.sublist (fm_swap (nil_sublist _))⟩
    · intro b'
      by_cases hb' : b' = b
      · subst hb'
        show ImgOk _ _ _ _ _ (ts'.bundles b')
        rw [hbb]
        refine ⟨?_, ?_, ?_⟩
        · have h1 : ((s.ts.bundles b').filter (fun t : Tuple => t.id != old)).length < (s.ts.bundles b').length :=
            length_filter_lt_length_iff_exists.2 ⟨t, htb, by simp [hti]⟩
          have h2 := (h.mem b').len
          simp only [length_append, length_singleton]
          omega
        · rw [map_append, nodup_append]
          refine ⟨(h.mem b').nd.sublist (filter_sublist.map _), by simp, ?_⟩
          intro x hx y hy hxy
          obtain ⟨u, hu, rfl⟩ := mem_map.1 hx
          simp only [map_cons, map_nil, mem_singleton] at hy
          obtain ⟨hu1, hu2⟩ := mem_filter.1 hu
          have : u = t := inj_on_of_nodup_map (h.mem b').nd hu1 htb (hxy.trans hy)
          subst this
          simp [hti] at hu2
        · intro u hu
          rcases mem_append.1 hu with hu | hu
          · exact (h.mem b').tup u (mem_of_mem_filter hu)
          · cases mem_singleton.1 hu
            obtain ⟨m, h1, h2⟩ := (h.mem b').tup t htb
            exact ⟨m, by rw [← h1, hti]; exact hpub, h2⟩
      · show ImgOk _ _ _ _ _ (ts'.bundles b')
        rw [hm.others b' hb']
        exact h.mem b'
    · intro w hw
      have hw : w ∈ ts'.inflight := hw
      rw [hm.sig.2] at hw
      exact h.fly w hw
    · intro b'
      show ImgOk _ _ _ _ _ (ts'.disk b')
      rw [hm.disk]
      exact h.disk b'
    · intro x hx
      rcases mem_swap (b := th) hx with rfl | hx
      · trivial
      · have hxo := h.thr x (ht ▸ hx)
        generalize x.pc = pc at hxo
        cases pc
        case reapTuple o2 t2 ticket2 why2 =>
          obtain ⟨h1, b', h2, h3, hset⟩ := hxo
          refine ⟨h1, b', h2, h3, settled_memOp hset hm ?_⟩
          by_cases hbb' : b' = b
          · subst hbb'
            rw [hbb]
            intro u hu
            rcases mem_append.1 hu with hu | hu
            · exact hset.mem u (mem_of_mem_filter hu)
            · cases mem_singleton.1 hu
              exact hset.mem t htb
          · rw [hm.others b' hbb']; exact hset.mem
        all_goals exact hxo
  | commitUpdatePanic ht hp hu => exact h.swap ht rfl rfl rfl rfl (fun _ => trivial) (nil_sublist _)
  | commitDone ht hp hf => exact h.drop ht rfl rfl rfl rfl
  | commitReap ht hp hf => exact h.swap ht rfl rfl rfl rfl (fun _ => trivial) (nil_sublist _)
  | delete k want ho hw => exact h.snoc rfl rfl rfl rfl trivial rfl
  | missing k want hm => exact h.same rfl rfl rfl rfl
  | inspect k want ho hw => exact h.same rfl rfl rfl rfl
  | @reapTuple pre th post o why ts' t ht hp hd =>
    obtain ⟨b, hm, hbt⟩ := delete_memOp hd
    obtain ⟨b2, hb2, htb, hti, hts⟩ := delete_eq hd
    rw [hbt] at hb2
    cases hb2
    have hbb : ts'.bundles b = (s.ts.bundles b).filter (fun t : Tuple => t.id != o.id) := by
      rw [hts]; exact upd_same _ _ _
    obtain ⟨m, hnm, hrec⟩ := (h.mem b).tup t htb
    replace hrec := hrec.resolve_right (by simp)
    have hom : m = o.m := by
      obtain ⟨mo, h1⟩ := hN.thr th (ht ▸ mem_mid) o (by rw [hp]; simp [PC.objs])
      rw [← hti, hnm] at h1
      simp only [Option.some.injEq, Prod.mk.injEq] at h1
      exact h1.2
    subst hom
    have hbn : b < c.n := ((hT.idx o.id b).1 hbt).1
    have hgd : (s.ts.toBundle o.id).getD 0 = b := by rw [hbt]; rfl
    have hh := h.hold
    rw [ht] at hh
    have hnh : ∀ x ∈ pre ++ post, t.metaOff ∉ x.pc.hold := by
      intro x hx hc
      obtain ⟨r, hr, he, hl⟩ := rth_hold (h.thr x (ht ▸ (by rcases mem_append.1 hx with h | h <;> simp [h]))) _ hc
      have := rec_uniq h.nd hr hrec he
      subst this
      exact hl b rfl
    have hmemNe : ∀ b', b' ≠ b → ∀ u ∈ s.ts.bundles b', u.metaOff ≠ t.metaOff := by
      intro b' hb' u hu he
      obtain ⟨m', _, hr'⟩ := (h.mem b').tup u hu
      have := rec_uniq h.nd (hr'.resolve_right (by simp)) hrec he
      simp only [Rec.mk.injEq, RecSt.live.injEq] at this
      exact hb' this.2.2.2
    have hold : ∀ b' u, TupOk s.names s.recs b' true u →
        TupOk s.names (setRec s.recs t.metaOff (.dying b)) b' true u := by
      intro b' u hu
      by_cases he : u.metaOff = t.metaOff
      · obtain ⟨m', hn', hr' | ⟨_, hr'⟩⟩ := hu
        · have := rec_uniq h.nd hr' hrec he
          simp only [Rec.mk.injEq, RecSt.live.injEq] at this
          obtain ⟨e1, e2, e3, e4⟩ := this
          subst e4
          refine ⟨m', hn', Or.inr ⟨rfl, ?_⟩⟩
          rw [e1, e2, e3]
          exact setRec_eq hrec
        · have := rec_uniq h.nd hr' hrec he
          simp at this
      · exact tup_setRec hu he
    refine ⟨?_, ?_, ?_, ?_, ?_, ?_⟩
    · show ((setRec _ _ _).map _).Nodup
      rw [setRec_mo]; exact h.nd
    · intro b'
      show ImgOk _ _ (setRec _ _ _) _ _ (ts'.bundles b')
      by_cases hb' : b' = b
      · subst hb'
        rw [hbb]
        refine ⟨(length_filter_le _ _).trans (h.mem b').len, (h.mem b').nd.sublist (filter_sublist.map _), ?_⟩
        intro u hu
        obtain ⟨hu1, hu2⟩ := mem_filter.1 hu
        refine tup_setRec ((h.mem b').tup u hu1) ?_
        intro he
        have : u = t := inj_on_of_nodup_map (h.mem b').nd hu1 htb he
        subst this
        simp [hti] at hu2
      · rw [hm.others b' hb']
        exact (h.mem b').imp (fun u hu h1 => tup_setRec h1 (hmemNe b' hb' u hu))
    · intro w hw
      have hw : w ∈ ts'.inflight := hw
      rw [hm.sig.2] at hw
      simp only [hgd]
      exact (h.fly w hw).imp (fun u _ hu => hold _ u hu)
    · intro b'
      show ImgOk _ _ (setRec _ _ _) _ _ (ts'.disk b')
      rw [hm.disk]
      simp only [hgd]
      exact (h.disk b').imp (fun u _ hu => hold _ u hu)
    · intro x hx
      have hx : x ∈ pre ++ withPc th (.reapTuple o t s.ts.next why) :: post := hx
      simp only [hgd]
      by_cases hxe : x = withPc th (.reapTuple o t s.ts.next why)
      · subst hxe
        refine ⟨by rw [← hti]; exact hnm, b, hbn, setRec_eq hrec, settled_start hK hm ?_⟩
        rw [hbb]
        intro u hu he
        obtain ⟨hu1, hu2⟩ := mem_filter.1 hu
        have : u = t := inj_on_of_nodup_map (h.mem b).nd hu1 htb he
        subst this
        simp [hti] at hu2
      · have hx' : x ∈ pre ++ post := by
          rcases mem_append.1 hx with hx | hx
          · exact mem_append_left _ hx
          · exact mem_append_right _ ((mem_cons.1 hx).resolve_left hxe)
        have hxo := h.thr x (ht ▸ (by rcases mem_append.1 hx' with h | h <;> simp [h]))
        refine rth_rec hxo (hnh x hx') (fun r hr hn => setRec_ne hr hn) ?_
        intro b' mo' ticket hb' hmo' hset
        refine settled_memOp hset hm ?_
        by_cases hbb' : b' = b
        · subst hbb'
          rw [hbb]
          intro u hu
          exact hset.mem u (mem_of_mem_filter hu)
        · rw [hm.others b' hbb']; exact hset.mem
    · refine fm_nodup_swap hh (by simp [withPc, PC.hold]) ?_
      intro x hx hx'
      simp only [withPc, PC.hold, mem_singleton] at hx
      subst hx
      obtain ⟨y, hy, hxy⟩ := mem_flatMap.1 hx'
      exact hnh y hy hxy
  | reapPanic ht hp hd => exact h.swap ht rfl rfl rfl rfl (fun _ => trivial) (nil_sublist _)
  | @reaped pre th post o t ticket why a' ht hp hft ha =>
    obtain ⟨hn0, b, hbn, hrec, hset⟩ : RTh c.n s.names s.recs s.ts (.reapTuple o t ticket why) := hp ▸ h.thr th (ht ▸ mem_mid)
    have hh := h.hold
    rw [ht] at hh
    have hkeep : ∀ r ∈ s.recs, r.mo ≠ t.metaOff → r ∈ s.recs.filter (fun r => r.mo ≠ t.metaOff) :=
      fun r hr hn => mem_filter.2 ⟨hr, by simpa using hn⟩
    have hk : ∀ b' dy u, TupOk s.names s.recs b' dy u → u.metaOff ≠ t.metaOff →
        TupOk s.names (s.recs.filter (fun r => r.mo ≠ t.metaOff)) b' dy u := by
      rintro b' dy u ⟨m', hn', hr'⟩ hne
      exact ⟨m', hn', hr'.imp (fun h => hkeep _ h hne) (fun h => ⟨h.1, hkeep _ h.2 hne⟩)⟩
    have hb : ∀ b' dy u, TupOk s.names s.recs b' dy u → u.metaOff = t.metaOff → dy = true ∧ b' = b := by
      rintro b' dy u ⟨m', hn', hr' | ⟨hdy, hr'⟩⟩ he
      · have := rec_uniq h.nd hr' hrec he
        simp at this
      · have := rec_uniq h.nd hr' hrec he
        simp only [Rec.mk.injEq, RecSt.dying.injEq] at this
        exact ⟨hdy, this.2.2.2⟩
    obtain ⟨hf1, hf2⟩ := hset.fired hft
    refine ⟨h.nd.sublist (filter_sublist.map _), ?_, ?_, ?_, ?_, hh.sublist fm_drop⟩
    · intro b'
      exact (h.mem b').imp (fun u _ hu => hk _ _ u hu (fun he => by simpa using (hb _ _ u hu he).1))
    · intro w hw
      refine (h.fly w hw).imp (fun u hul hu => hk _ _ u hu (fun he => ?_))
      obtain ⟨w1, w2⟩ := w
      have := (hb _ _ u hu he).2
      simp only at this
      subst this
      exact hf1 w2 hw u hul he
    · intro b'
      refine (h.disk b').imp (fun u hul hu => hk _ _ u hu (fun he => ?_))
      have := (hb _ _ u hu he).2
      subst this
      exact hf2 u hul he
    · intro x hx
      have hxo := h.thr x (ht ▸ (by rcases mem_append.1 hx with h | h <;> simp [h]))
      have hxh : t.metaOff ∉ x.pc.hold := fun hc =>
          fm_other hh (by rw [hp]; simp [PC.hold]) (mem_flatMap.2 ⟨x, hx, hc⟩)
      exact rth_rec hxo hxh (fun r hr hn => hkeep r hr hn) (fun _ _ _ _ _ h => h)
  | bg hb => exact rInv_bg h hT hK hb

end Direct
end Blobd
