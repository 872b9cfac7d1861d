import Verif.Proofs.DirectStable
import Verif.Props.DirectStore
/-! Durability of the direct store (C28), part 1: what is durably in the tuple area, and the invariants of a
call as long as other steps do not concern it. -/
set_option autoImplicit false
namespace Blobd
namespace Direct
open List

variable {c : SCfg}

def Has (id : Nat) (st : ObjState) (l : List Tuple) : Prop := ∃ t ∈ l, t.id = id ∧ t.state = st

/-- some bundle has the tuple in memory, in every image being written, and on the device -/
def DurO (n : Nat) (ts : TS) (id : Nat) (st : ObjState) : Prop :=
  ∃ b, b < n ∧ Has id st (ts.bundles b) ∧ (∀ l, (b, l) ∈ ts.inflight → Has id st l) ∧ Has id st (ts.disk b)

/-- … and once the ticket has fired -/
def SetO (n : Nat) (ts : TS) (id : Nat) (st : ObjState) (tk : Nat) : Prop := ∃ b, b < n ∧ Settled ts b (Has id st) tk

theorem SetO.fired {n : Nat} {ts : TS} {id : Nat} {st : ObjState} {tk : Nat} (h : SetO n ts id st tk) (hf : tk ∈ ts.fired) :
    DurO n ts id st := by
  obtain ⟨b, hb, h⟩ := h
  exact ⟨b, hb, h.mem, (h.fired hf).1, (h.fired hf).2⟩

/-- a change of the index that keeps every tuple except those with an id in `ex` -/
def TsOk (n : Nat) (ts ts' : TS) (ex : List Nat) : Prop :=
  ∀ id, id ∉ ex → ∀ st, (DurO n ts id st → DurO n ts' id st) ∧ ∀ tk, SetO n ts id st tk → SetO n ts' id st tk

theorem TsOk.refl {n : Nat} (ts : TS) : TsOk n ts ts [] := fun _ _ _ => ⟨fun h => h, fun _ h => h⟩

theorem tsOk_memOp {n : Nat} {ts ts' : TS} {b : Nat} {ex : List Nat} (hm : MemOp ts ts' b)
    (h : ∀ id, id ∉ ex → ∀ st b, Has id st (ts.bundles b) → Has id st (ts'.bundles b)) : TsOk n ts ts' ex := by
  intro id hid st
  refine ⟨?_, ?_⟩
  · rintro ⟨b', hb, h1, h2, h3⟩
    exact ⟨b', hb, h id hid st b' h1, by rw [hm.sig.2]; exact h2, by rw [hm.disk]; exact h3⟩
  · rintro tk ⟨b', hb, h1⟩
    exact ⟨b', hb, settled_memOp h1 hm (h id hid st b' h1.mem)⟩

theorem tsOk_insert {max n : Nat} {ts ts' : TS} {o : Tuple} (hs : ts.insertObject max n o = some ts') : TsOk n ts ts' [] := by
  obtain ⟨b, hm, _, he⟩ := insert_memOp hs
  refine tsOk_memOp hm ?_
  rintro id _ st b' ⟨t, ht, h1, h2⟩
  refine ⟨t, ?_, h1, h2⟩
  by_cases hb : b' = b
  · subst hb; rw [he]; exact mem_append_left _ ht
  · rw [hm.others b' hb]; exact ht

theorem tsOk_update {max n : Nat} {ts ts' : TS} {cur new : Nat} {st' : ObjState}
    (hs : ts.updateObject max cur new st' = some ts') : TsOk n ts ts' [cur] := by
  obtain ⟨b, hm, _⟩ := update_memOp hs
  refine tsOk_memOp hm ?_
  obtain ⟨b', u, h1, h2, h3, _, _, rfl⟩ := update_eq hs
  rintro id hid st b ⟨t, ht, hA, hB⟩
  refine ⟨t, ?_, hA, hB⟩
  have hne : t.id ≠ cur := by rw [hA]; simpa using hid
  simp only [upd]; split
  · rename_i e; subst e
    simp only [mem_append, mem_filter]
    exact Or.inl ⟨ht, by simpa using hne⟩
  · exact ht

theorem tsOk_delete {n : Nat} {ts ts' : TS} {id : Nat} {t : Tuple} (hs : ts.deleteObject id = some (ts', t)) :
    TsOk n ts ts' [id] := by
  obtain ⟨b, hm, _⟩ := delete_memOp hs
  refine tsOk_memOp hm ?_
  obtain ⟨b', h1, h2, h3, rfl⟩ := delete_eq hs
  rintro id' hid st b ⟨t, ht, hA, hB⟩
  refine ⟨t, ?_, hA, hB⟩
  have hne : t.id ≠ id := by rw [hA]; simpa using hid
  simp only [upd]; split
  · rename_i e; subst e
    exact mem_filter.2 ⟨ht, by simpa using hne⟩
  · exact ht

theorem tsOk_bg {max n : Nat} {ts ts' : TS} (hi : TInv max n ts) (hk : Tickets ts) (hs : TS.BgStep n ts ts') : TsOk n ts ts' [] := by
  intro id _ st
  refine ⟨?_, fun tk ⟨b, hb, h⟩ => ⟨b, hb, settled_bg hi hk hb h hs⟩⟩
  rintro ⟨b, hb, h1, h2, h3⟩
  refine ⟨b, hb, by rw [(bg_bundles hs).1]; exact h1, ?_⟩
  cases hs with
  | snapshot hb' =>
    refine ⟨?_, h3⟩
    rw [(snapshot_sig hi).2]
    intro l hl
    obtain ⟨b', _, he⟩ := mem_map.1 hl
    injection he with e1 e2
    subst e1; subst e2
    exact h1
  | write i hw =>
    obtain ⟨ws, sg, b', l', hb', hi', rfl⟩ := writePage_eq hw
    have e : ts.inflight = ws := by simp [TS.inflight, hb']
    rw [e] at h2
    refine ⟨fun l hl => h2 l (mem_of_mem_eraseIdx hl), ?_⟩
    simp only [upd]
    split
    · rename_i e; subst e; exact h2 _ (mem_of_getElem? hi')
    · exact h3
  | signal hw =>
    obtain ⟨sg, hb', rfl⟩ := signal_eq hw
    exact ⟨by simp [TS.inflight], h3⟩

/-- the tuple just put into the index is on its way to the device -/
theorem setO_insert {max n : Nat} {ts ts' : TS} {o : Tuple} (hT : TInv max n ts) (hk : Tickets ts)
    (hs : ts.insertObject max n o = some ts') : SetO n ts' o.id o.state ts.next := by
  obtain ⟨b, hm, hc, he⟩ := insert_memOp hs
  have hT' := insert_inv hT hs
  have hmem : o ∈ ts'.bundles b := by rw [he]; simp
  have hb : b < n := by
    by_contra hge
    rw [(hT'.out b (by omega)).1] at hmem; simp at hmem
  exact ⟨b, hb, settled_start hk hm ⟨o, hmem, rfl, rfl⟩⟩

theorem setO_update {max n : Nat} {ts ts' : TS} {cur new : Nat} {st : ObjState} (hT : TInv max n ts) (hk : Tickets ts)
    (hs : ts.updateObject max cur new st = some ts') : SetO n ts' new st ts.next := by
  obtain ⟨b, hm, hb⟩ := update_memOp hs
  refine ⟨b, ((hT.idx cur b).1 hb).1, settled_start hk hm ?_⟩
  obtain ⟨b', u, h1, h2, h3, _, _, rfl⟩ := update_eq hs
  rw [hb] at h1
  cases h1
  exact ⟨_, by simp only [upd_same, mem_append, mem_singleton]; exact Or.inr rfl, rfl, rfl⟩

/-! ## What each call knows -/

/-- the visible object under the key of an unfinished commit or delete -/
def MTh (com : List Byte → Option Obj) : PC → Prop
  | .commitPublished _ o ex => com o.m.key = some o ∧ ∀ e ∈ ex, e.m.key = o.m.key
  | .commitTuple o ex _ => com o.m.key = some o ∧ ∀ e ∈ ex, e.m.key = o.m.key
  | .reap e (.replaced o) => com e.m.key = some o
  | .reap e .deleted => com e.m.key = none
  | .reapTuple e _ _ (.replaced o) => com e.m.key = some o
  | .reapTuple e _ _ .deleted => com e.m.key = none
  | _ => True

theorem MTh.frame {com com' : List Byte → Option Obj} {pc : PC} (h : MTh com pc)
    (hk : ∀ k, pc.key = some k → com' k = com k) : MTh com' pc := by
  cases pc with
  | commitPublished old o ex => exact ⟨by rw [hk _ rfl]; exact h.1, h.2⟩
  | commitTuple o ex tk => exact ⟨by rw [hk _ rfl]; exact h.1, h.2⟩
  | reap o why => cases why <;> first | trivial | (simp only [MTh] at h ⊢; rw [hk _ rfl]; exact h)
  | reapTuple o t tk why => cases why <;> first | trivial | (simp only [MTh] at h ⊢; rw [hk _ rfl]; exact h)
  | _ => trivial

/-- tuples a call relies on -/
def DTh (n : Nat) (ts : TS) : PC → Prop
  | .createTuple o tk => SetO n ts o.id .incomplete tk
  | .commitPublished _ _ ex => ∀ e ∈ ex, DurO n ts e.id .committed
  | .commitTuple o ex tk => (∀ e ∈ ex, DurO n ts e.id .committed) ∧ SetO n ts o.id .committed tk
  | .reap _ .kept => True
  | .reap e _ => DurO n ts e.id .committed
  | _ => True

/-- the ids of these tuples -/
def PC.dids : PC → List Nat
  | .createTuple o _ => [o.id]
  | .commitPublished _ _ ex => ex.toList.map (·.id)
  | .commitTuple o ex _ => o.id :: ex.toList.map (·.id)
  | .reap _ .kept => []
  | .reap e _ => [e.id]
  | _ => []

theorem DTh.frame {n : Nat} {ts ts' : TS} {ex : List Nat} {pc : PC} (h : DTh n ts pc) (hts : TsOk n ts ts' ex)
    (hd : ∀ id ∈ pc.dids, id ∉ ex) : DTh n ts' pc := by
  cases pc with
  | createTuple o tk => exact (hts _ (hd _ (by simp [PC.dids])) _).2 _ h
  | commitPublished old o e =>
    intro x hx
    exact (hts _ (hd _ (by simp [PC.dids]; exact ⟨x, hx, rfl⟩)) _).1 (h x hx)
  | commitTuple o e tk =>
    refine ⟨fun x hx => (hts _ (hd _ (by simp [PC.dids]; exact Or.inr ⟨x, hx, rfl⟩)) _).1 (h.1 x hx), ?_⟩
    exact (hts _ (hd _ (by simp [PC.dids])) _).2 _ h.2
  | reap o why => cases why <;> first | trivial | exact (hts _ (hd _ (by simp [PC.dids])) _).1 h
  | _ => trivial

/-- what was visible under the key of an unfinished commit or delete before it -/
def PC.prior : PC → Option Obj
  | .commitPublished _ _ ex => ex
  | .commitTuple _ ex _ => ex
  | .reap o _ => some o
  | .reapTuple o _ _ _ => some o
  | _ => none

/-- the last event on key `k` is one of call `call`, and before it `p` was visible -/
def Prior (base : List Byte → Option Obj) (lin : List (Nat × Ev)) (call : Nat) (k : List Byte) (p : Option Obj) : Prop :=
  ∃ pre ev post, lin = pre ++ (call, ev) :: post ∧ ev.touches k ∧ (∀ e ∈ post, ¬ e.2.touches k) ∧
    visMap base (pre.map (·.2)) k = p

theorem Prior.snoc {base : List Byte → Option Obj} {lin : List (Nat × Ev)} {call : Nat} {k : List Byte} {p : Option Obj}
    (h : Prior base lin call k p) {e : Nat × Ev} (he : ¬ e.2.touches k) : Prior base (lin ++ [e]) call k p := by
  obtain ⟨pre, ev, post, h1, h2, h3, h4⟩ := h
  refine ⟨pre, ev, post ++ [e], by rw [h1]; simp, h2, ?_, h4⟩
  intro x hx
  rcases mem_append.1 hx with hx | hx
  · exact h3 x hx
  · simp only [mem_singleton] at hx; subst hx; exact he

structure ThOk (n : Nat) (s : DSt) (th : Thread) : Prop where
  map : MTh s.committed th.pc
  dur : DTh n s.ts th.pc
  old : ∀ o ex tk, th.pc = .commitTuple o ex tk → ∀ i m, .claimed i m ∈ ownEvs s.lin th.start th.call →
    s.names i = s.names o.id ∧ s.names i ≠ none
  pri : ∀ k, th.pc.key = some k → Prior s.base.1 s.lin th.call k th.pc.prior

/-- steps that do not concern a call -/
theorem ThOk.frame {n : Nat} {s s' : DSt} {x : Thread} {ex : List Nat} {ks : List (List Byte)} (h : ThOk n s x) (hts : TsOk n s.ts s'.ts ex)
    (hcom : ∀ k, k ∉ ks → s'.committed k = s.committed k)
    (hn : ∀ i, s.names i ≠ none → s'.names i = s.names i) (hb : s'.base = s.base)
    (hst : x.start ≤ s.lin.length)
    (hlin : s'.lin = s.lin ∨ ∃ e, s'.lin = s.lin ++ [e] ∧ e.1 ≠ x.call ∧ ∀ k, e.2.touches k → k ∈ ks)
    (hk : ∀ k, x.pc.key = some k → k ∉ ks) (hd : ∀ id ∈ x.pc.dids, id ∉ ex) : ThOk n s' x := by
  refine ⟨h.map.frame (fun k e => hcom k (hk k e)), h.dur.frame hts hd, ?_, ?_⟩
  · intro o e tk hp i m hi
    have hi' : .claimed i m ∈ ownEvs s.lin x.start x.call := by
      rcases hlin with e | ⟨e, e1, e2, _⟩
      · rwa [e] at hi
      · rw [e1, ownEvs_append hst, if_neg e2, append_nil] at hi; exact hi
    obtain ⟨h1, h2⟩ := h.old o e tk hp i m hi'
    rw [hn i h2, hn o.id (by rw [← h1]; exact h2)]
    exact ⟨h1, h2⟩
  · intro k hkey
    rw [hb]
    rcases hlin with e | ⟨e, e1, e2, e3⟩
    · rw [e]; exact h.pri k hkey
    · rw [e1]; exact (h.pri k hkey).snoc (fun ht => hk k hkey (e3 k ht))

/-- calls without obligations -/
theorem ThOk.triv {n : Nat} {s : DSt} {x : Thread} (hm : MTh s.committed x.pc) (hd : DTh n s.ts x.pc) (hk : x.pc.key = none)
    (ht : ∀ o ex tk, x.pc ≠ .commitTuple o ex tk) : ThOk n s x :=
  ⟨hm, hd, fun o ex tk hp => absurd hp (ht o ex tk), fun k hk' => by rw [hk] at hk'; cases hk'⟩

/-! ## Who owns tuples -/

/-- a commit call that has taken its token and not yet made the new tuple durable or dropped it -/
def PC.cstage : PC → Prop
  | .commitClaimed _ _ => True
  | .commitSealed _ _ => True
  | .commitPublished _ _ _ => True
  | .commitTuple _ _ _ => True
  | .reap _ .kept => True
  | .reapTuple _ _ _ .kept => True
  | _ => False

/-- the unanswered call `th` created the token `id` or took it -/
def OwnTok (lin : List (Nat × Ev)) (th : Thread) (id : Nat) : Prop :=
  (∃ o tk, th.pc = .createTuple o tk ∧ o.id = id) ∨
  (th.pc.cstage ∧ ∃ m, .claimed id m ∈ ownEvs lin th.start th.call)

/-- the commit call that made `o` visible is not finished with its tuple -/
def OwnCommit (s : DSt) (o : Obj) : Prop :=
  ∃ th ∈ s.threads, (∃ old ex, th.pc = .commitPublished old o ex) ∨ ∃ ex tk, th.pc = .commitTuple o ex tk

def TokOk (s : DSt) (id : Nat) : Prop := s.incomplete id ≠ none ∨ ∃ th ∈ s.threads, OwnTok s.lin th id

structure DInv (c : SCfg) (s : DSt) : Prop where
  keys : (s.threads.flatMap (fun th => th.pc.key.toList)).Nodup
  thr : ∀ th ∈ s.threads, ThOk c.n s th
  com : ∀ k o, s.committed k = some o → DurO c.n s.ts o.id .committed ∨ OwnCommit s o
  tok : ∀ id, s.incomplete id ≠ none → DurO c.n s.ts id .incomplete
  ec : Imgs (fun t => t.state = .committed → ∃ o, o.id = t.id ∧ InUse s o) s.ts
  ei : Imgs (fun t => t.state = .incomplete → TokOk s t.id) s.ts

theorem ownEvs_mono {lin : List (Nat × Ev)} {start call : Nat} (e : Nat × Ev) {x : Ev} (h : x ∈ ownEvs lin start call) :
    x ∈ ownEvs (lin ++ [e]) start call := by
  unfold ownEvs at h ⊢
  rw [drop_append, filter_append, map_append]
  exact mem_append_left _ h

theorem OwnTok.mono {lin lin' : List (Nat × Ev)} {th : Thread} {id : Nat} (h : OwnTok lin th id)
    (hl : lin' = lin ∨ ∃ e, lin' = lin ++ [e]) : OwnTok lin' th id := by
  rcases hl with rfl | ⟨e, rfl⟩
  · exact h
  · rcases h with h | ⟨h1, m, h2⟩
    · exact Or.inl h
    · exact Or.inr ⟨h1, m, ownEvs_mono e h2⟩

end Direct
end Blobd
