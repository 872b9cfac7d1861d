import Verif.Proofs.DirectDur
/-! Durability of the direct store (C28), part 2: the invariant is kept by every step. -/
set_option autoImplicit false
namespace Blobd
namespace Direct
open List

variable {c : SCfg}

theorem Imgs.and {P Q : Tuple → Prop} {s : TS} (h : Imgs P s) (h' : Imgs Q s) : Imgs (fun t => P t ∧ Q t) s :=
  ⟨fun b t ht => ⟨h.mem b t ht, h'.mem b t ht⟩, fun w hw t ht => ⟨h.fly w hw t ht, h'.fly w hw t ht⟩,
    fun b t ht => ⟨h.disk b t ht, h'.disk b t ht⟩⟩

/-- the pc of a commit call that made `o` visible -/
def PC.owns (pc : PC) (o : Obj) : Prop := (∃ old ex, pc = .commitPublished old o ex) ∨ ∃ ex tk, pc = .commitTuple o ex tk

/-- How a step changes what the invariant talks about: the threads `old` become `new`, tuples with ids in `ex` may
go, tuples satisfying `Nt` may appear, the visible map changes only at `ks`. -/
structure Go (c : SCfg) (s s' : DSt) (old new rest : List Thread) (ex : List Nat) (ks : List (List Byte)) (Nt : Tuple → Prop) : Prop where
  hp : s.threads.Perm (old ++ rest)
  hp' : s'.threads.Perm (new ++ rest)
  hts : TsOk c.n s.ts s'.ts ex
  hex : ∀ id ∈ ex, id ∈ old.flatMap (fun th => th.pc.hids)
  hcom : ∀ k, k ∉ ks → s'.committed k = s.committed k
  hks : ∀ k ∈ ks, ∀ x ∈ rest, x.pc.key ≠ some k
  hn : ∀ i, s.names i ≠ none → s'.names i = s.names i
  hb : s'.base = s.base
  hlin : s'.lin = s.lin ∨ ∃ e, s'.lin = s.lin ++ [e] ∧ (∀ x ∈ rest, e.1 ≠ x.call) ∧ ∀ k, e.2.touches k → k ∈ ks
  hkeys : new.flatMap (fun th => th.pc.key.toList) = old.flatMap (fun th => th.pc.key.toList) ∨
    new.flatMap (fun th => th.pc.key.toList) = [] ∨ ∃ k ∈ ks, new.flatMap (fun th => th.pc.key.toList) = [k]
  hnew : ∀ x ∈ new, ThOk c.n s' x
  hcomk : ∀ k ∈ ks, ∀ o, s'.committed k = some o → DurO c.n s'.ts o.id .committed ∨ OwnCommit s' o
  hown : ∀ x ∈ old, ∀ o, x.pc.owns o → OwnCommit s' o ∨ DurO c.n s'.ts o.id .committed
  hinc : ∀ id, s'.incomplete id ≠ none → s.incomplete id ≠ none ∨ DurO c.n s'.ts id .incomplete
  hinc' : ∀ id, s.incomplete id ≠ none → TokOk s' id
  hvis : ∀ o, s.committed o.m.key = some o → o.m.key ∈ ks → ∃ y ∈ new, o ∈ y.pc.victims
  hvic : ∀ x ∈ old, ∀ o ∈ x.pc.victims, (∃ y ∈ new, o ∈ y.pc.victims) ∨ Imgs (fun t => t.id ≠ o.id) s'.ts
  htok : ∀ x ∈ old, ∀ id, OwnTok s.lin x id → TokOk s' id ∨ Imgs (fun t => t.state = .incomplete → t.id ≠ id) s'.ts
  himg : ∀ P : Tuple → Prop, Imgs P s.ts → (∀ t, Nt t → P t) → Imgs P s'.ts
  hnt : ∀ t, Nt t → (t.state = .committed → ∃ o, o.id = t.id ∧ InUse s' o) ∧ (t.state = .incomplete → TokOk s' t.id)

theorem dids_vis {n : Nat} {s : DSt} {x : Thread} (h : ThOk n s x) {id : Nat} (hid : id ∈ x.pc.dids) :
    id ∈ x.pc.hids ∨ ∃ k o, s.committed k = some o ∧ o.id = id := by
  have hm := h.map
  generalize x.pc = pc at *
  cases pc with
  | createTuple o tk => left; simpa [PC.dids, PC.hids, PC.tids, PC.vobj] using hid
  | commitPublished old o ex => left; simp only [PC.dids, PC.hids, PC.tids, PC.vobj, mem_append] at hid ⊢; exact Or.inr hid
  | commitTuple o ex tk =>
    simp only [PC.dids, mem_cons] at hid
    rcases hid with rfl | hid
    · exact Or.inr ⟨_, _, hm.1, rfl⟩
    · left; simp only [PC.hids, PC.tids, PC.vobj, mem_append]; exact Or.inr hid
  | reap o why => cases why <;> simp_all [PC.dids, PC.hids, PC.tids, PC.vobj]
  | _ => simp [PC.dids] at hid

theorem dInv_go {s s' : DSt} {old new rest : List Thread} {ex : List Nat} {ks : List (List Byte)} {Nt : Tuple → Prop}
    (h : DInv c s) (hH : HInv s) (hL : LinInv s) (g : Go c s s' old new rest ex ks Nt) : DInv c s' := by
  have hmem : ∀ {x}, x ∈ s.threads ↔ x ∈ old ∨ x ∈ rest := fun {x} => by rw [g.hp.mem_iff, mem_append]
  have hmem' : ∀ {x}, x ∈ s'.threads ↔ x ∈ new ∨ x ∈ rest := fun {x} => by rw [g.hp'.mem_iff, mem_append]
  have hlin' : s'.lin = s.lin ∨ ∃ e, s'.lin = s.lin ++ [e] := by
    rcases g.hlin with e | ⟨e, e1, _⟩
    · exact Or.inl e
    · exact Or.inr ⟨e, e1⟩
  have hexh : ∀ id ∈ ex, id ∈ s.threads.flatMap (fun th => th.pc.hids) := by
    intro id hid
    obtain ⟨th, h1, h2⟩ := mem_flatMap.1 (g.hex id hid)
    exact mem_flatMap.2 ⟨th, hmem.2 (Or.inl h1), h2⟩
  have hvisx : ∀ k o, s.committed k = some o → o.id ∉ ex := fun k o ho hx => (hH.hfree _ (hexh _ hx)).2.1 k o ho rfl
  have hrest : ∀ x ∈ rest, ThOk c.n s' x := by
    intro x hx
    have hx' := hmem.2 (Or.inr hx)
    have hok := h.thr x hx'
    refine hok.frame g.hts g.hcom g.hn g.hb (hL.lt x hx').2 ?_ (fun k hk hk' => g.hks k hk' x hx hk) ?_
    · rcases g.hlin with e | ⟨e, e1, e2, e3⟩
      · exact Or.inl e
      · exact Or.inr ⟨e, e1, e2 x hx, e3⟩
    · intro id hid hie
      rcases dids_vis hok hid with h1 | ⟨k, o, h1, h2⟩
      · have hnd : ((old ++ rest).flatMap (fun th => th.pc.hids)).Nodup := (g.hp.flatMap_right _).nodup_iff.1 hH.hids
        rw [flatMap_append] at hnd
        exact (nodup_append.1 hnd).2.2 id (g.hex id hie) id (mem_flatMap.2 ⟨x, hx, h1⟩) rfl
      · subst h2; exact hvisx k o h1 hie
  have hown' : ∀ o, OwnCommit s o → DurO c.n s'.ts o.id .committed ∨ OwnCommit s' o := by
    rintro o ⟨x, hx, ho⟩
    rcases hmem.1 hx with h1 | h1
    · exact (g.hown x h1 o ho).symm
    · exact Or.inr ⟨x, hmem'.2 (Or.inr h1), ho⟩
  have huse : ∀ o, InUse s o → InUse s' o ∨ Imgs (fun t => t.id ≠ o.id) s'.ts := by
    rintro o (ho | ⟨x, hx, ho⟩)
    · by_cases hk : o.m.key ∈ ks
      · obtain ⟨y, hy, hv⟩ := g.hvis o ho hk
        exact Or.inl (Or.inr ⟨y, hmem'.2 (Or.inl hy), hv⟩)
      · exact Or.inl (Or.inl (by rw [g.hcom _ hk]; exact ho))
    · rcases hmem.1 hx with h1 | h1
      · rcases g.hvic x h1 o ho with ⟨y, hy, hv⟩ | h2
        · exact Or.inl (Or.inr ⟨y, hmem'.2 (Or.inl hy), hv⟩)
        · exact Or.inr h2
      · exact Or.inl (Or.inr ⟨x, hmem'.2 (Or.inr h1), ho⟩)
  have htok' : ∀ id, TokOk s id → TokOk s' id ∨ Imgs (fun t => t.state = .incomplete → t.id ≠ id) s'.ts := by
    rintro id (hi | ⟨x, hx, ho⟩)
    · exact Or.inl (g.hinc' id hi)
    · rcases hmem.1 hx with h1 | h1
      · exact g.htok x h1 id ho
      · exact Or.inl (Or.inr ⟨x, hmem'.2 (Or.inr h1), ho.mono hlin'⟩)
  refine ⟨?_, ?_, ?_, ?_, ?_, ?_⟩
  · have h0 : ((old ++ rest).flatMap (fun th => th.pc.key.toList)).Nodup := (g.hp.flatMap_right _).nodup_iff.1 h.keys
    rw [(g.hp'.flatMap_right _).nodup_iff]
    rw [flatMap_append] at h0 ⊢
    rcases g.hkeys with e | e | ⟨k, hk, e⟩
    · rw [e]; exact h0
    · rw [e]; exact (nodup_append.1 h0).2.1
    · rw [e, singleton_append, nodup_cons]
      refine ⟨?_, (nodup_append.1 h0).2.1⟩
      intro hm
      obtain ⟨x, hx, hx'⟩ := mem_flatMap.1 hm
      exact g.hks k hk x hx (by simpa using hx')
  · intro x hx
    rcases hmem'.1 hx with h1 | h1
    · exact g.hnew x h1
    · exact hrest x h1
  · intro k o ho
    by_cases hk : k ∈ ks
    · exact g.hcomk k hk o ho
    · rw [g.hcom k hk] at ho
      rcases h.com k o ho with h1 | h1
      · exact Or.inl ((g.hts _ (hvisx k o ho) _).1 h1)
      · exact hown' o h1
  · intro id hid
    rcases g.hinc id hid with h1 | h1
    · refine (g.hts id (fun hx => h1 (hH.hfree _ (hexh _ hx)).1) _).1 (h.tok id h1)
    · exact h1
  · have h1 := g.himg (fun t => Nt t ∨ (t.state = .committed → ∃ o, o.id = t.id ∧ InUse s o))
      (h.ec.mono (fun t ht => Or.inr ht)) (fun t ht => Or.inl ht)
    have key : ∀ (t : Tuple), (Nt t ∨ (t.state = .committed → ∃ o, o.id = t.id ∧ InUse s o)) →
        (∀ o : Obj, Imgs (fun t => t.id ≠ o.id) s'.ts → t.id ≠ o.id) → t.state = .committed → ∃ o, o.id = t.id ∧ InUse s' o := by
      rintro t (h1 | h1) h2 hst
      · exact (g.hnt t h1).1 hst
      · obtain ⟨o, e, hu⟩ := h1 hst
        rcases huse o hu with h3 | h3
        · exact ⟨o, e, h3⟩
        · exact absurd e.symm (h2 o h3)
    exact ⟨fun b t ht => key t (h1.mem b t ht) (fun o ho => ho.mem b t ht),
      fun w hw t ht => key t (h1.fly w hw t ht) (fun o ho => ho.fly w hw t ht),
      fun b t ht => key t (h1.disk b t ht) (fun o ho => ho.disk b t ht)⟩
  · have h1 := g.himg (fun t => Nt t ∨ (t.state = .incomplete → TokOk s t.id))
      (h.ei.mono (fun t ht => Or.inr ht)) (fun t ht => Or.inl ht)
    have key : ∀ (t : Tuple), (Nt t ∨ (t.state = .incomplete → TokOk s t.id)) →
        (Imgs (fun t' => t'.state = .incomplete → t'.id ≠ t.id) s'.ts → t.state = .incomplete → t.id ≠ t.id) → t.state = .incomplete → TokOk s' t.id := by
      rintro t (h1 | h1) h2 hst
      · exact (g.hnt t h1).2 hst
      · rcases htok' _ (h1 hst) with h3 | h3
        · exact h3
        · exact absurd rfl (h2 h3 hst)
    exact ⟨fun b t ht => key t (h1.mem b t ht) (fun ho => ho.mem b t ht),
      fun w hw t ht => key t (h1.fly w hw t ht) (fun ho => ho.fly w hw t ht),
      fun b t ht => key t (h1.disk b t ht) (fun ho => ho.disk b t ht)⟩

theorem perm_mid {pre post : List Thread} {th : Thread} : (pre ++ th :: post).Perm ([th] ++ (pre ++ post)) := by
  simpa using perm_middle

/-- threads and maps unchanged, possibly one more event (of a call that ends at once) -/
theorem DInv.quiet {s s' : DSt} (h : DInv c s) (hH : HInv s) (hL : LinInv s) (ht : s'.threads = s.threads) (hts : s'.ts = s.ts)
    (hc : s'.committed = s.committed) (hi : s'.incomplete = s.incomplete) (hn : s'.names = s.names) (hb : s'.base = s.base)
    (hl : s'.lin = s.lin ∨ ∃ ev, s'.lin = s.lin ++ [(s.nextCall, ev)] ∧ ∀ k, ¬ ev.touches k) : DInv c s' := by
  refine dInv_go h hH hL (old := []) (new := []) (rest := s.threads) (ex := []) (ks := []) (Nt := fun _ => False) ?_
  refine ⟨Perm.refl _, by rw [ht]; exact Perm.refl _, by rw [hts]; exact TsOk.refl _, by simp, fun k _ => by rw [hc], by simp,
    fun i _ => by rw [hn], hb, ?_, Or.inl rfl, by simp, by simp, by simp, fun id hid => Or.inl (by rwa [hi] at hid),
    fun id hid => Or.inl (by rwa [hi]), by simp, by simp, by simp, fun P hP _ => by rw [hts]; exact hP, by simp⟩
  rcases hl with e | ⟨ev, e, h1⟩
  · exact Or.inl e
  · refine Or.inr ⟨_, e, fun x hx => ?_, fun k hk => absurd hk (h1 k)⟩
    have := (hL.lt x hx).1
    simp only; omega

/-- one call moves on (or ends), nothing else changes -/
theorem DInv.move {s s' : DSt} (h : DInv c s) (hH : HInv s) (hL : LinInv s) {pre post new : List Thread} {th : Thread}
    (ht : s.threads = pre ++ th :: post) (ht' : s'.threads = pre ++ new ++ post) (hts : s'.ts = s.ts)
    (hc : s'.committed = s.committed) (hi : s'.incomplete = s.incomplete)
    (hn : ∀ i, s.names i ≠ none → s'.names i = s.names i) (hb : s'.base = s.base)
    (hl : s'.lin = s.lin)
    (hk : new.flatMap (fun th => th.pc.key.toList) = th.pc.key.toList ∨ new.flatMap (fun th => th.pc.key.toList) = [])
    (hnew : ∀ x ∈ new, ThOk c.n s' x) (hown : ∀ o, th.pc.owns o → OwnCommit s' o ∨ DurO c.n s.ts o.id .committed)
    (hvic : ∀ o ∈ th.pc.victims, (∃ y ∈ new, o ∈ y.pc.victims) ∨ Imgs (fun t => t.id ≠ o.id) s.ts)
    (htok : ∀ id, OwnTok s.lin th id → (∃ y ∈ new, OwnTok s.lin y id) ∨ Imgs (fun t => t.state = .incomplete → t.id ≠ id) s.ts) :
    DInv c s' := by
  refine dInv_go h hH hL (old := [th]) (new := new) (rest := pre ++ post) (ex := []) (ks := []) (Nt := fun _ => False) ?_
  have hp' : s'.threads.Perm (new ++ (pre ++ post)) := by
    rw [ht', ← append_assoc]; exact Perm.append_right _ perm_append_comm
  refine ⟨by rw [ht]; exact perm_mid, hp', by rw [hts]; exact TsOk.refl _, by simp, fun k _ => by rw [hc],
    by simp, hn, hb, Or.inl hl, ?_, hnew, by simp, ?_, fun id hid => Or.inl (by rwa [hi] at hid),
    fun id hid => Or.inl (by rwa [hi]), by simp, ?_, ?_, fun P hP _ => by rw [hts]; exact hP, by simp⟩
  · rcases hk with e | e
    · left; simpa using e
    · right; left; exact e
  · intro x hx; simp only [mem_singleton] at hx; subst hx; rw [hts]; exact hown
  · intro x hx; simp only [mem_singleton] at hx; subst hx; rw [hts]; exact hvic
  · intro x hx id hid; simp only [mem_singleton] at hx; subst hx; rw [hts]
    refine (htok id hid).imp_left ?_
    rintro ⟨y, hy, ho⟩
    exact Or.inr ⟨y, hp'.mem_iff.2 (mem_append_left _ hy), by rw [hl]; exact ho⟩

/-- calls without obligations in any of the tables -/
def PC.plain : PC → Prop
  | .createData _ => True
  | .createMeta _ _ _ => True
  | .createInsert _ _ => True
  | .dead => True
  | _ => False

theorem plain_ok {n : Nat} {s : DSt} {x : Thread} (h : x.pc.plain) : ThOk n s x := by
  apply ThOk.triv <;> (generalize x.pc = pc at h; cases pc <;> simp_all [PC.plain, MTh, DTh, PC.key])

theorem plain_own {pc : PC} (h : pc.plain) (o : Obj) : ¬ pc.owns o := by
  cases pc <;> simp_all [PC.plain, PC.owns]

theorem plain_vic {pc : PC} (h : pc.plain) : pc.victims = [] := by
  cases pc <;> simp_all [PC.plain, PC.victims]

theorem plain_key {pc : PC} (h : pc.plain) : pc.key = none := by
  cases pc <;> simp_all [PC.plain, PC.key]

theorem plain_tok {lin : List (Nat × Ev)} {x : Thread} (h : x.pc.plain) (id : Nat) : ¬ OwnTok lin x id := by
  unfold OwnTok
  generalize x.pc = pc at h ⊢
  cases pc <;> simp_all [PC.plain, PC.cstage]

theorem DInv.plain {s s' : DSt} (h : DInv c s) (hH : HInv s) (hL : LinInv s) {pre post : List Thread} {th : Thread} {pc : PC}
    (ht : s.threads = pre ++ th :: post) (ht' : s'.threads = pre ++ withPc th pc :: post) (hts : s'.ts = s.ts)
    (hc : s'.committed = s.committed) (hi : s'.incomplete = s.incomplete)
    (hn : ∀ i, s.names i ≠ none → s'.names i = s.names i) (hb : s'.base = s.base)
    (hl : s'.lin = s.lin) (h1 : th.pc.plain) (h2 : pc.plain) : DInv c s' :=
  h.move hH hL (new := [withPc th pc]) ht (by simpa using ht') hts hc hi hn hb hl
    (Or.inr (by simp [withPc, plain_key h2]))
    (fun x hx => by simp only [mem_singleton] at hx; subst hx; exact plain_ok h2) (fun o ho => absurd ho (plain_own h1 o))
    (fun o ho => by rw [plain_vic h1] at ho; simp at ho) (fun id hid => absurd hid (plain_tok h1 id))

theorem not_busy {s : DSt} {k : List Byte} (h : Fault.overlap ∉ (if busy s k then [Fault.overlap] else []) ++ s.faults) :
    ∀ x ∈ s.threads, x.pc.key ≠ some k := by
  intro x hx he
  apply h
  rw [if_pos]
  · simp
  · simp only [busy, any_eq_true]
    exact ⟨x, hx, by simpa using he⟩

theorem names_upd {names : Nat → Option (Nat × Meta)} {id : Nat} {v : Option (Nat × Meta)} (h : names id = none) :
    ∀ i, names i ≠ none → upd names id v i = names i := by
  intro i hi
  simp only [upd]
  split
  · rename_i e; subst e; exact absurd h hi
  · rfl

end Direct
end Blobd
