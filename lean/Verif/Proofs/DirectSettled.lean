import Verif.Proofs.DirectTuples
/-! What a fired ticket guarantees about the device: any fact about one bundle's contents that has held
in memory ever since the operation holds for the page on the device, and for every page image still to
be written. -/
namespace Blobd
namespace Direct
open List TS

variable {max n : Nat}

/-- tickets in the current batch -/
def TS.sig (s : TS) : List Nat := match s.batch with | some (_, sig) => sig | none => []
/-- page images of the current batch still to be written -/
def TS.inflight (s : TS) : List (Nat × List Tuple) := match s.batch with | some (ws, _) => ws | none => []

/-- every ticket below `next` is in exactly one stage, and none above -/
structure Tickets (s : TS) : Prop where
  lt : ∀ t, (t ∈ s.waiting ∨ t ∈ s.sig ∨ t ∈ s.fired) → t < s.next
  some : ∀ t, t < s.next → t ∈ s.waiting ∨ t ∈ s.sig ∨ t ∈ s.fired
  ws : ∀ t, t ∈ s.waiting → t ∉ s.sig ∧ t ∉ s.fired
  sf : ∀ t, t ∈ s.sig → t ∉ s.fired

/-- `P` holds of bundle `b`'s current contents and is at stage "ticket `t`" on its way to the device -/
structure Settled (s : TS) (b : Nat) (P : List Tuple → Prop) (t : Nat) : Prop where
  mem : P (s.bundles b)
  lt : t < s.next
  waiting : t ∈ s.waiting → s.dirty b = true
  sig : t ∈ s.sig → (∀ ts, (b, ts) ∈ s.inflight → P ts) ∧ ((∀ ts, (b, ts) ∉ s.inflight) → P (s.disk b))
  fired : t ∈ s.fired → (∀ ts, (b, ts) ∈ s.inflight → P ts) ∧ P (s.disk b)

/-- an operation: only the in-memory part changes, a new ticket is queued -/
structure MemOp (s s' : TS) (b : Nat) : Prop where
  batch : s'.batch = s.batch
  disk : s'.disk = s.disk
  fired : s'.fired = s.fired
  waiting : s'.waiting = s.waiting ++ [s.next]
  next : s'.next = s.next + 1
  dirty : s'.dirty = upd s.dirty b true
  others : ∀ c, c ≠ b → s'.bundles c = s.bundles c

theorem MemOp.sig {s s' : TS} {b : Nat} (h : MemOp s s' b) : s'.sig = s.sig ∧ s'.inflight = s.inflight := by
  simp [TS.sig, TS.inflight, h.batch]

theorem insert_memOp {s s' : TS} {o : Tuple} (hs : s.insertObject max n o = some s') : ∃ b, MemOp s s' b ∧
    (bmMin n s.freeDirty).or (bmMin n s.free) = some b ∧ s'.bundles b = s.bundles b ++ [o] := by
  obtain ⟨b, hm, _, _, _, rfl⟩ := insert_eq hs
  exact ⟨b, ⟨rfl, rfl, rfl, rfl, rfl, rfl, fun c hc => upd_ne hc⟩, hm, upd_same _ _ _⟩

theorem tickets_memOp {s s' : TS} {b : Nat} (h : Tickets s) (hm : MemOp s s' b) : Tickets s' := by
  obtain ⟨h1, h2, h3, h4⟩ := h
  have hs := hm.sig.1
  refine ⟨?_, ?_, ?_, ?_⟩
  · intro t
    rw [hm.waiting, hs, hm.fired, hm.next]
    rintro (h | h | h)
    · rcases mem_append.1 h with h | h
      · have := h1 t (Or.inl h); omega
      · simp only [mem_singleton] at h; omega
    · have := h1 t (Or.inr (Or.inl h)); omega
    · have := h1 t (Or.inr (Or.inr h)); omega
  · intro t
    rw [hm.waiting, hs, hm.fired, hm.next]
    intro ht
    by_cases he : t = s.next
    · subst he; exact Or.inl (by simp)
    · rcases h2 t (by omega) with h | h | h
      · exact Or.inl (by simp [h])
      · exact Or.inr (Or.inl h)
      · exact Or.inr (Or.inr h)
  · intro t
    rw [hm.waiting, hs, hm.fired]
    intro ht
    rcases mem_append.1 ht with h | h
    · exact h3 t h
    · simp only [mem_singleton] at h
      subst h
      exact ⟨fun hc => absurd (h1 _ (Or.inr (Or.inl hc))) (by omega), fun hc => absurd (h1 _ (Or.inr (Or.inr hc))) (by omega)⟩
  · intro t
    rw [hs, hm.fired]
    exact h4 t

theorem snapshot_sig {s : TS} (hi : TInv max n s) : (s.snapshot n).sig = s.waiting ∧
    (s.snapshot n).inflight = ((range n).filter s.dirty).map (fun b => (b, s.bundles b)) := by
  simp only [TS.sig, TS.inflight, snapshot]
  by_cases he : (((range n).filter s.dirty).map (fun b => (b, s.bundles b))).isEmpty = true
  · simp only [he, if_true]
    rw [List.isEmpty_iff] at he
    rw [he]
    refine ⟨?_, rfl⟩
    cases hw : s.waiting with
    | nil => rfl
    | cons a l =>
      obtain ⟨b, hb⟩ := hi.wait (by rw [hw]; simp)
      rw [map_eq_nil_iff] at he
      have : b ∈ (range n).filter s.dirty := mem_filter.2 ⟨by simpa using hi.dirtyLt b hb, hb⟩
      rw [he] at this
      simp at this
  · simp only [he, Bool.false_eq_true, if_false]
    trivial

theorem tickets_bg {s s' : TS} (hi : TInv max n s) (h : Tickets s) (hs : BgStep n s s') : Tickets s' := by
  obtain ⟨h1, h2, h3, h4⟩ := h
  cases hs with
  | snapshot hb =>
    have hsig := (snapshot_sig hi).1
    have hs0 : s.sig = [] := by simp [TS.sig, hb]
    refine ⟨?_, ?_, ?_, ?_⟩
    · intro t
      rw [hsig]
      simp only [snapshot]
      rintro (h | h | h)
      · simp at h
      · exact h1 t (Or.inl h)
      · exact h1 t (Or.inr (Or.inr h))
    · intro t ht
      rw [hsig]
      simp only [snapshot] at ht ⊢
      rcases h2 t ht with h | h | h
      · exact Or.inr (Or.inl h)
      · rw [hs0] at h; simp at h
      · exact Or.inr (Or.inr h)
    · intro t ht; simp [snapshot] at ht
    · intro t
      rw [hsig]
      intro ht
      exact (h3 t ht).2
  | write i hw =>
    obtain ⟨ws, sg, b, ts, hb, _, rfl⟩ := writePage_eq hw
    have e : s.sig = sg := by simp [TS.sig, hb]
    rw [e] at h1 h2 h3 h4
    exact ⟨h1, h2, h3, h4⟩
  | signal hw =>
    obtain ⟨sg, hb, rfl⟩ := signal_eq hw
    have e : s.sig = sg := by simp [TS.sig, hb]
    rw [e] at h1 h2 h3 h4
    refine ⟨?_, ?_, ?_, ?_⟩
    · intro t
      simp only [TS.sig]
      rintro (h | h | h)
      · exact h1 t (Or.inl h)
      · simp at h
      · rcases mem_append.1 h with h | h
        · exact h1 t (Or.inr (Or.inr h))
        · exact h1 t (Or.inr (Or.inl h))
    · intro t ht
      rcases h2 t ht with h | h | h
      · exact Or.inl h
      · exact Or.inr (Or.inr (mem_append.2 (Or.inr h)))
      · exact Or.inr (Or.inr (mem_append.2 (Or.inl h)))
    · intro t ht
      refine ⟨by simp [TS.sig], fun hc => ?_⟩
      rcases mem_append.1 hc with h | h
      · exact (h3 t ht).2 h
      · exact (h3 t ht).1 h
    · intro t ht; simp [TS.sig] at ht

theorem update_memOp {s s' : TS} {cur new : Nat} {st : ObjState} (hs : s.updateObject max cur new st = some s') :
    ∃ b, MemOp s s' b ∧ s.toBundle cur = some b := by
  obtain ⟨b, t, h1, _, _, _, _, rfl⟩ := update_eq hs
  exact ⟨b, ⟨rfl, rfl, rfl, rfl, rfl, rfl, fun c hc => upd_ne hc⟩, h1⟩

theorem delete_memOp {s s' : TS} {id : Nat} {t : Tuple} (hs : s.deleteObject id = some (s', t)) :
    ∃ b, MemOp s s' b ∧ s.toBundle id = some b := by
  obtain ⟨b, h1, _, _, rfl⟩ := delete_eq hs
  exact ⟨b, ⟨rfl, rfl, rfl, rfl, rfl, rfl, fun c hc => upd_ne hc⟩, h1⟩

theorem tickets_step {s s' : TS} (hi : TInv max n s) (h : Tickets s) (hs : Step max n s s') : Tickets s' := by
  cases hs with
  | insert o hs => obtain ⟨b, hm, _⟩ := insert_memOp hs; exact tickets_memOp h hm
  | update c nw st hs => obtain ⟨b, hm, _⟩ := update_memOp hs; exact tickets_memOp h hm
  | delete id t hs => obtain ⟨b, hm, _⟩ := delete_memOp hs; exact tickets_memOp h hm
  | bg hs => exact tickets_bg hi h hs

theorem tickets_new (init : Nat → List Tuple) : Tickets (TS.new max n init) := by
  refine ⟨?_, ?_, ?_, ?_⟩ <;> simp [TS.new, TS.sig]

/-- right after an operation on bundle `b`, anything true of the new contents is on its way -/
theorem settled_start {s s' : TS} {b : Nat} (ht : Tickets s) (hm : MemOp s s' b) {P : List Tuple → Prop}
    (hp : P (s'.bundles b)) : Settled s' b P s.next := by
  obtain ⟨h1, h2, h3, h4⟩ := ht
  refine ⟨hp, by rw [hm.next]; omega, fun _ => by rw [hm.dirty, upd_same], ?_, ?_⟩
  · rw [hm.sig.1]; intro h; exact absurd (h1 _ (Or.inr (Or.inl h))) (by omega)
  · rw [hm.fired]; intro h; exact absurd (h1 _ (Or.inr (Or.inr h))) (by omega)

theorem settled_memOp {s s' : TS} {b c t : Nat} {P : List Tuple → Prop} (h : Settled s b P t) (hm : MemOp s s' c)
    (hp : P (s'.bundles b)) : Settled s' b P t := by
  obtain ⟨h1, h2, h3, h4, h5⟩ := h
  refine ⟨hp, by rw [hm.next]; omega, ?_, ?_, ?_⟩
  · rw [hm.waiting, hm.dirty]
    intro ht
    by_cases hbc : b = c
    · subst hbc; rw [upd_same]
    · rw [upd_ne hbc]
      rcases mem_append.1 ht with h | h
      · exact h3 h
      · simp only [mem_singleton] at h; omega
  · rw [hm.sig.1, hm.sig.2, hm.disk]; exact h4
  · rw [hm.fired, hm.sig.2, hm.disk]; exact h5

theorem settled_bg {s s' : TS} {b t : Nat} {P : List Tuple → Prop} (hi : TInv max n s) (htk : Tickets s)
    (hbn : b < n) (h : Settled s b P t) (hs : BgStep n s s') : Settled s' b P t := by
  obtain ⟨h1, h2, h3, h4, h5⟩ := h
  cases hs with
  | snapshot hb =>
    obtain ⟨hsig, hinf⟩ := snapshot_sig hi
    have hf : ∀ ts, (b, ts) ∈ ((range n).filter s.dirty).map (fun b => (b, s.bundles b)) → P ts := by
      intro ts hts
      obtain ⟨c, _, hc⟩ := mem_map.1 hts
      injection hc with e1 e2
      subst e1; subst e2
      exact h1
    refine ⟨h1, h2, fun ht => by simp [snapshot] at ht, ?_, ?_⟩
    · rw [hsig, hinf]
      intro ht
      refine ⟨hf, fun hnot => absurd (mem_map.2 ⟨b, mem_filter.2 ⟨by simpa using hbn, h3 ht⟩, rfl⟩) (hnot (s.bundles b))⟩
    · rw [hinf]
      intro ht
      exact ⟨hf, (h5 ht).2⟩
  | write i hw =>
    obtain ⟨ws, sg, c, ts, hb, hw', rfl⟩ := writePage_eq hw
    obtain ⟨hnd, _⟩ := hi.batchNodup ws sg hb
    have hmem := mem_eraseIdx_iff_ne hnd hw'
    have e : s.sig = sg := by simp [TS.sig, hb]
    have e2 : s.inflight = ws := by simp [TS.inflight, hb]
    rw [e2] at h4 h5
    rw [e] at h4
    refine ⟨h1, h2, h3, ?_, ?_⟩
    · intro ht
      obtain ⟨ha, hd⟩ := h4 ht
      refine ⟨fun ts' hts => ha ts' ((hmem _).1 hts).1, fun hnot => ?_⟩
      show P (upd s.disk c ts b)
      by_cases hbc : b = c
      · subst hbc; rw [upd_same]; exact ha ts (mem_of_getElem? hw')
      · rw [upd_ne hbc]
        exact hd (fun ts' hts => hnot ts' ((hmem _).2 ⟨hts, hbc⟩))
    · intro ht
      obtain ⟨ha, hd⟩ := h5 ht
      refine ⟨fun ts' hts => ha ts' ((hmem _).1 hts).1, ?_⟩
      show P (upd s.disk c ts b)
      by_cases hbc : b = c
      · subst hbc; rw [upd_same]; exact ha ts (mem_of_getElem? hw')
      · rw [upd_ne hbc]; exact hd
  | signal hw =>
    obtain ⟨sg, hb, rfl⟩ := signal_eq hw
    have e : s.sig = sg := by simp [TS.sig, hb]
    have e2 : s.inflight = [] := by simp [TS.inflight, hb]
    rw [e2] at h4 h5
    rw [e] at h4
    refine ⟨h1, h2, h3, fun ht => by simp [TS.sig] at ht, ?_⟩
    intro ht
    refine ⟨fun ts hts => by simp [TS.inflight] at hts, ?_⟩
    rcases mem_append.1 ht with h | h
    · exact (h5 h).2
    · exact (h4 h).2 (by simp)

/-- The generic preservation statement. -/
theorem settled_step {s s' : TS} {b t : Nat} {P : List Tuple → Prop} (hi : TInv max n s) (htk : Tickets s)
    (hbn : b < n) (h : Settled s b P t) (hs : Step max n s s') (hp : P (s'.bundles b)) : Settled s' b P t := by
  cases hs with
  | insert o hs => obtain ⟨c, hm, _⟩ := insert_memOp hs; exact settled_memOp h hm hp
  | update c nw st hs => obtain ⟨c, hm, _⟩ := update_memOp hs; exact settled_memOp h hm hp
  | delete id t hs => obtain ⟨c, hm, _⟩ := delete_memOp hs; exact settled_memOp h hm hp
  | bg hs => exact settled_bg hi htk hbn h hs

theorem treach_tickets {s : TS} {L : Live} (h : TReach max n s L) : Tickets s := by
  induction h with
  | init i hi L hL => exact tickets_new i
  | insert hr o hs ih => exact tickets_step (treach_inv hr) ih (.insert o hs)
  | update hr c nw st hs ih => exact tickets_step (treach_inv hr) ih (.update c nw st hs)
  | delete hr id t hs ih => exact tickets_step (treach_inv hr) ih (.delete id t hs)
  | bg hr hs ih => exact tickets_step (treach_inv hr) ih (.bg hs)

end Direct
end Blobd
