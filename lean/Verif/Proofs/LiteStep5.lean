import Verif.Proofs.LiteStep4
set_option autoImplicit false
/-! # Steps of the lite store: the end of a lookup -/
namespace Blobd
namespace Lite
open Spec

theorem Held.skip {v : V} {vis : List Rec} {P : Rec → Prop} {f : Option Found} (h : Held v vis P f) {r : Rec} (hr : ¬ P r) :
    Held v (vis ++ [r]) P f := by
  cases f with
  | none =>
    intro r' hr'
    rcases List.mem_append.1 hr' with h' | h'
    · exact h r' h'
    · rw [List.mem_singleton] at h'
      rw [h']; exact hr
  | some f =>
    obtain ⟨a, r', d, e1, e2⟩ := h
    exact ⟨a, r', d ++ [r], by rw [e1]; simp, e2⟩

theorem Held.take {v : V} {vis : List Rec} {P : Rec → Prop} {r : Rec} {f : Found} (hr : P r) (h1 : f.off = r.off)
    (h2 : f.prev = prevOff vis) (h3 : Copy v r f.raw) : Held v (vis ++ [r]) P (some f) :=
  ⟨vis, r, [], rfl, hr, h1, h2, h3⟩

section
variable {c : LCfg} (hc : c.Ok) {s : LSt} {base : Mem} {v : V} {leak : List (Nat × Nat)} (h : LInv c s base v leak)
include hc h

/-- on to the next inode -/
theorem walk_go {i : Nat} {t : Thread} (t' : Thread) {req : Req} {key : List Byte} {cur : Nat} {prev : Option Nat} {raw : List Byte}
    {inc ex inc' ex' : Option Found} (ht : s.thr i = some t) (hp : t.pc = .walk req key cur prev (some raw) inc ex) {vis rest : List Rec} {r : Rec}
    (hch : v.ch (c.bkt key) = vis ++ r :: rest) (hcur : cur = r.off) (hcp : Copy v r raw) (hseen : Seen v req key (vis ++ [r]) inc' ex') :
    LInv c (setPc s i t' (.walk req key (rawNext s raw) (some cur) none inc' ex')) base v leak := by
  have hl := h.lockOk ht
  rw [hp] at hl
  have hr := linked_of hc h (b := c.bkt key) (r := r) (by rw [hch]; simp)
  refine h.setPc (h.thr i t ht).1 ⟨vis ++ [r], rest, by rw [hch]; simp, ?_, ?_, fun b hb => (by cases hb), hseen⟩ hl
    (fun t2 ht2 => by have ht2 : s.thr i = some t2 := ht2; rw [ht] at ht2; cases ht2; rw [hp]; trivial)
  · rw [copy_next h.good h.ov hr hcp]
    have := h.good.chain _ (bkt_lt hc key)
    rw [hch, Seg.append] at this
    obtain ⟨x, _, _, h2⟩ := this
    exact h2.head
  · rw [hcur]; simp [prevOff]

theorem find_committed {key : List Byte} {want : Option Nat} {vis rest : List Rec} {r : Rec} (hch : v.ch (c.bkt key) = vis ++ r :: rest)
    (hv : ∀ r' ∈ vis, ¬ Match v.L key stCommitted want r') (hr : Match v.L key stCommitted want r) :
    (absOf c v).find key want = some (ver v.L r) := by
  refine abs_find_some hch ?_ hr.1 ?_
  · intro r' hr' hk
    rw [Bool.and_eq_false_iff]
    by_contra hcon
    rw [not_or] at hcon
    apply hv r' hr'
    refine ⟨hk, by simpa [ver] using hcon.1, ?_⟩
    have := hcon.2
    simp only [wants, ver, Bool.not_eq_false, Bool.or_eq_true, Option.isNone_iff_eq_none, beq_iff_eq] at this
    exact this
  · obtain ⟨_, h2, h3⟩ := hr
    simp only [ver, h2, wants]
    rcases h3 with h3 | h3 <;> simp [h3]

theorem find_committed_none {key : List Byte} {want : Option Nat} (hv : ∀ r' ∈ v.ch (c.bkt key), ¬ Match v.L key stCommitted want r') :
    (absOf c v).find key want = none := by
  refine abs_find_none ?_
  intro r' hr' hk
  rw [Bool.and_eq_false_iff]
  by_contra hcon
  rw [not_or] at hcon
  apply hv r' hr'
  refine ⟨hk, by simpa [ver] using hcon.1, ?_⟩
  have := hcon.2
  simp only [wants, ver, Bool.not_eq_false, Bool.or_eq_true, Option.isNone_iff_eq_none, beq_iff_eq] at this
  exact this

theorem match_incomplete {key : List Byte} {id : Nat} {r' : Rec} (hr' : r' ∈ v.ch (c.bkt key)) (hk : r'.o.key = key)
    (hp : (fun x : Ver => !x.committed && x.id == id) (ver v.L r') = true) : Match v.L key stIncomplete (some id) r' := by
  simp only [ver, Bool.and_eq_true, Bool.not_eq_true', decide_eq_false_iff_not, beq_iff_eq] at hp
  rcases states hc h hr' with h1 | h1
  · exact ⟨hk, h1, .inr (by rw [hp.2])⟩
  · exact absurd h1 hp.1

theorem find_incomplete {key : List Byte} {id : Nat} {vis rest : List Rec} {r : Rec} (hch : v.ch (c.bkt key) = vis ++ r :: rest)
    (hv : ∀ r' ∈ vis, ¬ Match v.L key stIncomplete (some id) r') (hr : Match v.L key stIncomplete (some id) r) :
    (absOf c v).incomplete key id = some (ver v.L r) := by
  refine abs_find_some hch ?_ hr.1 ?_
  · intro r' hr' hk
    by_contra hcon
    rw [Bool.not_eq_false] at hcon
    exact hv r' hr' (match_incomplete hc h (by rw [hch]; simp [hr']) hk hcon)
  · obtain ⟨_, h2, h3⟩ := hr
    have : r.o.id = id := by
      have : id = r.o.id := by simpa using h3
      exact this.symm
    simp [ver, h2, this, stIncomplete, stCommitted]

theorem find_incomplete_none {key : List Byte} {id : Nat} (hv : ∀ r' ∈ v.ch (c.bkt key), ¬ Match v.L key stIncomplete (some id) r') :
    (absOf c v).incomplete key id = none := by
  refine abs_find_none ?_
  intro r' hr' hk
  by_contra hcon
  rw [Bool.not_eq_false] at hcon
  exact hv r' hr' (match_incomplete hc h hr' hk hcon)

theorem pendingAt_done {off : Nat} (hp : pendingAt s.j off = false) : Done v.U none off ∧ Done v.U none (off + 2) := by
  unfold pendingAt at hp
  rw [← h.U] at hp
  have key : ∀ t ∈ v.U, ∀ w ∈ t.writes, ¬ (off ≤ w.1 ∧ w.1 < off + 8) := by
    intro t ht w hw
    have h1 := List.any_eq_false.1 hp t ht
    rw [Bool.not_eq_true] at h1
    have h2 := List.any_eq_false.1 h1 w hw
    simpa using h2
  exact ⟨fun t ht w hw e => absurd (by omega) (key t ht w hw), fun t ht w hw e => absurd (by omega) (key t ht w hw)⟩

/-- libblobd-lite/src/op/delete_object.rs:32-47 with the object found -/
theorem step_delete {i : Nat} {t : Thread} (t' : Thread) {want : Option Nat} {key : List Byte} {cur : Nat} {prev : Option Nat} {raw : List Byte}
    {inc ex : Option Found} (ht : s.thr i = some t) (hp : t.pc = .walk (.delete want) key cur prev (some raw) inc ex) {vis rest : List Rec} {r : Rec}
    (hch : v.ch (c.bkt key) = vis ++ r :: rest) (hcur : cur = r.off) (hprev : prev = prevOff vis) (hcp : Copy v r raw)
    (hv : ∀ r' ∈ vis, ¬ Match v.L key stCommitted want r') (hr : Match v.L key stCommitted want r) (idle : Bool)
    (hf : (onFound c s i t' (.delete want) key ⟨cur, prev, raw⟩ idle).faults = []) :
    ∃ base' v', LInv c (onFound c s i t' (.delete want) key ⟨cur, prev, raw⟩ idle) base' v' leak ∧
      ChRel c v v' s.lin (onFound c s i t' (.delete want) key ⟨cur, prev, raw⟩ idle).lin := by
  unfold onFound at hf ⊢
  simp only at hf ⊢
  have hl : t.pc.lock c = some (c.bkt key, true) := by rw [hp]; rfl
  cases hu : unlink c s (c.bkt key) ⟨cur, prev, raw⟩ with
  | none => exact ⟨base, v, h.setPc (h.thr i t ht).1 trivial (LockOk.none rfl)
    (fun t2 ht2 => by have ht2 : s.thr i = some t2 := ht2; rw [ht] at ht2; cases ht2; rw [hp]; trivial), .inl ⟨rfl, rfl⟩⟩
  | some r4 =>
    obtain ⟨s1, tk, ws, free⟩ := r4
    rw [hu] at hf
    simp only [setPc, List.append_eq_nil_iff] at hf
    have hfs : (commitTxn c (event s1 i (.removed key want (rdId (ofBytes raw) 0))) idle ws).1.faults = s1.faults := by
      simp only [commitTxn]
      split <;> rfl
    have hf1 : s1.faults = [] := by rw [← hfs]; exact hf.2
    obtain ⟨base1, v1, k1, k2, k3, k4, k5, k6, k7, k8, k9, k10, k11, k12, k13, k14, k15⟩ :=
      unlink_ok hc h i (bkt_lt hc key) hch (f := ⟨cur, prev, raw⟩) hcur hprev hcp hu hf1
    refine ⟨base1, ?_⟩
    have fin := finish_ok hc h t' ht hl (s2 := event s1 i (.removed key want (rdId (ofBytes raw) 0))) (base1 := base1) (v1 := v1) (ws := ws) k1 k2 k3 k4
      (by omega) (ev := .removed key want (rdId (ofBytes raw) 0)) ?_ ?_ (tickets := [tk]) ?_ (free := free) ?_ k15 (by rw [hp]; trivial) .deleted idle
      ((if (commitTxn c (event s1 i (.removed key want (rdId (ofBytes raw) 0))) idle ws).2.isNone && pendingAt s.j cur then [.pendingInode] else []) ++ (commitTxn c (event s1 i (.removed key want (rdId (ofBytes raw) 0))) idle ws).1.faults)
    · obtain ⟨v', y1, y2, y3⟩ := fin
      exact ⟨v', y1, .inr ⟨i, _, y3, vis, r, rest, hch, hcp.id.symm, hr.1, y2.trans k14⟩⟩
    · simp only [absStep, find_committed hc h hch hv hr, hcp.id]
      rw [if_pos (by simp [ver]), k9, hr.1]
    · obtain ⟨z1, z2, z3, z4, z5, z6⟩ := k10
      exact ⟨z1, z2, z3, z4, z5, by simp [event, z6]⟩
    · intro tk' hm
      rw [List.mem_singleton] at hm
      rw [hm]; exact ⟨k11, k12⟩
    · refine .inr ⟨r, k7, k6, ?_⟩
      intro hw
      rw [hw, commitTxn_nil] at hf
      have hpa : pendingAt s.j cur = false := by
        cases hx : pendingAt s.j cur with
        | false => rfl
        | true =>
          have := hf.1
          simp [hx] at this
      rw [← hcur]
      exact pendingAt_done hc h hpa

theorem seen_skip {req : Req} {key : List Byte} {vis : List Rec} {inc ex : Option Found} {r : Rec} (hs : Seen v req key vis inc ex)
    (hn : match req with
      | .commit id => ¬ Match v.L key stIncomplete (some id) r ∧ ¬ Match v.L key stCommitted none r
      | req => ¬ Match v.L key req.expects.1 req.expects.2 r) : Seen v req key (vis ++ [r]) inc ex := by
  unfold Seen at hs ⊢
  have aux : ∀ Q : Rec → Prop, (∀ r ∈ vis, ¬ Q r) → ¬ Q r → ∀ r' ∈ vis ++ [r], ¬ Q r' := by
    intro Q h1 h2 r' hr'
    rcases List.mem_append.1 hr' with h' | h'
    · exact h1 r' h'
    · rw [List.mem_singleton] at h'; rw [h']; exact h2
  cases req with
  | commit id => exact ⟨hs.1.skip hn.1, hs.2.skip hn.2⟩
  | look want => exact ⟨hs.1, hs.2.1, aux _ hs.2.2 hn⟩
  | write id o l => exact ⟨hs.1, hs.2.1, aux _ hs.2.2 hn⟩
  | delete want => exact ⟨hs.1, hs.2.1, aux _ hs.2.2 hn⟩

/-- libblobd-lite/src/bucket.rs:91-101 and what the caller does with the inode -/
theorem step_inode {i : Nat} {t : Thread} (t' : Thread) {req : Req} {key : List Byte} {cur : Nat} {prev : Option Nat} {raw : List Byte}
    {inc ex : Option Found} (ht : s.thr i = some t) (hp : t.pc = .walk req key cur prev (some raw) inc ex) (idle : Bool)
    (hf : (onInode c s i t' req key cur prev raw inc ex idle).faults = []) :
    ∃ base' v', LInv c (onInode c s i t' req key cur prev raw inc ex idle) base' v' leak ∧
      ChRel c v v' s.lin (onInode c s i t' req key cur prev raw inc ex idle).lin := by
  have hpc := (h.thr i t ht).2
  rw [hp] at hpc
  obtain ⟨vis, rest, q1, q2, q3, q4, q5⟩ := hpc
  obtain ⟨r, rest', r1, hcp⟩ := q4 raw rfl
  subst r1
  have hcur : cur = r.off := q2
  have hrc : r ∈ v.ch (c.bkt key) := by rw [q1]; simp
  have hr := linked_of hc h hrc
  have hst : rawState s raw = rdState v.L r.off := copy_state h.good h.ov hr hcp
  have hst2 := states hc h hrc
  have hgo : ∀ inc' ex', Seen v req key (vis ++ [r]) inc' ex' →
      ∃ base' v', LInv c (setPc s i t' (.walk req key (rawNext s raw) (some cur) none inc' ex')) base' v' leak ∧ ChRel c v v' s.lin s.lin :=
    fun inc' ex' hs => ⟨base, v, walk_go hc h t' ht hp q1 hcur hcp hs, .inl ⟨rfl, rfl⟩⟩
  by_cases hk : r.o.key = key
  · have hrk : rdKey (ofBytes raw) 0 = key := hcp.key.trans hk
    have hnd : ¬ (rawState s raw ≠ stIncomplete ∧ rawState s raw ≠ stCommitted) := by
      rw [hst]; rintro ⟨h1, h2⟩; rcases hst2 with h' | h' <;> contradiction
    -- requests other than commit
    have hother : ∀ {P : Prop}, req.expects.1 = req.expects.1 → (∀ id, req ≠ .commit id) →
        ((rawState s raw = req.expects.1 ∧ (req.expects.2.isNone ∨ req.expects.2 = some (rdId (ofBytes raw) 0))) ↔
          Match v.L key req.expects.1 req.expects.2 r) := by
      intro _ _ _
      rw [hst, hcp.id]
      unfold Match
      constructor
      · rintro ⟨h1, h2⟩
        refine ⟨hk, h1, ?_⟩
        rcases h2 with h2 | h2
        · exact .inl (by simpa using h2)
        · exact .inr h2
      · rintro ⟨_, h1, h2⟩
        refine ⟨h1, ?_⟩
        rcases h2 with h2 | h2
        · exact .inl (by simp [h2])
        · exact .inr h2
    unfold onInode at hf ⊢
    simp only [hrk, if_true, if_neg hnd] at hf ⊢
    cases req with
    | commit id =>
      simp only at hf ⊢
      split
      · rename_i hm
        rw [hst, hcp.id] at hm
        refine hgo _ _ ⟨Held.take ⟨hk, hm.1, .inr (by rw [hm.2])⟩ hcur q3 hcp, q5.2.skip ?_⟩
        rintro ⟨_, h2, _⟩
        rw [hm.1] at h2; cases h2
      · rename_i hm
        rw [hst, hcp.id] at hm
        have hni : ¬ Match v.L key stIncomplete (some id) r := by
          rintro ⟨_, h2, h3⟩
          have h4 : id = r.o.id := by simpa using h3
          exact hm ⟨h2, h4.symm⟩
        split
        · rename_i hm2
          rw [hst] at hm2
          exact hgo _ _ ⟨q5.1.skip hni, Held.take ⟨hk, hm2, .inl rfl⟩ hcur q3 hcp⟩
        · rename_i hm2
          rw [hst] at hm2
          refine hgo _ _ ⟨q5.1.skip hni, q5.2.skip ?_⟩
          rintro ⟨_, h2, _⟩
          exact hm2 h2
    | look want =>
      simp only at hf ⊢
      split
      · rename_i hm
        have hM := (hother (P := True) rfl (by simp)).1 hm
        refine ⟨base, v, ?_, .inr ⟨i, _, rfl, rfl⟩⟩
        unfold onFound
        refine (h.event i ?_).respond i t' _ (fun t2 ht2 => by have ht2 : s.thr i = some t2 := ht2; rw [ht] at ht2; cases ht2; rw [hp]; trivial)
        simp only [absStep]
        rw [find_committed hc h (want := want) q1 q5.2.2 hM]
        simp [ver, hcp.id, hcp.size]
      · rename_i hm
        exact hgo _ _ (seen_skip hc h q5 (fun hM => hm ((hother (P := True) rfl (by simp)).2 hM)))
    | write id offset len =>
      simp only at hf ⊢
      split
      · rename_i hm
        have hM := (hother (P := True) rfl (by simp)).1 hm
        have hev : LInv c (event s i (.opened key id (rdSize (ofBytes raw) 0))) base v leak := by
          refine h.event i ?_
          simp only [absStep]
          rw [find_incomplete hc h q1 q5.2.2 hM]
          simp [ver, hcp.size]
        unfold onFound
        simp only
        split
        · exact ⟨base, v, hev.respond i t' _ (fun t2 ht2 => by have ht2 : s.thr i = some t2 := ht2; rw [ht] at ht2; cases ht2; rw [hp]; trivial), .inr ⟨i, _, rfl, rfl⟩⟩
        · rename_i hwc
          split
          · exact ⟨base, v, hev.setPc (h.thr i t ht).1 trivial (LockOk.none rfl) (fun t2 ht2 => by have ht2 : s.thr i = some t2 := ht2; rw [ht] at ht2; cases ht2; rw [hp]; trivial), .inr ⟨i, _, rfl, rfl⟩⟩
          · rename_i lay hlay
            rw [hcp.size] at hwc hlay
            have hl := h.lockOk ht
            rw [hp] at hl
            refine ⟨base, v, hev.setPc (h.thr i t ht).1 ⟨r, hrc, ⟨hk, by simpa [Req.expects] using (hM.2.2.resolve_left (by simp [Req.expects])).symm⟩, hM.2.1, ?_⟩ hl (fun t2 ht2 => by have ht2 : s.thr i = some t2 := ht2; rw [ht] at ht2; cases ht2; rw [hp]; trivial), .inr ⟨i, _, rfl, rfl⟩⟩
            rw [hcur]
            exact targets_in hc.rw (dev_at hc h.good (h.geo hc) h.jinv h.L h.U hr) (h.good.fit _ hr).1 hlay hwc
      · rename_i hm
        exact hgo _ _ (seen_skip hc h q5 (fun hM => hm ((hother (P := True) rfl (by simp)).2 hM)))
    | delete want =>
      simp only at hf ⊢
      split
      · rename_i hm
        rw [if_pos hm] at hf
        have hM := (hother (P := True) rfl (by simp)).1 hm
        exact step_delete hc h t' ht hp q1 hcur q3 hcp q5.2.2 hM idle hf
      · rename_i hm
        exact hgo _ _ (seen_skip hc h q5 (fun hM => hm ((hother (P := True) rfl (by simp)).2 hM)))
  · have hrk : ¬ rdKey (ofBytes raw) 0 = key := fun e => hk (hcp.key.symm.trans e)
    unfold onInode
    simp only [if_neg hrk]
    refine hgo _ _ (seen_skip hc h q5 ?_)
    cases req
    · exact fun hM => hk hM.1
    · exact fun hM => hk hM.1
    · exact fun hM => hk hM.1
    · exact ⟨fun hM => hk hM.1, fun hM => hk hM.1⟩

end
end Lite
end Blobd
