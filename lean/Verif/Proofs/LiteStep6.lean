import Verif.Proofs.LiteStep5
set_option autoImplicit false
/-! # Steps of the lite store: the end of the list, and all steps together -/
namespace Blobd
namespace Lite
open Spec

section
variable {c : LCfg} (hc : c.Ok) {s : LSt} {base : Mem} {v : V} {leak : List (Nat × Nat)} (h : LInv c s base v leak)
include hc h

/-- libblobd-lite/src/op/commit_object.rs:61-84 -/
theorem commit_tail {i : Nat} {t : Thread} (t' : Thread) (ht : s.thr i = some t) {key : List Byte} {id : Nat}
    (hl : t.pc.lock c = some (c.bkt key, true)) {s1 : LSt} {base1 : Mem} {v1 : V} {ws : List (Nat × List Byte)}
    (k1 : JInv c.jc base1 s1.j) (k2 : Mid c s.ids v v1 i (c.bkt key) (logical base1 s1.j) ws) (k3 : v1.ov = s1.ov) (k4 : unacked s1.j = unacked s.j)
    (hlen : ws.length ≤ 1)
    (hs1 : s1.alloc = s.alloc ∧ s1.thr = s.thr ∧ s1.nextCall = s.nextCall ∧ s1.orphans = s.orphans ∧ s1.ids = s.ids ∧ s1.lin = s.lin)
    {rf : Rec} (hrf : (Own.linked, rf) ∈ v.recs) (hrf1 : (Own.linked, rf) ∈ v1.recs) (hkey : rf.o.key = key) (hid : rf.o.id = id) {f : Found}
    (hfo : f.off = rf.off)
    (habs : absStep c.versioning (absOf c v) (.committed key id) = some ((absOf c v1).set key ((absOf c v1 key).map
      (fun x => if x.id = id then { x with committed := true } else x))))
    {tickets : List (Overlay.Ticket Cell)} (htk : ∀ tk ∈ tickets, tk.serial < v1.ov.nextSerial) {free : List (Nat × Nat)}
    (hfree : free = [] ∨ ∃ r, (Own.dying i, r) ∈ v1.recs ∧ free = regs c.pages r)
    (hwn : ∀ x ∈ v1.recs, x.1 = .linked ∨ x ∈ v.recs ∨ (x.1 = .dying i ∧ free = regs c.pages x.2)) (hqt : t.pc.quiet) (idle : Bool) {q : LSt × Option Nat}
    (hq : q = commitTxn c (event { s1 with ov := (s1.ov.set (.state id) stCommitted).1 } i (.committed key id)) idle
      (ws ++ [(f.off + ObjectOffsets.state, leBytes 1 stCommitted)])) :
    ∃ v', LInv c (setPc q.1 i t' (.wait q.2 free ((s1.ov.set (.state id) stCommitted).2 :: tickets) .committed)) base1 v' leak ∧ v'.ch = v1.ch ∧ q.1.lin = s.lin ++ [(i, .committed key id)] := by
  have ge := h.geo hc
  subst hid
  have ba1 := base_snd k2.snd h.good.toBase
  have ge1 := geo_snd k2.snd ge
  obtain ⟨_, l2, _⟩ := lists_state hc ba1 ge1 k2.lists hrf1 (L' := _) rfl
  have m := k2.state hc h.good ge hrf1 hrf (by rw [hkey])
  obtain ⟨z1, z2, z3, z4, z5, z6⟩ := hs1
  have hne : ws ++ [(rf.off, leBytes 1 stCommitted)] ≠ [] := by simp
  have e0 : f.off + ObjectOffsets.state = rf.off := by rw [hfo]; rfl
  rw [e0] at hq
  have key := finish_ok hc h t' ht hl (s2 := event { s1 with ov := (s1.ov.set (.state rf.o.id) stCommitted).1 } i (.committed key rf.o.id))
    (base1 := base1) k1 m ?_ k4 ?_ (ev := .committed key rf.o.id) ?_ ⟨z1, z2, z3, z4, z5, ?_⟩ (tickets := (s1.ov.set (.state rf.o.id) stCommitted).2 :: tickets)
    ?_ (free := free) ?_ hwn hqt .committed idle q.1.faults
  · rw [← hq] at key
    exact key
  · simp only [k3]; rfl
  · simp; omega
  · rw [habs]
    have : absOf c { v1 with L := v1.L.write rf.off (leBytes 1 stCommitted), ov := (v1.ov.set (.state rf.o.id) stCommitted).1 } =
      absOf c { v1 with L := v1.L.write rf.off (leBytes 1 stCommitted) } := rfl
    rw [this, l2, hkey]
  · simp [event, z6]
  · intro tk hm
    refine ⟨?_, fun hw => absurd hw hne⟩
    rcases List.mem_cons.1 hm with rfl | hm
    · simp only [Overlay.Ov.set, k3]; omega
    · have := htk tk hm
      simp only [Overlay.Ov.set]; omega
  · rcases hfree with hfree | ⟨r, r1, r2⟩
    · exact .inl hfree
    · exact .inr ⟨r, r1, r2, fun hw => absurd hw hne⟩

/-- libblobd-lite/src/op/inspect_object.rs:28, libblobd-lite/src/op/write_object.rs:68, libblobd-lite/src/op/delete_object.rs:41-43, libblobd-lite/src/op/commit_object.rs:51-84 -/
theorem step_atEnd {i : Nat} {t : Thread} (t' : Thread) {req : Req} {key : List Byte} {prev : Option Nat}
    {inc ex : Option Found} (ht : s.thr i = some t) (hp : t.pc = .walk req key 0 prev none inc ex) (idle : Bool)
    (hf : (onEnd c s i t' req key inc ex idle).faults = []) :
    ∃ base' v', LInv c (onEnd c s i t' req key inc ex idle) base' v' leak ∧ ChRel c v v' s.lin (onEnd c s i t' req key inc ex idle).lin := by
  have hpc := (h.thr i t ht).2
  rw [hp] at hpc
  obtain ⟨vis, rest, q1, q2, q3, q4, q5⟩ := hpc
  have hre := rest_nil hc h q1 q2
  subst hre
  rw [List.append_nil] at q1
  unfold onEnd at hf ⊢
  cases req with
  | look want =>
    refine ⟨base, v, (h.event i ?_).respond i t' _ (fun t2 ht2 => by have ht2 : s.thr i = some t2 := ht2; rw [ht] at ht2; cases ht2; rw [hp]; trivial), .inr ⟨i, _, rfl, rfl⟩⟩
    simp only [absStep]
    rw [find_committed_none hc h (by rw [q1]; exact q5.2.2)]
    rfl
  | write id offset len =>
    refine ⟨base, v, (h.event i ?_).respond i t' _ (fun t2 ht2 => by have ht2 : s.thr i = some t2 := ht2; rw [ht] at ht2; cases ht2; rw [hp]; trivial), .inr ⟨i, _, rfl, rfl⟩⟩
    simp only [absStep]
    rw [find_incomplete_none hc h (by rw [q1]; exact q5.2.2)]
    rfl
  | delete want =>
    refine ⟨base, v, (h.event i ?_).respond i t' _ (fun t2 ht2 => by have ht2 : s.thr i = some t2 := ht2; rw [ht] at ht2; cases ht2; rw [hp]; trivial), .inr ⟨i, _, rfl, rfl⟩⟩
    simp only [absStep]
    rw [find_committed_none hc h (by rw [q1]; exact q5.2.2)]
    rfl
  | commit id =>
    have hl : t.pc.lock c = some (c.bkt key, true) := by rw [hp]; rfl
    cases inc with
    | none =>
      refine ⟨base, v, (h.event i ?_).respond i t' _ (fun t2 ht2 => by have ht2 : s.thr i = some t2 := ht2; rw [ht] at ht2; cases ht2; rw [hp]; trivial), .inr ⟨i, _, rfl, rfl⟩⟩
      simp only [absStep]
      rw [find_incomplete_none hc h (by rw [q1]; exact q5.1)]
      rfl
    | some f =>
      obtain ⟨a, rf, d, f1, f2, f3, f4, f5⟩ := q5.1
      have hrfc : rf ∈ v.ch (c.bkt key) := by rw [q1, f1]; simp
      have hrf := linked_of hc h hrfc
      have hid : rf.o.id = id := by
        have : id = rf.o.id := by simpa using f2.2.2
        exact this.symm
      have hinc : ((absOf c v).incomplete key id).isSome = true := by
        unfold Abs.incomplete
        rw [List.find?_isSome]
        refine ⟨ver v.L rf, List.mem_map.2 ⟨rf, List.mem_filter.2 ⟨hrfc, by simpa using f2.1⟩, rfl⟩, ?_⟩
        simp [ver, f2.2.1, hid, stIncomplete, stCommitted]
      have hset : ∀ l, (absOf c v).set key l = (absOf c v).set key l := fun _ => rfl
      -- nothing to remove
      have hnone : ((absOf c v key).filter (fun v => c.versioning || !v.committed)) = absOf c v key →
          ∃ base' v', LInv c (setPc (commitTxn c (event { s with ov := (s.ov.set (.state id) stCommitted).1 } i (.committed key id)) idle
            ([] ++ [(f.off + ObjectOffsets.state, leBytes 1 stCommitted)])).1 i t'
            (.wait (commitTxn c (event { s with ov := (s.ov.set (.state id) stCommitted).1 } i (.committed key id)) idle
            ([] ++ [(f.off + ObjectOffsets.state, leBytes 1 stCommitted)])).2 [] [(s.ov.set (.state id) stCommitted).2] .committed)) base' v' leak ∧ ChRel c v v' s.lin
            (commitTxn c (event { s with ov := (s.ov.set (.state id) stCommitted).1 } i (.committed key id)) idle
            ([] ++ [(f.off + ObjectOffsets.state, leBytes 1 stCommitted)])).1.lin := by
        intro hfil
        have fin := commit_tail hc h t' ht hl (s1 := s) (base1 := base) (v1 := v) (ws := []) h.jinv ?_ h.ov rfl (by simp)
          ⟨rfl, rfl, rfl, rfl, rfl, rfl⟩ hrf hrf f2.1 hid f3 ?_ (tickets := []) (by simp) (.inl rfl)
          (fun x hx => .inr (.inl hx)) (by rw [hp]; trivial) idle rfl
        · obtain ⟨v', y1, y2, y3⟩ := fin
          exact ⟨base, v', y1, .inr ⟨i, _, y3, .inl y2⟩⟩
        · rw [← h.L]; exact Mid.refl h.good i _
        · simp only [absStep, hinc, if_true, hfil]
      cases ex with
      | none =>
        simp only at hf ⊢
        apply hnone
        rw [List.filter_eq_self]
        intro x hx
        obtain ⟨r', h1, h2⟩ := List.mem_map.1 hx
        rw [List.mem_filter] at h1
        have := q5.2 r' (by rw [← q1]; exact h1.1)
        rw [← h2]
        have hnc : rdState v.L r'.off ≠ stCommitted := fun e => this ⟨by simpa using h1.2, e, .inl rfl⟩
        simp [ver, hnc]
      | some e =>
        cases hvs : c.versioning with
        | true =>
          simp only [hvs, if_true] at hf ⊢
          apply hnone
          rw [List.filter_eq_self]
          intro x _
          simp [hvs]
        | false =>
          simp only [hvs, if_false, Bool.false_eq_true] at hf ⊢
          cases hu : unlink c s (c.bkt key) e with
          | none => exact ⟨base, v, h.setPc (h.thr i t ht).1 trivial (LockOk.none rfl)
            (fun t2 ht2 => by have ht2 : s.thr i = some t2 := ht2; rw [ht] at ht2; cases ht2; rw [hp]; trivial), .inl ⟨rfl, rfl⟩⟩
          | some r4 =>
            obtain ⟨s1, tk, ws, free⟩ := r4
            rw [hu] at hf
            simp only [Option.map_some] at hf ⊢
            have hf1 : s1.faults = [] := by
              rw [← hf]
              simp only [setPc, commitTxn]
              split <;> rfl
            obtain ⟨pre, re, post, e1, e2, e3, e4, e5⟩ := q5.2
            have hch : v.ch (c.bkt key) = pre ++ re :: post := by rw [q1, e1]
            obtain ⟨base1, v1, k1, k2, k3, k4, k5, k6, k7, k8, k9, k10, k11, k12, k13, k14, k15⟩ :=
              unlink_ok hc h i (bkt_lt hc key) hch e3 e4 e5 hu hf1
            have hrec : re ∈ v.ch (c.bkt key) := by rw [hch]; simp
            have hre := linked_of hc h hrec
            have hne : rf.off ≠ re.off := by
              intro hx
              have := h.good.toBase.uniq hrf hre hx
              cases this
              have h1 := f2.2.1
              rw [e2.2.1] at h1
              cases h1
            have hone := absRun_one (hvs ▸ h.abs) key
            have fin := commit_tail hc h t' ht hl (s1 := s1) (base1 := base1) (v1 := v1) (ws := ws) k1 k2 k3 k4 k13 k10 hrf (k8 rf hrf hne) f2.1 hid
              f3 ?_ (tickets := [tk]) (by simpa using k11) (.inr ⟨re, k7, k6⟩) k15 (by rw [hp]; trivial) idle rfl
            · obtain ⟨v', y1, y2, y3⟩ := fin
              exact ⟨base1, v', y1, .inr ⟨i, _, y3, .inr ⟨pre, re, post, hch, e2.1, e2.2.1, hvs, y2.trans k14⟩⟩⟩
            simp only [absStep, hinc, if_true, hvs, Bool.false_or, Option.some.injEq]
            have hek : re.o.key = key := e2.1
            have hmem : ver v.L re ∈ absOf c v key := List.mem_map.2 ⟨re, List.mem_filter.2 ⟨hrec, by simpa using hek⟩, rfl⟩
            have hfil : (absOf c v key).filter (fun x => !x.committed) = (absOf c v key).filter (fun x => decide (x.id ≠ re.o.id)) := by
              apply List.filter_congr
              intro x hx
              obtain ⟨r', h1, h2⟩ := List.mem_map.1 hx
              rw [List.mem_filter] at h1
              have hr' := linked_of hc h h1.1
              cases hcm : x.committed with
              | true =>
                have this : x.id = re.o.id := hone x hx _ hmem hcm (by simp [ver, e2.2.1])
                simpa using this
              | false =>
                have : x.id ≠ re.o.id := by
                  intro hx2
                  rw [← h2] at hx2
                  have := h.good.toBase.uniqId hr' hre hx2
                  cases this
                  rw [← h2] at hcm
                  simp [ver, e2.2.1] at hcm
                simpa using this
            rw [hfil, k9, hek]
            funext k'
            simp only [Abs.set]
            split <;> simp_all

end

theorem act_faults {c : LCfg} {s s' : LSt} {a : Act} (h : act c s a = some s') (hf : s'.faults = []) : s.faults = [] := by
  have hcom : ∀ (s2 : LSt) idle ws, (commitTxn c s2 idle ws).1.faults = s2.faults := by
    intro s2 idle ws
    simp only [commitTxn]
    split <;> rfl
  have hunl : ∀ {s1 : LSt} {b f tk ws free}, unlink c s b f = some (s1, tk, ws, free) → s1.faults = [] → s.faults = [] := by
    intro s1 b f tk ws free hu hf
    unfold unlink at hu
    simp only at hu
    split at hu
    · cases hu
    · split at hu
      · simp only [Option.some.injEq, Prod.mk.injEq] at hu
        obtain ⟨rfl, _⟩ := hu
        simp only [List.append_eq_nil_iff] at hf
        exact hf.2
      · simp only [Option.some.injEq, Prod.mk.injEq] at hu
        obtain ⟨rfl, _⟩ := hu
        exact hf
  have hfound : ∀ i t req key f idle, (onFound c s i t req key f idle).faults = [] → s.faults = [] := by
    intro i t req key f idle hf
    unfold onFound at hf
    cases req with
    | look want => exact hf
    | write wid o l =>
      simp only at hf
      split at hf
      · exact hf
      · split at hf <;> exact hf
    | delete want =>
      simp only at hf
      split at hf
      · exact hf
      · rename_i hu
        simp only [setPc, List.append_eq_nil_iff, hcom] at hf
        exact hunl hu hf.2
    | commit id => exact hf
  cases a with
  | create key size assoc created id =>
    have h : create c s key size assoc created id = some s' := h
    unfold create at h
    split at h
    · split at h
      · cases h
      · simp only at h
        split at h
        · cases h; exact hf
        · split at h
          · cases h; exact hf
          · split at h <;> (cases h; exact hf)
    · cases h
  | createWritten i =>
    simp only [act] at h
    split at h
    · cases h; exact hf
    · cases h
  | createLink i idle =>
    simp only [act] at h
    split at h
    · split at h
      · cases h
        simp only [link, setPc, hcom] at hf
        exact hf
      · cases h
    · cases h
  | lookup req key =>
    simp only [act] at h
    split at h
    · cases h; exact hf
    · cases h
  | read i =>
    simp only [act] at h
    split at h
    · split at h
      · cases h
      · cases h; exact hf
    · cases h
  | inode i idle =>
    simp only [act] at h
    split at h
    · rename_i st req key cur prev raw inc ex hth
      cases h
      unfold onInode at hf
      simp only at hf
      split at hf
      · split at hf
        · exact hf
        · cases req with
          | commit id =>
            simp only at hf
            split at hf
            · exact hf
            · split at hf <;> exact hf
          | look want =>
            simp only at hf
            split at hf
            · exact hfound _ _ _ _ _ _ hf
            · exact hf
          | write id o l =>
            simp only at hf
            split at hf
            · exact hfound _ _ _ _ _ _ hf
            · exact hf
          | delete want =>
            simp only at hf
            split at hf
            · exact hfound _ _ _ _ _ _ hf
            · exact hf
      · exact hf
    · cases h
  | atEnd i idle =>
    simp only [act] at h
    split at h
    · rename_i st req key prev inc ex hth
      cases h
      unfold onEnd at hf
      cases req with
      | look want => exact hf
      | write id o l => exact hf
      | delete want => exact hf
      | commit id =>
        cases inc with
        | none => exact hf
        | some f =>
          cases ex with
          | none =>
            simp only [setPc, hcom] at hf
            exact hf
          | some e =>
            simp only at hf
            split at hf
            · exact hf
            · rename_i s1 tk ws free hd
              simp only [setPc, hcom, event] at hf
              split at hd
              · cases hd; exact hf
              · rw [Option.map_eq_some_iff] at hd
                obtain ⟨⟨s1', tk', ws', free'⟩, hu, hd⟩ := hd
                cases hd
                exact hunl hu hf
    · cases h
  | signalled i =>
    simp only [act] at h
    split at h
    · split at h
      · split at h <;> (cases h; exact hf)
      · cases h
    · cases h
  | evict i =>
    simp only [act] at h
    split at h
    · cases h
      simp only [setPc, List.append_eq_nil_iff] at hf
      exact hf.2
    · cases h
  | respond i =>
    simp only [act] at h
    split at h
    · cases h; exact hf
    · cases h
  | data i n skip bytes =>
    simp only [act] at h
    split at h
    · split at h
      · split at h
        · cases h; exact hf
        · cases h
      · cases h
    · cases h
  | writeEnd i r =>
    simp only [act] at h
    split at h
    · cases h; exact hf
    · cases h
  | drop i =>
    simp only [act] at h
    split at h <;> first | (cases h; exact hf) | cases h
  | cancel i n bytes =>
    simp only [act] at h
    split at h
    · split at h
      · split at h
        · cases h
          simp [setPc] at hf
        · cases h
      · cases h
    · cases h
  | orphan n =>
    simp only [act] at h
    split at h
    · cases h; exact hf
    · cases h

theorem step_act' {c : LCfg} (hc : c.Ok) {s : LSt} {base : Mem} {v : V} {leak : List (Nat × Nat)} (h : LInv c s base v leak) {s' : LSt} {a : Act}
    (ha : act c s a = some s') (hf : s'.faults = []) : ∃ base' v' leak', LInv c s' base' v' leak' ∧ ChRel c v v' s.lin s'.lin ∧ (leak' = leak ∨ CreateFailed s') := by
  have lift : (∃ base' v', LInv c s' base' v' leak ∧ v'.ch = v.ch) → s'.lin = s.lin → ∃ base' v' leak', LInv c s' base' v' leak' ∧ ChRel c v v' s.lin s'.lin ∧ (leak' = leak ∨ CreateFailed s') :=
    fun ⟨b, v, h, e⟩ hl => ⟨b, v, leak, h, .inl ⟨hl, e⟩, .inl rfl⟩
  have liftR : (∃ base' v', LInv c s' base' v' leak ∧ ChRel c v v' s.lin s'.lin) → ∃ base' v' leak', LInv c s' base' v' leak' ∧ ChRel c v v' s.lin s'.lin ∧ (leak' = leak ∨ CreateFailed s') :=
    fun ⟨b, v, h, e⟩ => ⟨b, v, leak, h, e, .inl rfl⟩
  have lift1 : (∃ v', LInv c s' base v' leak ∧ v'.ch = v.ch) → s'.lin = s.lin → ∃ base' v' leak', LInv c s' base' v' leak' ∧ ChRel c v v' s.lin s'.lin ∧ (leak' = leak ∨ CreateFailed s') :=
    fun ⟨v, h, e⟩ hl => ⟨base, v, leak, h, .inl ⟨hl, e⟩, .inl rfl⟩
  have lift0 : (LInv c s' base v leak) → s'.lin = s.lin → ∃ base' v' leak', LInv c s' base' v' leak' ∧ ChRel c v v' s.lin s'.lin ∧ (leak' = leak ∨ CreateFailed s') :=
    fun h hl => ⟨base, v, leak, h, .inl ⟨hl, rfl⟩, .inl rfl⟩
  cases a with
  | create key size assoc created id =>
    obtain ⟨v', l', h', e1, e2, e3⟩ := step_create hc h (show create c s key size assoc created id = some s' from ha)
    refine ⟨base, v', l', h', .inl ⟨e2, e1⟩, ?_⟩
    rcases e3 with e3 | ⟨st, e3, e4⟩
    · exact .inl e3
    · exact .inr ⟨_, _, e3, rfl, key, size, e4⟩
  | createWritten i =>
    simp only [act] at ha
    split at ha
    · rename_i st o off hth
      cases ha
      exact lift (step_createWritten hc h (t := ⟨st, .createWrite o off⟩) hth rfl) rfl
    · cases ha
  | createLink i idle =>
    simp only [act] at ha
    split at ha
    · rename_i st o off hth
      split at ha
      · rename_i hl
        cases ha
        obtain ⟨v1, y1, y2⟩ := step_link hc h ⟨st, .dead⟩ hth rfl hl idle
        exact ⟨base, v1, leak, y1, y2, .inl rfl⟩
      · cases ha
    · cases ha
  | lookup req key =>
    simp only [act] at ha
    split at ha
    · rename_i hl
      cases ha
      exact lift0 (step_lookup hc h hl) rfl
    · cases ha
  | read i =>
    simp only [act] at ha
    split at ha
    · rename_i st req key cur prev inc ex hth
      split at ha
      · cases ha
      · rename_i h0
        cases ha
        exact lift0 (step_read hc h _ hth rfl h0) rfl
    · cases ha
  | inode i idle =>
    simp only [act] at ha
    split at ha
    · rename_i st req key cur prev raw inc ex hth
      cases ha
      exact liftR (step_inode hc h _ hth rfl idle hf)
    · cases ha
  | atEnd i idle =>
    simp only [act] at ha
    split at ha
    · rename_i st req key prev inc ex hth
      cases ha
      exact liftR (step_atEnd hc h _ hth rfl idle hf)
    · cases ha
  | signalled i =>
    simp only [act] at ha
    split at ha
    · rename_i st txn free tickets resp hth
      split at ha
      · rename_i hack
        split at ha
        · rename_i al hrel
          cases ha
          exact lift1 (step_signalled hc h _ hth rfl hack hrel) rfl
        · rename_i hrel
          obtain ⟨al, hal⟩ := release_ok h hth rfl
          rw [hal] at hrel
          cases hrel
      · cases ha
    · cases ha
  | evict i =>
    simp only [act] at ha
    split at ha
    · rename_i st k ks resp hth
      cases ha
      have hcp : copyHeld s k.key = false := by
        simp only [setPc, List.append_eq_nil_iff] at hf
        cases hx : copyHeld s k.key with
        | false => rfl
        | true => simp [hx] at hf
      exact lift1 (step_evict hc h _ hth rfl hcp) rfl
    · cases ha
  | respond i =>
    simp only [act] at ha
    split at ha
    · rename_i hth
      cases ha
      exact lift0 (h.respond i _ _ (fun t2 ht2 => by have ht2 : s.thr i = some t2 := ht2; rw [hth] at ht2; cases ht2; trivial)) rfl
    · cases ha
  | data i n skip bytes =>
    simp only [act] at ha
    split at ha
    · rename_i st key wid targets hth
      split at ha
      · rename_i amount page htg
        split at ha
        · rename_i hl
          cases ha
          exact lift (step_data hc h hth rfl htg hl) rfl
        · cases ha
      · cases ha
    · cases ha
  | writeEnd i r =>
    simp only [act] at ha
    split at ha
    · rename_i hth
      cases ha
      exact lift0 (h.respond i _ _ (fun t2 ht2 => by have ht2 : s.thr i = some t2 := ht2; rw [hth] at ht2; cases ht2; trivial)) rfl
    · cases ha
  | drop i =>
    simp only [act] at ha
    split at ha
    · rename_i hth
      cases ha
      exact lift0 (h.setPc (h.thr i _ hth).1 trivial (LockOk.none rfl) (fun t2 ht2 => by have ht2 : s.thr i = some t2 := ht2; rw [hth] at ht2; cases ht2; trivial)) rfl
    · rename_i hth
      cases ha
      exact lift0 (h.setPc (h.thr i _ hth).1 trivial (LockOk.none rfl) (fun t2 ht2 => by have ht2 : s.thr i = some t2 := ht2; rw [hth] at ht2; cases ht2; trivial)) rfl
    · cases ha
  | cancel i n bytes =>
    simp only [act] at ha
    split at ha
    · split at ha
      · split at ha
        · cases ha
          simp [setPc] at hf
        · cases ha
      · cases ha
    · cases ha
  | orphan n =>
    simp only [act, h.orph] at ha
    simp at ha

theorem step_act {c : LCfg} (hc : c.Ok) {s : LSt} {base : Mem} {v : V} {leak : List (Nat × Nat)} (h : LInv c s base v leak) {s' : LSt} {a : Act}
    (ha : act c s a = some s') (hf : s'.faults = []) : ∃ base' v' leak', LInv c s' base' v' leak' ∧ ChRel c v v' s.lin s'.lin := by
  obtain ⟨b, v', l, h1, h2, _⟩ := step_act' hc h ha hf
  exact ⟨b, v', l, h1, h2⟩

/-! ## A formatted device -/

theorem head_zero (dev : Mem) {d bits b : Nat} (hb : b < 2 ^ bits) :
    rdHead (dev.write d (List.replicate (bucketsSize (2 ^ bits)) 0)) d b = 0 := by
  unfold rdHead rdBe
  have e : (dev.write d (List.replicate (bucketsSize (2 ^ bits)) 0)).read (d + bucketOff b) 5 = List.replicate 5 0 := by
    rw [Mem.read_write_sub _ _ _ _ _ (by simp [bucketOff, bucketsSize]; omega)]
    rw [List.drop_replicate, List.take_replicate]
    congr 1
    simp only [bucketOff, bucketsSize]; omega
  rw [e]
  decide

theorem fresh_inv' {c : LCfg} (hc : c.Ok) {dev : Mem} {s : LSt} (hs : fresh c dev = some s) : ∃ base v, LInv c s base v [] := by
  unfold fresh at hs
  split at hs
  · rename_i a ha
    cases hs
    refine ⟨_, ⟨_, [], {}, [], fun _ => []⟩, ⟨jinv_init hc.jok _, rfl, rfl, rfl, ?_, ?_, ?_, ?_, ?_, rfl, by simp⟩⟩
    · exact Buddy.new_inv ha
    · refine { toCells := ⟨by simp, ?_, ?_, ?_, ?_⟩, toLists := ⟨by simp, by simp, by simp, by simp, ?_⟩, toBase := ⟨by simp, by simp, by simp⟩ }
      · intro k a x _ h; cases h
      · intro k a _ _ t ht; cases ht
      · intro id h; simp at h
      · intro k n x h; cases h
      · intro b hb
        show rdHead _ c.bkDev b = 0
        exact head_zero dev hb
    · intro i t h; cases h
    · intro i t j t' _ h; cases h
    · rfl
  · cases hs

theorem fresh_inv {c : LCfg} (hc : c.Ok) {dev : Mem} {s : LSt} (hs : fresh c dev = some s) : ∃ base v leak, LInv c s base v leak := by
  obtain ⟨base, v, h⟩ := fresh_inv' hc hs
  exact ⟨base, v, [], h⟩

/-- as long as none of the recorded faults has happened, the invariant holds -/
theorem reach_inv {c : LCfg} (hc : c.Ok) {s : LSt} (hr : Reach c s) (hf : s.faults = []) : ∃ base v leak, LInv c s base v leak := by
  induction hr with
  | fresh h => exact fresh_inv hc h
  | step hr hs ih =>
    cases hs with
    | act a h =>
      obtain ⟨base, v, leak, hi⟩ := ih (act_faults h hf)
      obtain ⟨b', v', l', h', _⟩ := step_act hc hi h hf
      exact ⟨b', v', l', h'⟩
    | journal h hh =>
      obtain ⟨base, v, leak, hi⟩ := ih hf
      obtain ⟨b', v', h', _⟩ := step_journal hc hi h hh
      exact ⟨b', v', leak, h'⟩

end Lite
end Blobd
