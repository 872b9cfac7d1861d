import Verif.Proofs.LiteStep3
set_option autoImplicit false
/-! # Steps of the lite store: what a call does with the object it found -/
namespace Blobd
namespace Lite
open Spec

/-! ## The abstract store behind the lists -/

section
variable {c : LCfg} {v : V} {key : List Byte} {p : Ver → Bool}

theorem abs_find_none (hv : ∀ r' ∈ v.ch (c.bkt key), r'.o.key = key → p (ver v.L r') = false) : (absOf c v key).find? p = none := by
  rw [List.find?_eq_none]
  intro x hx
  obtain ⟨r, h1, h2⟩ := List.mem_map.1 hx
  rw [List.mem_filter] at h1
  rw [← h2, hv r h1.1 (by simpa using h1.2)]
  simp

theorem abs_find_some {vis rest : List Rec} {r : Rec} (hch : v.ch (c.bkt key) = vis ++ r :: rest)
    (hv : ∀ r' ∈ vis, r'.o.key = key → p (ver v.L r') = false) (hr : r.o.key = key) (hp : p (ver v.L r) = true) :
    (absOf c v key).find? p = some (ver v.L r) := by
  unfold absOf
  rw [hch, List.filter_append, List.filter_cons, if_pos (by simpa using hr), List.map_append, List.find?_append, List.map_cons, List.find?_cons,
    hp]
  have : ((vis.filter (fun r => decide (r.o.key = key))).map (ver v.L)).find? p = none := by
    rw [List.find?_eq_none]
    intro x hx
    obtain ⟨r', h1, h2⟩ := List.mem_map.1 hx
    rw [List.mem_filter] at h1
    rw [← h2, hv r' h1.1 (by simpa using h1.2)]
    simp
  rw [this]
  rfl

end

theorem one_step {a a' : Abs} {e : Ev} (h : ∀ k, ∀ x ∈ a k, ∀ y ∈ a k, x.committed = true → y.committed = true → x.id = y.id)
    (hs : absStep false a e = some a') : ∀ k, ∀ x ∈ a' k, ∀ y ∈ a' k, x.committed = true → y.committed = true → x.id = y.id := by
  cases e with
  | created k id size =>
    simp only [absStep, Option.some.injEq] at hs
    subst hs
    intro k' x hx y hy c1 c2
    simp only [Abs.set] at hx hy
    split at hx
    · rename_i e
      rw [if_pos e] at hy
      rcases List.mem_cons.1 hx with rfl | hx
      · cases c1
      · rcases List.mem_cons.1 hy with rfl | hy
        · cases c2
        · exact h k x hx y hy c1 c2
    · rename_i e
      rw [if_neg e] at hy
      exact h k' x hx y hy c1 c2
  | committed k id =>
    simp only [absStep] at hs
    split at hs
    · simp only [Option.some.injEq] at hs
      subst hs
      intro k' x hx y hy c1 c2
      simp only [Abs.set] at hx hy
      split at hx
      · rename_i e
        rw [if_pos e] at hy
        have key : ∀ z ∈ ((a k).filter (fun v => false || !v.committed)).map (fun v => if v.id = id then { v with committed := true } else v),
            z.committed = true → z.id = id := by
          intro z hz cz
          obtain ⟨w, h1, h2⟩ := List.mem_map.1 hz
          split at h2
          · rename_i e; rw [← h2]; exact e
          · rw [← h2] at cz
            have := (List.mem_filter.1 h1).2
            simp [cz] at this
        rw [key x hx c1, key y hy c2]
      · rename_i e
        rw [if_neg e] at hy
        exact h k' x hx y hy c1 c2
    · cases hs
  | removed k want id =>
    simp only [absStep] at hs
    split at hs
    · split at hs
      · simp only [Option.some.injEq] at hs
        subst hs
        intro k' x hx y hy c1 c2
        simp only [Abs.set] at hx hy
        split at hx
        · rename_i e
          rw [if_pos e] at hy
          exact h k x (List.mem_of_mem_filter hx) y (List.mem_of_mem_filter hy) c1 c2
        · rename_i e
          rw [if_neg e] at hy
          exact h k' x hx y hy c1 c2
      · cases hs
    · cases hs
  | found k want id size =>
    simp only [absStep] at hs
    split at hs
    · split at hs
      · simp only [Option.some.injEq] at hs; subst hs; exact h
      · cases hs
    · cases hs
  | missing k want =>
    simp only [absStep] at hs
    split at hs
    · simp only [Option.some.injEq] at hs; subst hs; exact h
    · cases hs
  | opened k id size =>
    simp only [absStep] at hs
    split at hs
    · split at hs
      · simp only [Option.some.injEq] at hs; subst hs; exact h
      · cases hs
    · cases hs
  | refused k id =>
    simp only [absStep] at hs
    split at hs
    · simp only [Option.some.injEq] at hs; subst hs; exact h
    · cases hs

/-- without versioning a key has at most one committed version -/
theorem absRun_one {evs : List Ev} : ∀ {a : Abs}, absRun false evs = some a →
    ∀ k, ∀ x ∈ a k, ∀ y ∈ a k, x.committed = true → y.committed = true → x.id = y.id := by
  induction evs using List.reverseRecOn with
  | nil =>
    intro a h k x hx
    simp only [absRun, List.foldlM_nil, Option.pure_def, Option.some.injEq] at h
    subst h
    cases hx
  | append_singleton evs e ih =>
    intro a h
    unfold absRun at h
    rw [List.foldlM_append] at h
    cases h1 : evs.foldlM (absStep false) (fun _ => []) with
    | none => rw [h1] at h; cases h
    | some a1 =>
      rw [h1] at h
      exact one_step (ih h1) (by simpa using h)

section
variable {c : LCfg} (hc : c.Ok) {s : LSt} {base : Mem} {v : V} {leak : List (Nat × Nat)} (h : LInv c s base v leak)
include hc h

theorem linked_of {b : Nat} {r : Rec} (hr : r ∈ v.ch b) : (Own.linked, r) ∈ v.recs := by rw [h.good.lnk, h.good.chb b r hr]; exact hr

theorem states {b : Nat} {r : Rec} (hr : r ∈ v.ch b) : rdState v.L r.off = stIncomplete ∨ rdState v.L r.off = stCommitted :=
  (h.good.att r (linked_of hc h hr)).2


/-- libblobd-lite/src/bucket.rs:202-253 -/
theorem unlink_ok (i : Nat) {b : Nat} (hb : b < 2 ^ c.bits) {pre : List Rec} {e : Rec} {post : List Rec} (hch : v.ch b = pre ++ e :: post)
    {f : Found} (hoff : f.off = e.off) (hprev : f.prev = prevOff pre) (hcp : Copy v e f.raw) {s1 : LSt} {tk : Overlay.Ticket Cell}
    {ws : List (Nat × List Byte)} {free : List (Nat × Nat)} (hu : unlink c s b f = some (s1, tk, ws, free)) (hf : s1.faults = []) :
    ∃ base1 v1, JInv c.jc base1 s1.j ∧ Mid c s.ids v v1 i b (logical base1 s1.j) ws ∧ v1.ov = s1.ov ∧ unacked s1.j = unacked s.j ∧
      s1.j.hist = s.j.hist ∧ free = regs c.pages e ∧ (Own.dying i, e) ∈ v1.recs ∧
      (∀ r', (Own.linked, r') ∈ v.recs → r'.off ≠ e.off → (Own.linked, r') ∈ v1.recs) ∧
      absOf c v1 = (absOf c v).set e.o.key ((absOf c v e.o.key).filter (fun x => x.id ≠ e.o.id)) ∧
      (s1.alloc = s.alloc ∧ s1.thr = s.thr ∧ s1.nextCall = s.nextCall ∧ s1.orphans = s.orphans ∧ s1.ids = s.ids ∧ s1.lin = s.lin) ∧
      tk.serial < v1.ov.nextSerial ∧ (ws = [] → ∀ a, ¬ CellAt c v1 tk.key a) ∧ ws.length ≤ 1 ∧ v1.ch = upd v.ch b (pre ++ post) ∧
      (∀ x ∈ v1.recs, x.1 = .linked ∨ x ∈ v.recs ∨ (x.1 = .dying i ∧ free = regs c.pages x.2)) := by
  have g := h.good
  have ge := h.geo hc
  have he : (Own.linked, e) ∈ v.recs := linked_of hc h (b := b) (by rw [hch]; simp)
  have hnn : rawNext s f.raw = rdNext v.L e.off := copy_next g h.ov he hcp
  have hat := dev_at hc g ge h.jinv h.L h.U he
  have hrp := recPages_eq hc.rw hat (g.fit _ he).1
  unfold unlink at hu
  rw [hoff, hcp.pow2] at hu
  rw [hrp] at hu
  have hdy : (Own.dying i, e) ∈ setOwn v.recs e.off (.dying i) := mem_setOwn.2 (.inr ⟨rfl, rfl, _, he⟩)
  have hot : ∀ r', (Own.linked, r') ∈ v.recs → r'.off ≠ e.off → (Own.linked, r') ∈ setOwn v.recs e.off (.dying i) :=
    fun r' h1 h2 => mem_setOwn.2 (.inl ⟨h2, h1⟩)
  have hwn : ∀ x ∈ setOwn v.recs e.off (.dying i), x.1 = .linked ∨ x ∈ v.recs ∨ (x.1 = .dying i ∧ regs c.pages e = regs c.pages x.2) := by
    intro x hx
    rcases mem_setOwn.1 hx with ⟨_, h2⟩ | ⟨h1, h2, o, h3⟩
    · exact .inr (.inl h2)
    · have := g.toBase.uniq h3 he h1
      cases this
      exact .inr (.inr ⟨h2, rfl⟩)
  rcases List.eq_nil_or_concat pre with rfl | ⟨pre', p, rfl⟩
  · have hprev : f.prev = none := hprev
    rw [hprev] at hu
    simp only [Option.some.injEq, Prod.mk.injEq] at hu
    obtain ⟨rfl, rfl, rfl, rfl⟩ := hu
    obtain ⟨_, l2, _⟩ := lists_unlink (i := i) hc g.toBase ge g.toLists (pre := []) hch (L' := _) (.inl ⟨rfl, rfl⟩)
    have m := Mid.unlinkHead hc g ge hb (i := i) hch hnn
    refine ⟨base, _, h.jinv, (by rw [← h.L]; exact m), ?_, rfl, rfl, rfl, hdy, hot, ?_, ⟨rfl, rfl, rfl, rfl, rfl, rfl⟩, ?_, ?_, Nat.le_refl _, rfl, hwn⟩
    · simp only [h.ov]
    · refine Eq.trans ?_ l2
      simp only [hnn]; rfl
    · simp only [Overlay.Ov.set, h.ov]; omega
    · intro hcon; cases hcon
  · rw [List.concat_eq_append] at hch hprev
    have hprev : f.prev = some p.off := by rw [hprev]; simp [prevOff]
    rw [hprev] at hu
    simp only [Option.some.injEq, Prod.mk.injEq] at hu
    obtain ⟨rfl, rfl, rfl, rfl⟩ := hu
    have hp : (Own.linked, p) ∈ v.recs := linked_of hc h (b := b) (by rw [hch]; simp)
    have hpid : rdId s.j.dev p.off = p.o.id := ((dev_at hc g ge h.jinv h.L h.U hp).fields (g.fit _ hp).1).2.2.1
    have hpn : v.ov.map (.next p.o.id) = none := by
      simp only [List.append_eq_nil_iff] at hf
      have h1 := hf.1
      rw [hpid] at h1
      cases hm : v.ov.map (.next p.o.id) with
      | none => rfl
      | some x =>
        rw [h.ov] at hm
        simp [Overlay.Ov.get, hm] at h1
    obtain ⟨_, l2, _⟩ := lists_unlink (i := i) hc g.toBase ge g.toLists hch (L' := _) (.inr ⟨pre', p, rfl, rfl⟩)
    have m := Mid.unlinkMid hc g ge hb (i := i) hch hnn hpn
    have hquiet := g.quiet (.next p.o.id) (p.off + 2) (cellAt_next hp) hpn
    obtain ⟨j1, j2⟩ := h.jinv.extWrite (a := p.off + 2) (d := beBytes 6 (rawNext s f.raw)) (by
      intro t ht w hw
      rw [← h.U] at ht
      by_contra hcon
      rw [not_or] at hcon
      have hwl : 0 < w.2.length := by
        rcases g.pend t ht w hw with ⟨_, _, _, e⟩ | ⟨_, _, _, ⟨_, e⟩ | ⟨_, e⟩⟩ <;> omega
      have hbl : (beBytes 6 (rawNext s f.raw)).length = 6 := by simp
      have hoffp := ge.off hp
      simp only at hoffp
      have hy : ∃ y, w.1 ≤ y ∧ y < w.1 + w.2.length ∧ p.off + 2 ≤ y ∧ y < p.off + 8 := by
        by_cases e : w.1 ≤ p.off + 2
        · exact ⟨p.off + 2, by omega, by omega, by omega, by omega⟩
        · exact ⟨w.1, by omega, by omega, by omega, by omega⟩
      obtain ⟨y, y1, y2, y3, y4⟩ := hy
      have := (pend_at_rec hc g ge hp ht hw y1 y2 (by simp only; omega) (by simp only; omega)).2
      simp only at this
      obtain ⟨n, hn, _⟩ := hquiet t ht w hw (by omega)
      cases hn) (by
      have := hc.journal
      have hoffp := ge.off hp
      simp only at hoffp
      right; omega)
    refine ⟨_, ⟨v.L.write (p.off + 2) (beBytes 6 (rawNext s f.raw)), v.U, (v.ov.set (.next e.o.id) (rawNext s f.raw)).1,
      setOwn v.recs e.off (.dying i), upd v.ch b ((pre' ++ [p]) ++ post)⟩, j1, ?_, ?_, rfl, rfl, rfl, hdy, hot, ?_, ⟨rfl, rfl, rfl, rfl, rfl, rfl⟩, ?_, ?_, Nat.zero_le _, by rw [List.concat_eq_append], hwn⟩
    · show Mid c s.ids v _ i b (logical (base.write (p.off + 2) (beBytes 6 (rawNext s f.raw)))
        { s.j with dev := s.j.dev.write (p.off + 2) (beBytes 6 (rawNext s f.raw)) }) []
      rw [j2, ← h.L]
      exact m
    · simp only [h.ov, hcp.id]
    · refine Eq.trans ?_ l2
      simp only [hnn]; rfl
    · simp only [Overlay.Ov.set, h.ov]; omega
    · rintro - a ⟨r', h1, h2, _⟩
      simp only [Overlay.Ov.set, hcp.id] at h2
      rcases mem_setOwn.1 h1 with ⟨h3, h4⟩ | ⟨_, h3, _⟩
      · have := g.toBase.uniqId h4 he h2
        cases this
        exact h3 rfl
      · cases h3

/-- a call has changed its bucket, commits its transaction and starts waiting -/
theorem finish_ok {i : Nat} {t : Thread} (t' : Thread) (ht : s.thr i = some t) {b : Nat} (hl : t.pc.lock c = some (b, true)) {s2 : LSt} {base1 : Mem}
    {v1 : V} {ws : List (Nat × List Byte)} (hj : JInv c.jc base1 s2.j) (m : Mid c s.ids v v1 i b (logical base1 s2.j) ws) (hov : v1.ov = s2.ov)
    (hU : unacked s2.j = unacked s.j) (hlen : ws.length ≤ 2) {ev : Ev} (hev : absStep c.versioning (absOf c v) ev = some (absOf c v1))
    (hs2 : s2.alloc = s.alloc ∧ s2.thr = s.thr ∧ s2.nextCall = s.nextCall ∧ s2.orphans = s.orphans ∧ s2.ids = s.ids ∧ s2.lin = s.lin ++ [(i, ev)])
    {tickets : List (Overlay.Ticket Cell)} (htk : ∀ tk ∈ tickets, tk.serial < v1.ov.nextSerial ∧ (ws = [] → ∀ a, ¬ CellAt c v1 tk.key a))
    {free : List (Nat × Nat)} (hfree : free = [] ∨ ∃ r, (Own.dying i, r) ∈ v1.recs ∧ free = regs c.pages r ∧
      (ws = [] → Done v.U none r.off ∧ Done v.U none (r.off + 2)))
    (hwn : ∀ x ∈ v1.recs, x.1 = .linked ∨ x ∈ v.recs ∨ (x.1 = .dying i ∧ free = regs c.pages x.2)) (hq : t.pc.quiet) (resp : Resp) (idle : Bool) (fs : List Fault) :
    ∃ v', LInv c (setPc { (commitTxn c s2 idle ws).1 with faults := fs } i t' (.wait (commitTxn c s2 idle ws).2 free tickets resp)) base1 v' leak ∧ v'.ch = v1.ch ∧
      (commitTxn c s2 idle ws).1.lin = s.lin ++ [(i, ev)] := by
  have ge := h.geo hc
  obtain ⟨q1, q2, q3, q4, q5, q6⟩ := hs2
  have hcon : ∃ j' ts, commitTxn c s2 idle ws = ({ s2 with j := j' }, if ws = [] then none else some s2.j.hist.length) ∧ JInv c.jc base1 j' ∧
      (ts = [] ∨ ∃ t, ts = [t] ∧ t.writes = ws) ∧ unacked j' = unacked s2.j ++ ts ∧ logical base1 j' = (logical base1 s2.j).writeAll ws ∧
      (ws = [] → ts = []) ∧ ∀ t ∈ unacked s2.j ++ ts, t.id ≤ s2.j.hist.length := by
    by_cases hne : ws = []
    · subst hne
      refine ⟨s2.j, [], by rw [commitTxn_nil]; rfl, hj, .inl rfl, by simp, rfl, fun _ => rfl, ?_⟩
      intro t ht
      rw [List.append_nil] at ht
      exact Nat.le_of_lt (hj.id_ge ht).2
    · obtain ⟨j', t1, e1, e2, e3, e4, e5, e6⟩ := commitTxn_ok hc hj idle hne hlen (m.away hc ge)
      exact ⟨j', [t1], by rw [e1, if_neg hne], e2, .inr ⟨t1, rfl, e5⟩, e3, e6, fun e => absurd e hne, hj.id_le rfl e4⟩
  obtain ⟨j', ts, e1, e2, e3, e4, e5, e6, e7⟩ := hcon
  rw [e1]
  obtain ⟨f1, f2⟩ := m.finish hc h.good.toBase ge e3
  have hdone : ∀ a, (ws = [] → Done v.U none a) → Done (v.U ++ ts) (if ws = [] then none else some s2.j.hist.length) a := by
    intro a ha
    by_cases hne : ws = []
    · rw [if_pos hne, e6 hne, List.append_nil]; exact ha hne
    · rw [if_neg hne]
      apply done_all
      rw [h.U, ← hU]; exact e7
  refine ⟨{ v1 with U := v.U ++ ts }, h.build f2 ?_ ?_ ?_ ?_ ?_ ?_ ?_ ?_ ?_ ?_ ?_ ?_ ?_ ?_, rfl, q6⟩
  · exact e2
  · show v1.L = logical base1 j'
    rw [e5, m.L]
  · show v.U ++ ts = unacked j'
    rw [e4, hU, h.U]
  · exact hov
  · show Heap c v1.recs s2.alloc leak
    rw [q1]
    exact heap_snd m.snd h.heap
  · show Good c _ s2.ids
    rw [q5]; exact f1
  · intro j hjne
    show upd s2.thr i _ j = s.thr j
    rw [q2]; simp [upd, hjne]
  · show s.nextCall ≤ s2.nextCall
    omega
  · intro t2 ht2
    have : t2 = { t' with pc := .wait (if ws = [] then none else some s2.j.hist.length) free tickets resp } := by
      simpa [setPc, upd] using ht2.symm
    rw [this]
    refine ⟨?_, ⟨?_, ?_⟩, LockOk.none rfl⟩
    · show i < s2.nextCall
      rw [q3]; exact (h.thr i t ht).1
    · intro tk hm
      obtain ⟨k1, k2⟩ := htk tk hm
      exact ⟨k1, fun x _ a ha => hdone a (fun hw => absurd (cellAt_U.1 ha) (k2 hw a))⟩
    · rcases hfree with hfree | ⟨r, r1, r2, r3⟩
      · exact .inl hfree
      · exact .inr ⟨r, r1, r2, hdone _ (fun hw => (r3 hw).1), hdone _ (fun hw => (r3 hw).2)⟩
  · exact others_out hc h (h.lockOk ht) hl
  · exact fun _ _ _ _ _ _ => ⟨fun h => h, fun h => h⟩
  · show absRun c.versioning (s2.lin.map (·.2)) = some (absOf c v1)
    rw [q6, List.map_append, List.map_cons, List.map_nil, absRun_snoc h.abs]
    exact hev
  · show s2.orphans = []
    rw [q4]; exact h.orph
  · intro x hx
    rcases hwn x hx with h1 | h1 | h1
    · exact .inl h1
    · refine .inr (.inl ⟨h1, fun t2 ht2 => ?_⟩)
      rw [ht] at ht2
      cases ht2
      exact hq.not_owns x
    · exact .inr (.inr ⟨{ t' with pc := .wait (if ws = [] then none else some s2.j.hist.length) free tickets resp },
        by simp [setPc, upd], h1⟩)

end
end Lite
end Blobd
