import Verif.Proofs.LiteMid
set_option autoImplicit false
/-! # The invariant of the lite store, and steps that do not change a bucket -/
namespace Blobd
namespace Lite
open Spec

/-- call `i`, at `pc`, owns the record `x` -/
def Owns (c : LCfg) (i : Nat) (pc : PC) (x : Own × Rec) : Prop :=
  match pc with
  | .createWrite o off => x = (Own.fresh i, ⟨off, o⟩)
  | .createLink o off => x = (Own.fresh i, ⟨off, o⟩)
  | .wait _ free _ _ => x.1 = Own.dying i ∧ free = regs c.pages x.2
  | _ => False

/-- a call at `pc` owns no record -/
def PC.quiet : PC → Prop
  | .createWrite .. => False
  | .createLink .. => False
  | .wait _ free _ _ => free = []
  | _ => True

theorem regs_ne_nil (pages : Pages) (r : Rec) : regs pages r ≠ [] := by simp [regs]

theorem PC.quiet.not_owns {c : LCfg} {i : Nat} {pc : PC} (h : pc.quiet) (x : Own × Rec) : ¬ Owns c i pc x := by
  intro ho
  cases pc with
  | createWrite _ _ => exact h
  | createLink _ _ => exact h
  | wait _ free _ _ =>
    have h : free = [] := h
    exact regs_ne_nil _ _ (ho.2.symm.trans h)
  | walk _ _ _ _ _ _ _ => exact ho
  | writing _ _ _ => exact ho
  | evict _ _ => exact ho
  | dead => exact ho

structure LInv (c : LCfg) (s : LSt) (base : Mem) (v : V) (leak : List (Nat × Nat)) : Prop where
  jinv : JInv c.jc base s.j
  L : v.L = logical base s.j
  U : v.U = unacked s.j
  ov : v.ov = s.ov
  heap : Heap c v.recs s.alloc leak
  good : Good c v s.ids
  thr : ∀ i t, s.thr i = some t → i < s.nextCall ∧ PcOk c v i t.pc
  lock : ∀ i t j t', i ≠ j → s.thr i = some t → s.thr j = some t' → ∀ b e e', t.pc.lock c = some (b, e) →
    t'.pc.lock c = some (b, e') → e = false ∧ e' = false
  abs : absRun c.versioning (s.lin.map (·.2)) = some (absOf c v)
  orph : s.orphans = []
  own : ∀ x ∈ v.recs, x.1 = .linked ∨ ∃ j t, s.thr j = some t ∧ Owns c j t.pc x

/-- what changes in the ownership of records when only call `i` moves -/
def OwnTo (c : LCfg) (s s' : LSt) (v v' : V) (i : Nat) : Prop :=
  ∀ x ∈ v'.recs, x.1 = .linked ∨ (x ∈ v.recs ∧ ∀ t, s.thr i = some t → ¬ Owns c i t.pc x) ∨ ∃ t, s'.thr i = some t ∧ Owns c i t.pc x

theorem OwnTo.quiet {c : LCfg} {s s' : LSt} {v v' : V} {i : Nat} (hr : ∀ x ∈ v'.recs, x ∈ v.recs) (hq : ∀ t, s.thr i = some t → t.pc.quiet) :
    OwnTo c s s' v v' i := fun x hx => .inr (.inl ⟨hr x hx, fun t ht => (hq t ht).not_owns x⟩)

/-- call `i`'s lock agrees with the locks of the others -/
def LockOk (c : LCfg) (s : LSt) (i : Nat) (pc : PC) : Prop :=
  ∀ b e, pc.lock c = some (b, e) → ∀ j t', j ≠ i → s.thr j = some t' → ∀ e', t'.pc.lock c = some (b, e') → e = false ∧ e' = false

theorem LInv.lockOk {c : LCfg} {s : LSt} {base : Mem} {v : V} {leak : List (Nat × Nat)} (h : LInv c s base v leak) {i : Nat}
    {t : Thread} (ht : s.thr i = some t) : LockOk c s i t.pc :=
  fun b e he j t' hj ht' e' he' => h.lock i t j t' (fun e => hj e.symm) ht ht' b e e' he he'

theorem LockOk.none {c : LCfg} {s : LSt} {i : Nat} {pc : PC} (h : pc.lock c = none) : LockOk c s i pc :=
  fun b e he => by rw [h] at he; cases he

theorem LInv.build {c : LCfg} {s s' : LSt} {base base' : Mem} {v v' : V} {leak leak' : List (Nat × Nat)} (h : LInv c s base v leak)
    {i : Nat} {P : Nat → Prop} {E : Cell → Prop} (k : Keep c v v' i P E) (jinv : JInv c.jc base' s'.j) (L : v'.L = logical base' s'.j)
    (U : v'.U = unacked s'.j) (ov : v'.ov = s'.ov) (heap : Heap c v'.recs s'.alloc leak') (good : Good c v' s'.ids)
    (hthr : ∀ j, j ≠ i → s'.thr j = s.thr j) (hn : s.nextCall ≤ s'.nextCall)
    (hi : ∀ t, s'.thr i = some t → i < s'.nextCall ∧ PcOk c v' i t.pc ∧ LockOk c s i t.pc)
    (hP : ∀ j t, j ≠ i → s.thr j = some t → ∀ b e, t.pc.lock c = some (b, e) → ¬ P b)
    (hE : ∀ j t, j ≠ i → s.thr j = some t → ∀ raw ∈ t.pc.raws, ¬ E (.state (rdId (ofBytes raw) 0)) ∧ ¬ E (.next (rdId (ofBytes raw) 0)))
    (abs : absRun c.versioning (s'.lin.map (·.2)) = some (absOf c v')) (orph : s'.orphans = []) (hown : OwnTo c s s' v v' i) : LInv c s' base' v' leak' := by
  refine ⟨jinv, L, U, ov, heap, good, ?_, ?_, abs, orph, ?_⟩
  · intro j t ht
    by_cases e : j = i
    · subst e; exact ⟨(hi t ht).1, (hi t ht).2.1⟩
    · rw [hthr j e] at ht
      obtain ⟨h1, h2⟩ := h.thr j t ht
      exact ⟨Nat.lt_of_lt_of_le h1 hn, h2.keep k e (hP j t e ht) (hE j t e ht)⟩
  · intro j t j' t' hne ht ht' b e e' he he'
    by_cases e1 : j = i
    · subst e1
      rw [hthr j' (fun e => hne e.symm)] at ht'
      exact (hi t ht).2.2 b e he j' t' (fun e => hne e.symm) ht' e' he'
    · by_cases e2 : j' = i
      · subst e2
        rw [hthr j e1] at ht
        exact ((hi t' ht').2.2 b e' he' j t e1 ht e he).symm
      · rw [hthr j e1] at ht
        rw [hthr j' e2] at ht'
        exact h.lock j t j' t' hne ht ht' b e e' he he'
  · intro x hx
    rcases hown x hx with h1 | ⟨h1, h2⟩ | ⟨t, h1, h2⟩
    · exact .inl h1
    · rcases h.own x h1 with h3 | ⟨j, t, h3, h4⟩
      · exact .inl h3
      · by_cases e : j = i
        · subst e; exact absurd h4 (h2 t h3)
        · exact .inr ⟨j, t, by rw [hthr j e]; exact h3, h4⟩
    · exact .inr ⟨i, t, h1, h2⟩

theorem LInv.noCall {c : LCfg} {s : LSt} {base : Mem} {v : V} {leak : List (Nat × Nat)} (h : LInv c s base v leak) {P : Thread → Prop} :
    ∀ t, s.thr s.nextCall = some t → P t := fun t ht => absurd (h.thr _ t ht).1 (Nat.lt_irrefl _)

theorem Keep.refl (c : LCfg) (v : V) (i : Nat) : Keep c v v i (fun _ => False) (fun _ => False) where
  ch := fun _ _ => rfl
  cell := fun _ _ _ _ => ⟨rfl, rfl⟩
  ov := fun _ _ _ _ _ _ _ h => h
  fresh := fun _ _ _ h => ⟨h, fun h => h, rfl⟩
  dying := fun _ _ _ h => ⟨h, fun _ ht _ _ _ => ht⟩
  ser := Nat.le_refl _
  tick := fun _ _ _ h _ => ⟨h, fun _ ha => ⟨ha, fun _ ht _ _ _ => ht⟩⟩

/-- only call `i` moves on -/
theorem LInv.same {c : LCfg} {s s' : LSt} {base : Mem} {v : V} {leak : List (Nat × Nat)} (h : LInv c s base v leak) {i : Nat}
    (hj : s'.j = s.j) (hov : s'.ov = s.ov) (hal : s'.alloc = s.alloc) (hids : s'.ids = s.ids) (hor : s'.orphans = s.orphans)
    (hthr : ∀ j, j ≠ i → s'.thr j = s.thr j) (hn : s.nextCall ≤ s'.nextCall)
    (hi : ∀ t, s'.thr i = some t → i < s'.nextCall ∧ PcOk c v i t.pc ∧ LockOk c s i t.pc)
    (abs : absRun c.versioning (s'.lin.map (·.2)) = some (absOf c v)) (hown : OwnTo c s s' v v i) : LInv c s' base v leak :=
  h.build (Keep.refl c v i) (by rw [hj]; exact h.jinv) (by rw [hj]; exact h.L) (by rw [hj]; exact h.U) (by rw [hov]; exact h.ov)
    (by rw [hal]; exact h.heap) (by rw [hids]; exact h.good) hthr hn hi (fun _ _ _ _ _ _ _ h => h)
    (fun _ _ _ _ _ _ => ⟨fun h => h, fun h => h⟩) abs (by rw [hor]; exact h.orph) hown

/-- … with its thread changed to `pc` -/
theorem LInv.setPc {c : LCfg} {s : LSt} {base : Mem} {v : V} {leak : List (Nat × Nat)} (h : LInv c s base v leak) {i : Nat}
    {t : Thread} (hi : i < s.nextCall) {pc : PC} (hp : PcOk c v i pc) (hl : LockOk c s i pc)
    (hq : ∀ t, s.thr i = some t → t.pc.quiet) : LInv c (setPc s i t pc) base v leak := by
  refine h.same (i := i) rfl rfl rfl rfl rfl ?_ (Nat.le_refl _) ?_ h.abs (.quiet (fun _ h => h) hq)
  · intro j hj; simp [Lite.setPc, upd, hj]
  · intro t' ht'
    have : t' = { t with pc := pc } := by simpa [Lite.setPc, upd] using ht'.symm
    rw [this]
    exact ⟨hi, hp, hl⟩

theorem LInv.respond {c : LCfg} {s : LSt} {base : Mem} {v : V} {leak : List (Nat × Nat)} (h : LInv c s base v leak) (i : Nat)
    (t : Thread) (r : Resp) (hq : ∀ t, s.thr i = some t → t.pc.quiet) : LInv c (respond s i t r) base v leak := by
  refine h.same (i := i) rfl rfl rfl rfl rfl ?_ (Nat.le_refl _) ?_ h.abs (.quiet (fun _ h => h) hq)
  · intro j hj; simp [Lite.respond, upd, hj]
  · intro t' ht'
    simp [Lite.respond, upd] at ht'

/-- an event that changes nothing -/
theorem LInv.event {c : LCfg} {s : LSt} {base : Mem} {v : V} {leak : List (Nat × Nat)} (h : LInv c s base v leak) (i : Nat)
    {e : Ev} (he : absStep c.versioning (absOf c v) e = some (absOf c v)) : LInv c (event s i e) base v leak := by
  refine h.same (i := s.nextCall) rfl rfl rfl rfl rfl (fun _ _ => rfl) (Nat.le_refl _) h.noCall ?_ (.quiet (fun _ h => h) h.noCall)
  · have := h.abs
    simp only [Lite.event, List.map_append, List.map_cons, List.map_nil]
    unfold absRun at this ⊢
    rw [List.foldlM_append, this]
    simp [he]

/-- what an event does to the bucket lists -/
def ChEff (c : LCfg) (v v' : V) : Ev → Prop
  | .created k id size => ∃ r : Rec, r.o.id = id ∧ r.o.key = k ∧ r.o.size = size ∧ v'.ch = upd v.ch (c.bkt k) (r :: v.ch (c.bkt k))
  | .removed k _ id => ∃ pre r post, v.ch (c.bkt k) = pre ++ r :: post ∧ r.o.id = id ∧ r.o.key = k ∧ v'.ch = upd v.ch (c.bkt k) (pre ++ post)
  | .committed k _ => v'.ch = v.ch ∨ ∃ pre r post, v.ch (c.bkt k) = pre ++ r :: post ∧ r.o.key = k ∧ rdState v.L r.off = stCommitted ∧
      c.versioning = false ∧ v'.ch = upd v.ch (c.bkt k) (pre ++ post)
  | _ => v'.ch = v.ch

/-- the bucket lists change only by events -/
def ChRel (c : LCfg) (v v' : V) (lin lin' : List (Nat × Ev)) : Prop :=
  (lin' = lin ∧ v'.ch = v.ch) ∨ ∃ i e, lin' = lin ++ [(i, e)] ∧ ChEff c v v' e

theorem absRun_snoc {vs : Bool} {evs : List Ev} {a : Abs} (h : absRun vs evs = some a) (e : Ev) :
    absRun vs (evs ++ [e]) = absStep vs a e := by
  unfold absRun at h ⊢
  rw [List.foldlM_append, h]
  simp

/-- nobody else has the bucket -/
theorem canLock_free {c : LCfg} {s : LSt} {b : Nat} {excl : Bool} (h : canLock c s b excl = true)
    (hb : ∀ i t, s.thr i = some t → i < s.nextCall) : ∀ j t e, s.thr j = some t → t.pc.lock c = some (b, e) → excl = false ∧ e = false := by
  intro j t e ht hl
  unfold canLock at h
  have := List.all_eq_true.1 h j (List.mem_range.2 (hb j t ht))
  rw [ht] at this
  simp only [Option.bind_some, hl] at this
  simpa using this

theorem LInv.geo {c : LCfg} (hc : c.Ok) {s : LSt} {base : Mem} {v : V} {leak : List (Nat × Nat)} (h : LInv c s base v leak) :
    Geo c v.recs := geo_of hc h.heap

theorem LCfg.Ok.rw {c : LCfg} (hc : c.Ok) : RW.PagesOk c.pages := ⟨hc.sl, hc.l32, hc.l24⟩

/-! ## Journal -/

theorem cells_sub {c : LCfg} {v : V} {ids : List Nat} (g : Cells c v ids) {U : List Journal.Txn} (hU : ∀ t ∈ U, t ∈ v.U) :
    Cells c { v with U := U } ids :=
  ⟨fun t ht w hw => g.pend t (hU t ht) w hw, fun k a x h => g.cur k a x (cellAt_U.1 h),
   fun k a h ho t ht w hw e => g.quiet k a (cellAt_U.1 h) ho t (hU t ht) w hw e, g.ovid, g.ser⟩

theorem step_journal {c : LCfg} (hc : c.Ok) {s : LSt} {base : Mem} {v : V} {leak : List (Nat × Nat)} (h : LInv c s base v leak)
    {j' : Journal.State} (hs : Journal.Step c.jc s.j j') (hh : j'.hist = s.j.hist) :
    ∃ base' v', LInv c { s with j := j' } base' v' leak ∧ v'.ch = v.ch := by
  obtain ⟨done, h1, h2, h3⟩ := h.jinv.step hc.jok hs hh
  have hsub : ∀ t ∈ unacked j', t ∈ v.U := by
    intro t ht; rw [h.U, h2]; simp [ht]
  refine ⟨Journal.image base done, { v with U := unacked j' }, ?_, rfl⟩
  refine h.build (i := s.nextCall) (P := fun _ => False) (E := fun _ => False) ?_ h1 ?_ rfl h.ov h.heap ?_ (fun _ _ => rfl)
    (Nat.le_refl _) ?_ (fun _ _ _ _ _ _ _ h => h) (fun _ _ _ _ _ _ => ⟨fun h => h, fun h => h⟩) h.abs h.orph
    (.quiet (fun _ h => h) h.noCall)
  · refine ⟨fun _ _ => rfl, fun _ _ _ _ => ⟨rfl, rfl⟩, fun _ _ _ _ _ _ _ h => h, fun _ _ _ h => ⟨h, fun h => h, rfl⟩, ?_, Nat.le_refl _, ?_⟩
    · intro j r _ hr
      exact ⟨hr, fun t ht _ _ _ => hsub t ht⟩
    · intro k n x hk _
      exact ⟨hk, fun a ha => ⟨cellAt_U.1 ha, fun t ht _ _ _ => hsub t ht⟩⟩
  · show v.L = _
    rw [h.L, logical_step h2]
  · exact { toCells := cells_sub h.good.toCells hsub, toLists := ⟨h.good.att, h.good.lnk, h.good.chb, h.good.chn, h.good.chain⟩,
            toBase := h.good.toBase }
  · intro t ht
    exact absurd (h.thr _ t ht).1 (Nat.lt_irrefl _)

/-! ## Writing pages nobody else has -/

/-- call `i` writes to a page: a data page of a record, or the page of its own new record -/
theorem page_write {c : LCfg} (hc : c.Ok) {s : LSt} {base : Mem} {v : V} {leak : List (Nat × Nat)} (h : LInv c s base v leak) {i : Nat}
    {x : Own × Rec} (hx : x ∈ v.recs) {p : Nat × Nat} (hp : p ∈ regs c.pages x.2) (hown : p ∈ dataPgs c.pages x.2.o ∨ x.1 = .fresh i)
    {a : Nat} {d : List Byte} (h1 : p.1 ≤ a) (h2 : a + d.length ≤ p.1 + 2 ^ p.2) :
    ∃ base', JInv c.jc base' { s.j with dev := s.j.dev.write a d } ∧
      v.L.write a d = logical base' { s.j with dev := s.j.dev.write a d } ∧ Good c { v with L := v.L.write a d } s.ids ∧
      Keep c v { v with L := v.L.write a d } i (fun _ => False) (fun _ => False) ∧ absOf c { v with L := v.L.write a d } = absOf c v := by
  have ge := h.geo hc
  have g := h.good
  have hpg := ge.pg x hx p hp
  have hj1 := hc.journal
  have hb1 := hc.buckets
  -- bytes of other records, and of this record's metadata unless it is new
  have hout : ∀ y ∈ v.recs, y.1 ≠ .fresh i → ∀ z, y.2.off ≤ z → z < y.2.off + 2 ^ y.2.o.metaSizePow2 → v.L.write a d z = v.L z := by
    intro y hy hf z h3 h4
    apply Mem.write_out
    have hd : PageDisj p (y.2.off, y.2.o.metaSizePow2) := by
      by_cases e : x.2.off = y.2.off
      · have exy := rec_unique g hx hy e
        subst exy
        rcases hown with ho | ho
        · exact ge.own x hx p ho
        · exact absurd ho hf
      · exact ge.apart x hx y hy e p hp _ (meta_mem _)
    rcases hd with hd | hd <;> simp only at hd <;> omega
  have hat : ∀ y ∈ v.recs, y.1 ≠ .fresh i → At y.2.o v.L y.2.off → At y.2.o (v.L.write a d) y.2.off := by
    intro y hy hf hA
    refine hA.congr (fun z hz hz' => hout y hy hf z (by omega) ?_)
    have := (g.fit y hy).1.room
    omega
  have hst : ∀ y ∈ v.recs, y.1 ≠ .fresh i → rdState (v.L.write a d) y.2.off = rdState v.L y.2.off := by
    intro y hy hf
    apply rdState_congr
    have := Nat.two_pow_pos y.2.o.metaSizePow2
    exact hout y hy hf _ (Nat.le_refl _) (by omega)
  have hnx : ∀ y ∈ v.recs, y.1 ≠ .fresh i → rdNext (v.L.write a d) y.2.off = rdNext v.L y.2.off := by
    intro y hy hf
    apply rdNext_congr
    intro z h3 h4
    have := (ge.off hy).2.2.2
    exact hout y hy hf _ (by omega) (by omega)
  have hhd : ∀ b, b < 2 ^ c.bits → rdHead (v.L.write a d) c.bkDev b = rdHead v.L c.bkDev b := by
    intro b hb
    apply rdHead_congr
    intro z h3 h4
    apply Mem.write_out
    omega
  obtain ⟨l1, l2⟩ := lists_frame g.toLists hhd (fun r hr => ⟨hat _ hr (by simp) (g.att r hr).1, hst _ hr (by simp), hnx _ hr (by simp)⟩)
  have hqu : ∀ t ∈ unacked s.j, ∀ w ∈ t.writes, a + d.length ≤ w.1 ∨ w.1 + w.2.length ≤ a := by
    intro t ht w hw
    rw [← h.U] at ht
    by_contra hcon
    rw [not_or] at hcon
    have hwl : 0 < w.2.length := by
      rcases g.pend t ht w hw with ⟨_, _, _, e⟩ | ⟨_, _, _, ⟨_, e⟩ | ⟨_, e⟩⟩ <;> omega
    have := Nat.two_pow_pos p.2
    have hy1 : ∃ y, w.1 ≤ y ∧ y < w.1 + w.2.length ∧ p.1 ≤ y ∧ y < p.1 + 2 ^ p.2 := by
      by_cases e : w.1 ≤ a
      · by_cases e' : a < p.1 + 2 ^ p.2
        · exact ⟨a, by omega, by omega, by omega, by omega⟩
        · exact ⟨a - 1, by omega, by omega, by omega, by omega⟩
      · exact ⟨w.1, by omega, by omega, by omega, by omega⟩
    obtain ⟨y, y1, y2, y3, y4⟩ := hy1
    rcases hown with ho | ho
    · have := pend_at_data hc g ge hx ho ht hw y1 y2
      omega
    · unfold regs at hp
      rcases List.mem_append.1 hp with hp | hp
      · have := pend_at_data hc g ge hx hp ht hw y1 y2
        omega
      · rw [List.mem_singleton] at hp
        subst hp
        have := (pend_at_rec hc g ge hx ht hw y1 y2 (by simp only at y3; omega) (by simp only at y4; omega)).1 i
        exact this ho
  obtain ⟨j1, j2⟩ := h.jinv.extWrite (a := a) (d := d) hqu (.inr (by omega))
  refine ⟨base.write a d, j1, by rw [j2, h.L], ?_, ?_, l2⟩
  · refine { toCells := ⟨g.pend, ?_, fun k a hk => g.quiet k a (by cases k <;> exact hk), g.ovid, g.ser⟩, toLists := l1, toBase := g.toBase }
    intro k a' y hk hg
    have hk' : CellAt c v k a' := by cases k <;> exact hk
    rw [← g.cur k a' y hk' hg]
    cases k with
    | head b =>
      have hb : a' = c.bkDev + bucketOff b := hk'.2
      rw [hb]
      exact hhd b hk'.1
    | state id =>
      obtain ⟨r, q1, q2, q3⟩ := hk'
      rw [q3]
      exact hst _ q1 (by simp)
    | next id =>
      obtain ⟨r, q1, q2, q3⟩ := hk'
      rw [q3]
      exact hnx _ q1 (by simp)
  · have hl : ∀ b, ∀ r ∈ v.ch b, (Own.linked, r) ∈ v.recs := fun b r hr => by rw [g.lnk, g.chb b r hr]; exact hr
    refine ⟨fun _ _ => rfl, fun b _ r hr => ⟨hst _ (hl b r hr) (by simp), hnx _ (hl b r hr) (by simp)⟩, fun _ _ _ _ _ _ _ h => h, ?_,
      fun _ _ _ h => ⟨h, fun _ ht _ _ _ => ht⟩, Nat.le_refl _, ?_⟩
    · intro j r hj hr
      exact ⟨hr, hat _ hr (by simpa using hj), hst _ hr (by simpa using hj)⟩
    · intro k n y hk _
      exact ⟨hk, fun a' ha => ⟨by cases k <;> exact ha, fun _ ht _ _ _ => ht⟩⟩

end Lite
end Blobd
