import Verif.Proofs.LiteDev
import Verif.Proofs.LiteLists
set_option autoImplicit false
/-! # What the part of a call that changes a bucket does to the state -/
namespace Blobd
namespace Lite
open Spec

theorem cellAt_U {c : LCfg} {v : V} {U : List Journal.Txn} {k : Cell} {a : Nat} : CellAt c { v with U := U } k a ↔ CellAt c v k a := by
  cases k <;> rfl

theorem width_pos (k : Cell) : 0 < k.width := by cases k <;> simp [Cell.width]

/-- from `v` to `v'` bucket `b` was changed by call `i`, under its lock; `ws` are the writes to journal, `M` is what the
device holds without them -/
structure Mid (c : LCfg) (ids : List Nat) (v v' : V) (i b : Nat) (M : Mem) (ws : List (Nat × List Byte)) : Prop where
  cells : Cells c v' ids
  lists : Lists c v'
  snd : v'.recs.map (·.2) = v.recs.map (·.2)
  U : v'.U = v.U
  ch : ∀ b', b' ≠ b → v'.ch b' = v.ch b'
  cell : ∀ b', b' ≠ b → ∀ r ∈ v.ch b', rdState v'.L r.off = rdState v.L r.off ∧ rdNext v'.L r.off = rdNext v.L r.off
  fresh : ∀ j r, j ≠ i → (Own.fresh j, r) ∈ v.recs → (Own.fresh j, r) ∈ v'.recs ∧ (At r.o v.L r.off → At r.o v'.L r.off) ∧
    rdState v'.L r.off = rdState v.L r.off
  dying : ∀ j r, j ≠ i → (Own.dying j, r) ∈ v.recs → (Own.dying j, r) ∈ v'.recs
  lnk : ∀ k n x a, v'.ov.map k = some (n, x) → n < v.ov.nextSerial → CellAt c v' k a → CellAt c v k a
  ser : v.ov.nextSerial ≤ v'.ov.nextSerial
  ov : ∀ k, v'.ov.map k = v.ov.map k ∨ ∃ n x, v'.ov.map k = some (n, x) ∧ v.ov.nextSerial ≤ n
  jw : ∀ w ∈ ws, ∃ k n x, CellAt c v' k w.1 ∧ w.2.length = k.width ∧ v'.ov.map k = some (n, x) ∧ v.ov.nextSerial ≤ n
  L : v'.L = M.writeAll ws

section
variable {c : LCfg} (hc : c.Ok) {v : V} {ids : List Nat} (ba : Base c v.recs ids) (ge : Geo c v.recs)
include hc ba ge

/-- a record not in a list has no cell at its state byte or its next pointer -/
theorem cell_not_other {k : Cell} {a : Nat} (h : CellAt c v k a) {x : Own × Rec} (hx : x ∈ v.recs) (hn : x.1 ≠ .linked) :
    a + k.width ≤ x.2.off ∨ x.2.off + 8 ≤ a := by
  have o := ge.off hx
  have h1 := hc.buckets
  have h2 := hc.journal
  cases k with
  | head b =>
    obtain ⟨hb, ha⟩ := h
    simp only [bucketOff, Cell.width] at *
    omega
  | state id =>
    obtain ⟨r, hr, _, ha⟩ := h
    have hne : x.2.off ≠ r.off := by
      intro e
      have := ba.uniq hx hr e
      rw [this] at hn
      exact hn rfl
    have m := ge.metas hx hr hne
    have o' := ge.off hr
    simp only [Cell.width] at *
    omega
  | next id =>
    obtain ⟨r, hr, _, ha⟩ := h
    have hne : x.2.off ≠ r.off := by
      intro e
      have := ba.uniq hx hr e
      rw [this] at hn
      exact hn rfl
    have m := ge.metas hx hr hne
    have o' := ge.off hr
    simp only [Cell.width] at *
    omega

theorem state_other {k : Cell} {a : Nat} (h : CellAt c v k a) {x : Own × Rec} (hx : x ∈ v.recs) (hn : x.1 ≠ .linked) (m : Mem)
    {d : List Byte} (hd : d.length = k.width) : rdState (m.write a d) x.2.off = rdState m x.2.off := by
  apply rdState_congr
  apply Mem.write_out
  have := cell_not_other hc ba ge h hx hn
  omega

end

theorem Mid.base {c : LCfg} {ids : List Nat} {v v' : V} {i b : Nat} {M : Mem} {ws : List (Nat × List Byte)}
    (m : Mid c ids v v' i b M ws) (ba : Base c v.recs ids) : Base c v'.recs ids := base_snd m.snd ba

/-- commit the transaction, if there is one -/
theorem Mid.finish {c : LCfg} (hc : c.Ok) {ids : List Nat} {v v' : V} {i b : Nat} {M : Mem} {ws : List (Nat × List Byte)}
    (m : Mid c ids v v' i b M ws) (ba : Base c v.recs ids) (ge : Geo c v.recs) {ts : List Journal.Txn}
    (hts : ts = [] ∨ ∃ t, ts = [t] ∧ t.writes = ws) :
    Good c { v' with U := v.U ++ ts } ids ∧ Keep c v { v' with U := v.U ++ ts } i (· = b) (fun _ => False) := by
  have ba' := base_snd m.snd ba
  have ge' := geo_snd m.snd ge
  have hnew : ∀ t ∈ ts, ∀ w ∈ t.writes, w ∈ ws := by
    intro t ht w hw
    rcases hts with rfl | ⟨t', rfl, e⟩
    · cases ht
    · rw [List.mem_singleton] at ht
      rw [ht, e] at hw; exact hw
  refine ⟨{ toCells := ?_, toLists := ⟨m.lists.att, m.lists.lnk, m.lists.chb, m.lists.chn, m.lists.chain⟩, toBase := ba' }, ?_⟩
  · rcases hts with rfl | ⟨t, rfl, e⟩
    · have e : ({ v' with U := v.U ++ [] } : V) = v' := by rw [List.append_nil, ← m.U]
      rw [e]
      exact m.cells
    · have := cells_txn hc ba' ge' m.cells (t := t) (by
        intro w hw
        rw [e] at hw
        obtain ⟨k, n, x, h1, h2, h3, _⟩ := m.jw w hw
        exact ⟨k, h1, h2, by rw [h3]; simp⟩)
      rw [m.U] at this
      exact this
  · refine ⟨fun b' hb => m.ch b' hb, fun b' hb => m.cell b' hb, ?_, m.fresh, ?_, m.ser, ?_⟩
    · intro b' _ r _ k _ _ ho
      rcases m.ov k with h | ⟨n, x, h, _⟩
      · rw [← h]; exact ho
      · simp only at ho
        rw [h] at ho; cases ho
    · intro j r hj hr
      have hr' := m.dying j r hj hr
      refine ⟨hr', ?_⟩
      intro t ht w hw e
      rcases List.mem_append.1 ht with h | h
      · exact h
      · exfalso
        obtain ⟨k, n, x, h1, h2, _⟩ := m.jw w (hnew t h w hw)
        have := cell_not_other hc ba' ge' h1 hr' (by simp)
        have := width_pos k
        simp only at *
        omega
    · intro k n x ho hn
      have hold : v.ov.map k = some (n, x) := by
        rcases m.ov k with h | ⟨n', x', h, hge⟩
        · rw [← h]; exact ho
        · simp only at ho
          rw [h] at ho
          simp only [Option.some.injEq, Prod.mk.injEq] at ho
          omega
      refine ⟨hold, fun a ha => ?_⟩
      rw [cellAt_U] at ha
      refine ⟨m.lnk k n x a ho hn ha, ?_⟩
      intro t ht w hw e
      rcases List.mem_append.1 ht with h | h
      · exact h
      · exfalso
        obtain ⟨k', n', x', h1, h2, h3, h4⟩ := m.jw w (hnew t h w hw)
        rw [e] at h1
        have ek : k ≠ k' := by
          rintro rfl
          simp only at ho
          rw [h3] at ho
          simp only [Option.some.injEq, Prod.mk.injEq] at ho
          omega
        have := cell_disj hc ba' ge' ha h1 ek
        have := width_pos k
        have := width_pos k'
        omega

/-- nothing changed yet -/
theorem Mid.refl {c : LCfg} {ids : List Nat} {v : V} (g : Good c v ids) (i b : Nat) : Mid c ids v v i b v.L [] where
  cells := g.toCells
  lists := g.toLists
  snd := rfl
  U := rfl
  ch := fun _ _ => rfl
  cell := fun _ _ _ _ => ⟨rfl, rfl⟩
  fresh := fun _ _ _ h => ⟨h, fun h => h, rfl⟩
  dying := fun _ _ _ h => h
  lnk := fun _ _ _ _ _ _ h => h
  ser := Nat.le_refl _
  ov := fun _ => .inl rfl
  jw := fun _ h => by cases h
  L := rfl

theorem set_old {ov : Overlay.Ov Cell Nat} {k : Cell} {x : Nat} (k' : Cell) :
    (ov.set k x).1.map k' = ov.map k' ∨ ∃ n y, (ov.set k x).1.map k' = some (n, y) ∧ ov.nextSerial ≤ n := by
  simp only [Overlay.Ov.set]
  by_cases e : k' = k
  · exact .inr ⟨ov.nextSerial, x, by simp [e], Nat.le_refl _⟩
  · exact .inl (by simp [e])

theorem cells_ch {c : LCfg} {v : V} {ids : List Nat} (g : Cells c v ids) (ch : Nat → List Rec) : Cells c { v with ch := ch } ids :=
  ⟨g.pend, fun k a x h => g.cur k a x (by cases k <;> exact h), fun k a h => g.quiet k a (by cases k <;> exact h), g.ovid, g.ser⟩

theorem fits_off {c : LCfg} (hc : c.Ok) {recs : List (Own × Rec)} (ge : Geo c recs) {x : Own × Rec} (hx : x ∈ recs) :
    256 ∣ x.2.off ∧ x.2.off < 2 ^ 48 := by
  have h := ge.off hx
  have := hc.heapEnd
  have := Nat.two_pow_pos x.2.o.metaSizePow2
  exact ⟨h.2.2.1, by omega⟩

section
variable {c : LCfg} (hc : c.Ok) {v : V} {ids : List Nat} (g : Good c v ids) (ge : Geo c v.recs)
include hc g ge

/-- `create` puts its record in the list (libblobd-lite/src/op/create_object.rs:98-122) -/
theorem Mid.link {i : Nat} {r : Rec} (hr : (Own.fresh i, r) ∈ v.recs) (hat : At r.o v.L r.off)
    (hst : rdState v.L r.off = stIncomplete) {b cur : Nat} (hb : b = c.bkt r.o.key) (hcur : cur = rdHead v.L c.bkDev b) :
    Mid c ids v
      { v with L := (v.L.write (c.bkDev + bucketOff b) (encHead r.off)).write (r.off + 2) (beBytes 6 cur),
               ov := ((v.ov.set (.head b) r.off).1.set (.next r.o.id) cur).1,
               recs := setOwn v.recs r.off .linked, ch := upd v.ch b (r :: v.ch b) }
      i b v.L [(c.bkDev + bucketOff b, encHead r.off), (r.off + 2, beBytes 6 cur)] := by
  have ba := g.toBase
  have hbl : b < 2 ^ c.bits := by rw [hb]; exact bkt_lt hc _
  obtain ⟨l1, l2, l3⟩ := lists_link hc ba ge g.toLists hr hat hst (L' := _) rfl
  rw [← hb, ← hcur] at l1 l3
  have hrl : (Own.linked, r) ∈ setOwn v.recs r.off .linked := mem_setOwn.2 (.inr ⟨rfl, rfl, _, hr⟩)
  have hsn := setOwn_snd v.recs r.off .linked
  have ba' := base_snd hsn ba
  have ge' := geo_snd hsn ge
  have hsf := seg_fits hc ge (g.chain b hbl) (fun r' h => ⟨.linked, by rw [g.lnk, g.chb b r' h]; exact h⟩)
  have c1 := cells_link hc ba ge g.toCells hr
  have c2 := cells_set (v := { v with recs := setOwn v.recs r.off .linked }) hc ba' ge' c1 (k := .head b) (a := c.bkDev + bucketOff b)
    (x := r.off) ⟨hbl, rfl⟩ (fits_off hc ge hr)
  have c3 := cells_set hc ba' ge' c2 (k := .next r.o.id) (a := r.off + 2) (x := cur) ⟨r, hrl, rfl, rfl⟩
    (by rw [hcur]; exact hsf.2)
  have hkeep : ∀ {o : Own} {r' : Rec}, (o, r') ∈ v.recs → o ≠ .fresh i → (o, r') ∈ setOwn v.recs r.off .linked := by
    intro o r' h hne
    refine mem_setOwn.2 (.inl ⟨fun e => hne ?_, h⟩)
    have := ba.uniq h hr e
    cases this; rfl
  refine ⟨cells_ch c3 _, ⟨l1.att, l1.lnk, l1.chb, l1.chn, l1.chain⟩, hsn, rfl, ?_, ?_, ?_, ?_, ?_, ?_, ?_, ?_, rfl⟩
  · intro b' h; simp [upd, h]
  · intro b' h r' hr'
    exact l3 r' (by rw [g.lnk, g.chb b' r' hr']; exact hr')
  · intro j r' hj hr'
    have hk := hkeep hr' (by simpa using hj)
    refine ⟨hk, fun h => ?_, ?_⟩
    · have a1 := at_cell (v := { v with recs := setOwn v.recs r.off .linked }) hc ba' ge' (k := .head b)
        (a := c.bkDev + bucketOff b) ⟨hbl, rfl⟩ hk (m := v.L) (d := encHead r.off) (by simp [encHead, Cell.width]) h
      exact at_cell (v := { v with recs := setOwn v.recs r.off .linked }) hc ba' ge' (k := .next r.o.id) (a := r.off + 2)
        ⟨r, hrl, rfl, rfl⟩ hk (d := beBytes 6 cur) (by simp [Cell.width]) a1
    · refine Eq.trans (state_other (v := { v with recs := setOwn v.recs r.off .linked }) hc ba' ge' (k := .next r.o.id) (a := r.off + 2)
        ⟨r, hrl, rfl, rfl⟩ hk (by simp) _ (d := beBytes 6 cur) (by simp [Cell.width])) ?_
      exact state_other (v := { v with recs := setOwn v.recs r.off .linked }) hc ba' ge' (k := .head b) (a := c.bkDev + bucketOff b)
        ⟨hbl, rfl⟩ hk (by simp) _ (d := encHead r.off) (by simp [encHead, Cell.width])
  · intro j r' hj hr'
    exact hkeep hr' (by simp)
  · intro k n x a ho hn ha
    have hold : v.ov.map k = some (n, x) := by
      simp only [Overlay.Ov.set] at ho
      split at ho
      · simp only [Option.some.injEq, Prod.mk.injEq] at ho; omega
      · split at ho
        · simp only [Option.some.injEq, Prod.mk.injEq] at ho; omega
        · exact ho
    have hlk : ∀ r', (Own.linked, r') ∈ setOwn v.recs r.off .linked →
        v.ov.map (.state r'.o.id) ≠ none ∨ v.ov.map (.next r'.o.id) ≠ none → (Own.linked, r') ∈ v.recs := by
      intro r' h ho'
      rcases mem_setOwn.1 h with ⟨_, h⟩ | ⟨e, _, o', h⟩
      · exact h
      · exfalso
        have := ba.uniq h hr e
        cases this
        exact (g.ovid _ ho').2 _ _ hr rfl
    cases k with
    | head b' => exact ha
    | state id =>
      obtain ⟨r', h1, h2, h3⟩ := ha
      exact ⟨r', hlk r' h1 (.inl (by rw [h2, hold]; simp)), h2, h3⟩
    | next id =>
      obtain ⟨r', h1, h2, h3⟩ := ha
      exact ⟨r', hlk r' h1 (.inr (by rw [h2, hold]; simp)), h2, h3⟩
  · simp only [Overlay.Ov.set]; omega
  · intro k
    simp only [Overlay.Ov.set]
    by_cases e : k = .next r.o.id
    · exact .inr ⟨_, cur, by simp [e]; rfl, by omega⟩
    · by_cases e' : k = .head b
      · exact .inr ⟨v.ov.nextSerial, r.off, by simp [e'], Nat.le_refl _⟩
      · exact .inl (by simp [e, e'])
  · intro w hw
    simp only [List.mem_cons, List.not_mem_nil, or_false] at hw
    rcases hw with rfl | rfl
    · exact ⟨.head b, v.ov.nextSerial, r.off, ⟨hbl, rfl⟩, by simp [encHead, Cell.width], by simp [Overlay.Ov.set], Nat.le_refl _⟩
    · exact ⟨.next r.o.id, v.ov.nextSerial + 1, cur, ⟨r, hrl, rfl, rfl⟩, by simp [Cell.width], by simp [Overlay.Ov.set], by omega⟩

theorem mem_own {i : Nat} {e : Rec} (he : (Own.linked, e) ∈ v.recs) {o : Own} {r' : Rec} (h : (o, r') ∈ v.recs) (hne : o ≠ .linked) :
    (o, r') ∈ setOwn v.recs e.off (.dying i) := by
  refine mem_setOwn.2 (.inl ⟨fun e' => hne ?_, h⟩)
  have := g.toBase.uniq h he e'
  cases this; rfl

theorem lnk_dying {i : Nat} {e : Rec} {k : Cell} {a : Nat} {v' : V} (hv : v'.recs = setOwn v.recs e.off (.dying i))
    (h : CellAt c v' k a) : CellAt c v k a := by
  have key : ∀ r', (Own.linked, r') ∈ setOwn v.recs e.off (.dying i) → (Own.linked, r') ∈ v.recs := by
    intro r' h
    rcases mem_setOwn.1 h with ⟨_, h⟩ | ⟨_, h, _⟩
    · exact h
    · cases h
  cases k with
  | head b => exact h
  | state id => obtain ⟨r, h1, h2⟩ := h; exact ⟨r, key r (hv ▸ h1), h2⟩
  | next id => obtain ⟨r, h1, h2⟩ := h; exact ⟨r, key r (hv ▸ h1), h2⟩

/-- the first object of a list is taken out (libblobd-lite/src/bucket.rs:226-229) -/
theorem Mid.unlinkHead {i b : Nat} (hb : b < 2 ^ c.bits) {e : Rec} {post : List Rec} (hch : v.ch b = e :: post) {nn : Nat}
    (hnn : nn = rdNext v.L e.off) :
    Mid c ids v
      { v with L := v.L.write (c.bkDev + bucketOff b) (encHead nn), ov := (v.ov.set (.head b) nn).1,
               recs := setOwn v.recs e.off (.dying i), ch := upd v.ch b post }
      i b v.L [(c.bkDev + bucketOff b, encHead nn)] := by
  have ba := g.toBase
  have hcm : ∀ r' ∈ v.ch b, (Own.linked, r') ∈ v.recs := fun r' h => by rw [g.lnk, g.chb b r' h]; exact h
  have he := hcm e (by rw [hch]; simp)
  obtain ⟨l1, l2, l3, l4, l5⟩ := lists_unlink (i := i) hc ba ge g.toLists (pre := []) hch (L' := _) (.inl ⟨rfl, rfl⟩)
  rw [← hnn] at l1 l3 l4 l5
  have hsn := setOwn_snd v.recs e.off (.dying i)
  have ba' := base_snd hsn ba
  have ge' := geo_snd hsn ge
  have hseg : Seg v.L nn post 0 := by
    have := g.chain b hb
    rw [hch] at this
    rw [hnn]; exact this.2
  have hsf := seg_fits hc ge hseg (fun r' h => ⟨.linked, hcm r' (by rw [hch]; simp [h])⟩)
  have c1 := cells_unlink (i := i) hc ba ge g.toCells he
  have c2 := cells_set (v := { v with recs := setOwn v.recs e.off (.dying i) }) hc ba' ge' c1 (k := .head b) (a := c.bkDev + bucketOff b)
    (x := nn) ⟨hb, rfl⟩ hsf
  refine ⟨cells_ch c2 _, ⟨l1.att, l1.lnk, l1.chb, l1.chn, l1.chain⟩, hsn, rfl, ?_, ?_, ?_, ?_, ?_, ?_, ?_, ?_, rfl⟩
  · intro b' h; simp [upd, h]
  · intro b' h r' hr'
    have hl : (Own.linked, r') ∈ v.recs := by rw [g.lnk, g.chb b' r' hr']; exact hr'
    exact ⟨l3 r' hl, l4 r' hl (by simp)⟩
  · intro j r' hj hr'
    refine ⟨mem_own hc g ge he hr' (by simp), fun h => l5 _ hr' h, ?_⟩
    exact state_other hc ba ge (k := .head b) (a := c.bkDev + bucketOff b) ⟨hb, rfl⟩ hr' (by simp) _ (by simp [encHead, Cell.width])
  · intro j r' hj hr'
    exact mem_own hc g ge he hr' (by simp)
  · intro k n x a ho hn ha
    exact lnk_dying hc g ge rfl ha
  · simp [Overlay.Ov.set]
  · intro k; exact set_old k
  · intro w hw
    rw [List.mem_singleton] at hw
    subst hw
    exact ⟨.head b, v.ov.nextSerial, nn, ⟨hb, rfl⟩, by simp [encHead, Cell.width], by simp [Overlay.Ov.set], Nat.le_refl _⟩

/-- another object of a list is taken out (libblobd-lite/src/bucket.rs:215-225) -/
theorem Mid.unlinkMid {i b : Nat} (hb : b < 2 ^ c.bits) {pre : List Rec} {p e : Rec} {post : List Rec}
    (hch : v.ch b = (pre ++ [p]) ++ e :: post) {nn : Nat} (hnn : nn = rdNext v.L e.off) (hp : v.ov.map (.next p.o.id) = none) :
    Mid c ids v
      { v with L := v.L.write (p.off + 2) (beBytes 6 nn), ov := (v.ov.set (.next e.o.id) nn).1,
               recs := setOwn v.recs e.off (.dying i), ch := upd v.ch b ((pre ++ [p]) ++ post) }
      i b (v.L.write (p.off + 2) (beBytes 6 nn)) [] := by
  have ba := g.toBase
  have hcm : ∀ r' ∈ v.ch b, (Own.linked, r') ∈ v.recs := fun r' h => by rw [g.lnk, g.chb b r' h]; exact h
  have he := hcm e (by rw [hch]; simp)
  have hpl := hcm p (by rw [hch]; simp)
  obtain ⟨l1, l2, l3, l4, l5⟩ := lists_unlink (i := i) hc ba ge g.toLists hch (L' := _) (.inr ⟨pre, p, rfl, rfl⟩)
  rw [← hnn] at l1 l3 l4 l5
  have hsn := setOwn_snd v.recs e.off (.dying i)
  have ba' := base_snd hsn ba
  have ge' := geo_snd hsn ge
  have hpe : p.off ≠ e.off := by
    have := g.chn b
    rw [hch] at this
    simp only [List.map_append, List.map_cons, List.map_nil, List.append_assoc] at this
    have := (List.nodup_append.1 this).2.1
    simp only [List.cons_append, List.nil_append, List.nodup_cons, List.mem_cons, not_or] at this
    exact this.1.1
  have hp' : (Own.linked, p) ∈ setOwn v.recs e.off (.dying i) := mem_setOwn.2 (.inl ⟨hpe, hpl⟩)
  have c1 := cells_unlink (i := i) hc ba ge g.toCells he
  have c2 := cells_direct (v := { v with recs := setOwn v.recs e.off (.dying i) }) hc ba' ge' c1 (k := .next p.o.id) (a := p.off + 2)
    (d := beBytes 6 nn) ⟨p, hp', rfl, rfl⟩ (by simp [Cell.width]) hp
  have hdead : ∀ a, ¬ CellAt c { v with recs := setOwn v.recs e.off (.dying i), L := v.L.write (p.off + 2) (beBytes 6 nn) } (.next e.o.id) a := by
    rintro a ⟨r', h1, h2, _⟩
    rcases mem_setOwn.1 h1 with ⟨h, h3⟩ | ⟨_, h, _⟩
    · have := ba.uniqId h3 he h2
      cases this
      exact h rfl
    · cases h
  have c3 := cells_set_dead hc ba' ge' c2 (k := .next e.o.id) (x := nn) hdead (by
    intro id hk
    have hid : e.o.id = id := by simpa using hk
    refine ⟨hid ▸ (ba.fit _ he).2, fun j r' hr' e' => ?_⟩
    rcases mem_setOwn.1 hr' with ⟨h, h3⟩ | ⟨_, h, _⟩
    · have := ba.uniqId h3 he (by simp only; omega)
      cases this
    · cases h)
  refine ⟨cells_ch c3 _, ⟨l1.att, l1.lnk, l1.chb, l1.chn, l1.chain⟩, hsn, rfl, ?_, ?_, ?_, ?_, ?_, ?_, ?_, ?_, rfl⟩
  · intro b' h; simp [upd, h]
  · intro b' h r' hr'
    have hl : (Own.linked, r') ∈ v.recs := by rw [g.lnk, g.chb b' r' hr']; exact hr'
    refine ⟨l3 r' hl, l4 r' hl ?_⟩
    intro e'
    have e2 : r' = p := by simpa using e'.symm
    have b1 := g.chb b' r' hr'
    have b2 := g.chb b p (by rw [hch]; simp)
    rw [e2] at b1
    exact h (b1.symm.trans b2)
  · intro j r' hj hr'
    refine ⟨mem_own hc g ge he hr' (by simp), fun h => l5 _ hr' h, ?_⟩
    exact state_other hc ba ge (k := .next p.o.id) (a := p.off + 2) ⟨p, hpl, rfl, rfl⟩ hr' (by simp) _ (by simp [Cell.width])
  · intro j r' hj hr'
    exact mem_own hc g ge he hr' (by simp)
  · intro k n x a ho hn ha
    exact lnk_dying hc g ge rfl ha
  · simp [Overlay.Ov.set]
  · intro k; exact set_old k
  · intro w hw; cases hw

end

/-- then an object in the list becomes committed (libblobd-lite/src/op/commit_object.rs:61-84) -/
theorem Mid.state {c : LCfg} (hc : c.Ok) {ids : List Nat} {v v' : V} {i b : Nat} {M : Mem} {ws : List (Nat × List Byte)}
    (m : Mid c ids v v' i b M ws) (g : Good c v ids) (ge : Geo c v.recs) {f : Rec} (hf : (Own.linked, f) ∈ v'.recs)
    (hfl : (Own.linked, f) ∈ v.recs) (hfb : c.bkt f.o.key = b) :
    Mid c ids v
      { v' with L := v'.L.write f.off (leBytes 1 stCommitted), ov := (v'.ov.set (.state f.o.id) stCommitted).1 }
      i b M (ws ++ [(f.off, leBytes 1 stCommitted)]) := by
  have ba := base_snd m.snd g.toBase
  have ge' := geo_snd m.snd ge
  obtain ⟨l1, l2, l3, l4, l5, l6⟩ := lists_state hc ba ge' m.lists hf (L' := _) rfl
  have c1 := cells_set hc ba ge' m.cells (k := .state f.o.id) (a := f.off) (x := stCommitted) ⟨f, hf, rfl, rfl⟩ (by decide : stCommitted < 2 ^ 8)
  have hnew : ∀ k, k = Cell.state f.o.id → ((v'.ov.set (.state f.o.id) stCommitted).1).map k = some (v'.ov.nextSerial, stCommitted) := by
    rintro k rfl; simp [Overlay.Ov.set]
  have hold : ∀ k, k ≠ Cell.state f.o.id → ((v'.ov.set (.state f.o.id) stCommitted).1).map k = v'.ov.map k := by
    intro k h; simp [Overlay.Ov.set, h]
  refine ⟨c1, ⟨l1.att, l1.lnk, l1.chb, l1.chn, l1.chain⟩, m.snd, m.U, m.ch, ?_, ?_, m.dying, ?_, ?_, ?_, ?_, ?_⟩
  · intro b' h r' hr'
    obtain ⟨h1, h2⟩ := m.cell b' h r' hr'
    have hl : (Own.linked, r') ∈ v'.recs := by
      rw [m.lists.lnk, g.chb b' r' hr', m.ch b' h]; exact hr'
    have hne : r'.off ≠ f.off := by
      intro e
      have := ba.uniq hl hf e
      cases this
      exact h ((g.chb b' _ hr').symm.trans hfb)
    exact ⟨(l4 r' hl hne).trans h1, (l5 r' hl).trans h2⟩
  · intro j r' hj hr'
    obtain ⟨h1, h2, h3⟩ := m.fresh j r' hj hr'
    exact ⟨h1, fun h => l6 _ h1 (h2 h),
      (state_other hc ba ge' (k := .state f.o.id) (a := f.off) ⟨f, hf, rfl, rfl⟩ h1 (by simp) _ (by simp [Cell.width])).trans h3⟩
  · intro k n x a ho hn ha
    by_cases e : k = .state f.o.id
    · subst e
      obtain ⟨r', h1, h2, h3⟩ := ha
      have := ba.uniqId h1 hf h2
      cases this
      exact ⟨_, hfl, rfl, h3⟩
    · refine m.lnk k n x a (by rw [← hold k e]; exact ho) hn ?_
      cases k <;> exact ha
  · have := m.ser
    simp only [Overlay.Ov.set]; omega
  · intro k
    by_cases e : k = .state f.o.id
    · exact .inr ⟨_, _, hnew k e, m.ser⟩
    · rcases m.ov k with h | ⟨n, x, h, h'⟩
      · exact .inl ((hold k e).trans h)
      · exact .inr ⟨n, x, (hold k e).trans h, h'⟩
  · intro w hw
    rcases List.mem_append.1 hw with h | h
    · obtain ⟨k, n, x, h1, h2, h3, h4⟩ := m.jw w h
      by_cases e : k = .state f.o.id
      · exact ⟨k, _, _, by cases k <;> exact h1, h2, hnew k e, m.ser⟩
      · exact ⟨k, n, x, by cases k <;> exact h1, h2, (hold k e).trans h3, h4⟩
    · rw [List.mem_singleton] at h
      subst h
      exact ⟨.state f.o.id, _, _, ⟨f, hf, rfl, rfl⟩, by simp [Cell.width], hnew _ rfl, m.ser⟩
  · simp only [m.L]
    rw [Mem.writeAll_append]
    rfl

end Lite
end Blobd
