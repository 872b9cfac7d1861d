import Verif.Proofs.LiteDev
set_option autoImplicit false
/-! # Changing cells, records and pending transactions -/
namespace Blobd
namespace Lite
open Spec

def Cell.width : Cell → Nat
  | .head _ => 5
  | .state _ => 1
  | .next _ => 6

/-- the bytes of a value -/
def Cell.enc (x : Nat) : Cell → List Byte
  | .head _ => encHead x
  | .state _ => leBytes 1 x
  | .next _ => beBytes 6 x

@[simp] theorem Cell.enc_len (k : Cell) (x : Nat) : (k.enc x).length = k.width := by
  cases k <;> simp [Cell.enc, Cell.width, encHead]

/-- values a cell can hold -/
def Cell.Fits (x : Nat) : Cell → Prop
  | .head _ => 256 ∣ x ∧ x < 2 ^ 48
  | .state _ => x < 2 ^ 8
  | .next _ => x < 2 ^ 48

theorem val_write {m : Mem} {a x : Nat} {k : Cell} (h : k.Fits x) : k.val (m.write a (k.enc x)) a = x := by
  have := Mem.read_write_same m a (k.enc x)
  rw [Cell.enc_len] at this
  cases k with
  | head b =>
    simp only [Cell.val, rdBe]
    rw [show (5 : Nat) = (Cell.head b).width from rfl, this]
    simp only [Cell.enc, encHead, minPageSizePow2]
    obtain ⟨h1, h2⟩ := h
    rw [Nat.shiftRight_eq_div_pow, beVal_beBytes_of_lt (by
      have : x / 2 ^ 8 < 2 ^ 40 := by omega
      simpa using this), Nat.shiftLeft_eq]
    omega
  | state id =>
    simp only [Cell.val]
    rw [show (1 : Nat) = (Cell.state id).width from rfl, this]
    exact leVal_leBytes_of_lt (by simpa [Cell.Fits] using h)
  | next id =>
    simp only [Cell.val, rdBe]
    rw [show (6 : Nat) = (Cell.next id).width from rfl, this]
    exact beVal_beBytes_of_lt (by simpa [Cell.Fits] using h)

theorem val_congr {m m' : Mem} {a : Nat} {k : Cell} (h : ∀ y, a ≤ y → y < a + k.width → m' y = m y) : k.val m' a = k.val m a := by
  cases k <;> simp only [Cell.val, rdBe] <;> congr 1 <;> first | (congr 1; exact Mem.read_congr h) | exact Mem.read_congr h

theorem Base.uniq {c : LCfg} {recs : List (Own × Rec)} {ids : List Nat} (b : Base c recs ids) {x y : Own × Rec} (hx : x ∈ recs)
    (hy : y ∈ recs) (h : x.2.off = y.2.off) : x = y := List.inj_on_of_nodup_map b.offs hx hy h

theorem Base.uniqId {c : LCfg} {recs : List (Own × Rec)} {ids : List Nat} (b : Base c recs ids) {x y : Own × Rec} (hx : x ∈ recs)
    (hy : y ∈ recs) (h : x.2.o.id = y.2.o.id) : x = y := List.inj_on_of_nodup_map b.idn hx hy h

section
variable {c : LCfg} (hc : c.Ok) {v : V} {ids : List Nat} (ba : Base c v.recs ids) (ge : Geo c v.recs)
include hc ba ge

theorem cell_unique {k : Cell} {a a' : Nat} (h : CellAt c v k a) (h' : CellAt c v k a') : a = a' := by
  cases k with
  | head b => rw [h.2, h'.2]
  | state id =>
    obtain ⟨r, h1, h2, h3⟩ := h
    obtain ⟨r', h1', h2', h3'⟩ := h'
    have := ba.uniqId h1 h1' (h2.trans h2'.symm)
    cases this
    rw [h3, h3']
  | next id =>
    obtain ⟨r, h1, h2, h3⟩ := h
    obtain ⟨r', h1', h2', h3'⟩ := h'
    have := ba.uniqId h1 h1' (h2.trans h2'.symm)
    cases this
    rw [h3, h3']

/-- different cells do not overlap -/
theorem cell_disj {k k' : Cell} {a a' : Nat} (h : CellAt c v k a) (h' : CellAt c v k' a') (hne : k ≠ k') :
    a + k.width ≤ a' ∨ a' + k'.width ≤ a := by
  have hb := hc.buckets
  have hjn := hc.journal
  have recrec : ∀ {r r' : Rec}, (Own.linked, r) ∈ v.recs → (Own.linked, r') ∈ v.recs →
      r.off = r'.off ∧ r.o.id = r'.o.id ∨ r.off + 256 ≤ r'.off ∨ r'.off + 256 ≤ r.off := by
    intro r r' h1 h2
    by_cases e : r.off = r'.off
    · have := ba.uniq h1 h2 e
      rw [congrArg (fun x : Own × Rec => x.2.o.id) this]
      exact .inl ⟨e, rfl⟩
    · have m := ge.metas h1 h2 e
      have := ge.off h1
      have := ge.off h2
      simp only at *
      omega
  have rechead : ∀ {r : Rec} {b : Nat}, (Own.linked, r) ∈ v.recs → b < 2 ^ c.bits → c.bkDev + 5 * b + 5 ≤ r.off := by
    intro r b h1 h2
    have := ge.off h1
    simp only at this
    omega
  cases k with
  | head b =>
    obtain ⟨h1, h2⟩ := h
    cases k' with
    | head b' =>
      obtain ⟨h1', h2'⟩ := h'
      have : b ≠ b' := fun e => hne (by rw [e])
      simp only [bucketOff, Cell.width] at *
      omega
    | state id' =>
      obtain ⟨r', h1', h2', h3'⟩ := h'
      have := rechead h1' h1
      simp only [bucketOff, Cell.width] at *
      omega
    | next id' =>
      obtain ⟨r', h1', h2', h3'⟩ := h'
      have := rechead h1' h1
      simp only [bucketOff, Cell.width] at *
      omega
  | state id =>
    obtain ⟨r, h1, h2, h3⟩ := h
    cases k' with
    | head b' =>
      obtain ⟨h1', h2'⟩ := h'
      have := rechead h1 h1'
      simp only [bucketOff, Cell.width] at *
      omega
    | state id' =>
      obtain ⟨r', h1', h2', h3'⟩ := h'
      have hid : id ≠ id' := fun e => hne (by rw [e])
      have := recrec h1 h1'
      simp only [Cell.width] at *
      omega
    | next id' =>
      obtain ⟨r', h1', h2', h3'⟩ := h'
      have := recrec h1 h1'
      simp only [Cell.width] at *
      omega
  | next id =>
    obtain ⟨r, h1, h2, h3⟩ := h
    cases k' with
    | head b' =>
      obtain ⟨h1', h2'⟩ := h'
      have := rechead h1 h1'
      simp only [bucketOff, Cell.width] at *
      omega
    | state id' =>
      obtain ⟨r', h1', h2', h3'⟩ := h'
      have := recrec h1 h1'
      simp only [Cell.width] at *
      omega
    | next id' =>
      obtain ⟨r', h1', h2', h3'⟩ := h'
      have hid : id ≠ id' := fun e => hne (by rw [e])
      have := recrec h1 h1'
      simp only [Cell.width] at *
      omega

/-- set a cell, in the overlay and in the drained device -/
theorem cells_set (g : Cells c v ids) {k : Cell} {a x : Nat} (hk : CellAt c v k a) (hx : k.Fits x) :
    Cells c { v with L := v.L.write a (k.enc x), ov := (v.ov.set k x).1 } ids := by
  have hcell : ∀ k' a', CellAt c { v with L := v.L.write a (k.enc x), ov := (v.ov.set k x).1 } k' a' ↔ CellAt c v k' a' := by
    intro k' a'; cases k' <;> rfl
  have hid : ∀ id, k = .state id ∨ k = .next id → id ∈ ids ∧ ∀ i r, (Own.fresh i, r) ∈ v.recs → r.o.id ≠ id := by
    intro id hkk
    have : ∃ r, (Own.linked, r) ∈ v.recs ∧ r.o.id = id := by
      rcases hkk with rfl | rfl <;> (obtain ⟨r, h1, h2, _⟩ := hk; exact ⟨r, h1, h2⟩)
    obtain ⟨r, h1, h2⟩ := this
    refine ⟨h2 ▸ (ba.fit _ h1).2, fun i r' hr' e => ?_⟩
    have := ba.uniqId hr' h1 (by simp only; omega)
    cases this
  refine ⟨g.pend, ?_, ?_, ?_, ?_⟩
  · intro k' a' y hk' hg
    rw [hcell] at hk'
    by_cases e : k' = k
    · subst e
      have ea := cell_unique hc ba ge hk' hk
      subst ea
      have : y = x := by simpa [Overlay.Ov.get, Overlay.Ov.set] using hg.symm
      rw [this]
      exact val_write hx
    · have hg' : v.ov.get k' = some y := by simpa [Overlay.Ov.get, Overlay.Ov.set, e] using hg
      rw [← g.cur k' a' y hk' hg']
      apply val_congr
      intro z h1 h2
      apply Mem.write_out
      have := cell_disj hc ba ge hk' hk e
      rw [Cell.enc_len]; omega
  · intro k' a' hk' ho
    rw [hcell] at hk'
    by_cases e : k' = k
    · subst e; simp [Overlay.Ov.set] at ho
    · exact g.quiet k' a' hk' (by simpa [Overlay.Ov.set, e] using ho)
  · intro id ho
    by_cases hkk : k = .state id ∨ k = .next id
    · exact hid id hkk
    · apply g.ovid id
      have n1 : (Cell.state id) ≠ k := fun e => hkk (.inl e.symm)
      have n2 : (Cell.next id) ≠ k := fun e => hkk (.inr e.symm)
      simpa [Overlay.Ov.set, n1, n2] using ho
  · intro k' n y hy
    simp only [Overlay.Ov.set] at hy ⊢
    split at hy
    · simp only [Option.some.injEq, Prod.mk.injEq] at hy; omega
    · have := g.ser k' n y hy; omega

/-- write a cell directly to the device, when the overlay has no value for it -/
theorem cells_direct (g : Cells c v ids) {k : Cell} {a : Nat} {d : List Byte} (hk : CellAt c v k a) (hd : d.length = k.width)
    (ho : v.ov.map k = none) : Cells c { v with L := v.L.write a d } ids := by
  refine ⟨g.pend, ?_, g.quiet, g.ovid, g.ser⟩
  intro k' a' y hk' hg
  have hk2 : CellAt c v k' a' := by cases k' <;> exact hk'
  have e : k' ≠ k := by
    rintro rfl
    simp only [Overlay.Ov.get] at hg
    rw [ho] at hg; cases hg
  rw [← g.cur k' a' y hk2 hg]
  apply val_congr
  intro z h1 h2
  apply Mem.write_out
  have := cell_disj hc ba ge hk2 hk e
  omega

/-- set an overlay value of a record that is no longer linked -/
theorem cells_set_dead (g : Cells c v ids) {k : Cell} {x : Nat} (hk : ∀ a, ¬ CellAt c v k a)
    (hid : ∀ id, k = .state id ∨ k = .next id → id ∈ ids ∧ ∀ i r, (Own.fresh i, r) ∈ v.recs → r.o.id ≠ id) :
    Cells c { v with ov := (v.ov.set k x).1 } ids := by
  refine ⟨g.pend, ?_, ?_, ?_, ?_⟩
  · intro k' a' y hk' hg
    have hk2 : CellAt c v k' a' := by cases k' <;> exact hk'
    have e : k' ≠ k := by rintro rfl; exact hk a' hk2
    exact g.cur k' a' y hk2 (by simpa [Overlay.Ov.get, Overlay.Ov.set, e] using hg)
  · intro k' a' hk' ho
    have hk2 : CellAt c v k' a' := by cases k' <;> exact hk'
    have e : k' ≠ k := by rintro rfl; exact hk a' hk2
    exact g.quiet k' a' hk2 (by simpa [Overlay.Ov.set, e] using ho)
  · intro id ho
    by_cases hkk : k = .state id ∨ k = .next id
    · exact hid id hkk
    · apply g.ovid id
      have n1 : (Cell.state id) ≠ k := fun e => hkk (.inl e.symm)
      have n2 : (Cell.next id) ≠ k := fun e => hkk (.inr e.symm)
      simpa [Overlay.Ov.set, n1, n2] using ho
  · intro k' n y hy
    simp only [Overlay.Ov.set] at hy ⊢
    split at hy
    · simp only [Option.some.injEq, Prod.mk.injEq] at hy; omega
    · have := g.ser k' n y hy; omega

/-- a transaction that writes cells whose values are in the overlay -/
theorem cells_txn (g : Cells c v ids) {t : Journal.Txn}
    (ht : ∀ w ∈ t.writes, ∃ k, CellAt c v k w.1 ∧ w.2.length = k.width ∧ v.ov.map k ≠ none) :
    Cells c { v with U := v.U ++ [t] } ids := by
  refine ⟨?_, g.cur, ?_, g.ovid, g.ser⟩
  · intro t' ht' w hw
    rcases List.mem_append.1 ht' with h | h
    · exact g.pend t' h w hw
    · rw [List.mem_singleton] at h
      subst h
      obtain ⟨k, h1, h2, _⟩ := ht w hw
      cases k with
      | head b => exact .inl ⟨b, h1.1, h1.2, h2⟩
      | state id => obtain ⟨r, k1, k2, k3⟩ := h1; exact .inr ⟨_, k1, by simp, .inl ⟨k3, h2⟩⟩
      | next id => obtain ⟨r, k1, k2, k3⟩ := h1; exact .inr ⟨_, k1, by simp, .inr ⟨k3, h2⟩⟩
  · intro k a hk ho t' ht' w hw e
    have hk2 : CellAt c v k a := by cases k <;> exact hk
    rcases List.mem_append.1 ht' with h | h
    · exact g.quiet k a hk2 ho t' h w hw e
    · rw [List.mem_singleton] at h
      subst h
      obtain ⟨k', h1, h2, h3⟩ := ht w hw
      by_cases ek : k = k'
      · subst ek; exact absurd ho h3
      · exfalso
        have := cell_disj hc ba ge hk2 h1 ek
        have w1 : 0 < k.width := by cases k <;> simp [Cell.width]
        have w2 : 0 < k'.width := by cases k' <;> simp [Cell.width]
        omega

end

/-! ## Owners -/

def setOwn (recs : List (Own × Rec)) (off : Nat) (own : Own) : List (Own × Rec) :=
  recs.map (fun x => if x.2.off = off then (own, x.2) else x)

theorem setOwn_snd (recs : List (Own × Rec)) (off : Nat) (own : Own) : (setOwn recs off own).map (·.2) = recs.map (·.2) := by
  unfold setOwn
  rw [List.map_map]
  apply List.map_congr_left
  intro x _
  simp only [Function.comp]
  split <;> rfl

theorem mem_setOwn {recs : List (Own × Rec)} {off : Nat} {own o : Own} {r : Rec} :
    (o, r) ∈ setOwn recs off own ↔ (r.off ≠ off ∧ (o, r) ∈ recs) ∨ (r.off = off ∧ o = own ∧ ∃ o', (o', r) ∈ recs) := by
  unfold setOwn
  rw [List.mem_map]
  constructor
  · rintro ⟨⟨o', r'⟩, h1, h2⟩
    simp only at h2
    split at h2
    · cases h2
      rename_i h
      exact .inr ⟨h, rfl, o', h1⟩
    · cases h2
      rename_i h
      exact .inl ⟨h, h1⟩
  · rintro (⟨h1, h2⟩ | ⟨h1, rfl, o', h2⟩)
    · exact ⟨_, h2, by simp [h1]⟩
    · exact ⟨_, h2, by simp [h1]⟩

theorem mem_snd {recs : List (Own × Rec)} {x : Own × Rec} (h : x ∈ recs) : x.2 ∈ recs.map (·.2) := List.mem_map.2 ⟨x, h, rfl⟩

theorem geo_snd {c : LCfg} {recs recs' : List (Own × Rec)} (h : recs'.map (·.2) = recs.map (·.2)) (ge : Geo c recs) : Geo c recs' := by
  have key : ∀ x ∈ recs', ∃ y ∈ recs, y.2 = x.2 := by
    intro x hx
    have := mem_snd hx
    rw [h] at this
    obtain ⟨y, h1, h2⟩ := List.mem_map.1 this
    exact ⟨y, h1, h2⟩
  refine ⟨?_, ?_, ?_⟩
  · intro x hx
    obtain ⟨y, h1, h2⟩ := key x hx
    rw [← h2]; exact ge.pg y h1
  · intro x hx z hz
    obtain ⟨y, h1, h2⟩ := key x hx
    obtain ⟨y', h1', h2'⟩ := key z hz
    rw [← h2, ← h2']; exact ge.apart y h1 y' h1'
  · intro x hx
    obtain ⟨y, h1, h2⟩ := key x hx
    rw [← h2]; exact ge.own y h1

theorem base_snd {c : LCfg} {recs recs' : List (Own × Rec)} {ids : List Nat} (h : recs'.map (·.2) = recs.map (·.2))
    (b : Base c recs ids) : Base c recs' ids := by
  have e : ∀ f : Rec → Nat, recs'.map (fun x => f x.2) = recs.map (fun x => f x.2) := by
    intro f
    have := congrArg (List.map f) h
    simpa [List.map_map, Function.comp_def] using this
  refine ⟨?_, ?_, ?_⟩
  · intro x hx
    have := mem_snd hx
    rw [h] at this
    obtain ⟨y, h1, h2⟩ := List.mem_map.1 this
    rw [← h2]; exact b.fit y h1
  · rw [e Rec.off]; exact b.offs
  · rw [e (fun r => r.o.id)]; exact b.idn

theorem heap_snd {c : LCfg} {recs recs' : List (Own × Rec)} {a : Buddy} {leak : List (Nat × Nat)}
    (h : recs'.map (·.2) = recs.map (·.2)) (hh : Heap c recs a leak) : Heap c recs' a leak := by
  have : recs'.flatMap (fun x => regs c.pages x.2) = recs.flatMap (fun x => regs c.pages x.2) := by
    have := congrArg (List.flatMap (regs c.pages)) h
    simpa [List.flatMap_map] using this
  unfold Heap
  rw [this]; exact hh

section
variable {c : LCfg} (hc : c.Ok) {v : V} {ids : List Nat} (ba : Base c v.recs ids) (ge : Geo c v.recs)
include hc ba ge

/-- a new record joins a list -/
theorem cells_link (g : Cells c v ids) {i : Nat} {r : Rec} (hr : (Own.fresh i, r) ∈ v.recs) :
    Cells c { v with recs := setOwn v.recs r.off .linked } ids := by
  have hmem : ∀ o r', (o, r') ∈ setOwn v.recs r.off .linked ↔ (r'.off ≠ r.off ∧ (o, r') ∈ v.recs) ∨ (r' = r ∧ o = .linked) := by
    intro o r'
    rw [mem_setOwn]
    constructor
    · rintro (h | ⟨h1, h2, o', h3⟩)
      · exact .inl h
      · exact .inr ⟨congrArg Prod.snd (ba.uniq h3 hr h1), h2⟩
    · rintro (h | ⟨rfl, rfl⟩)
      · exact .inl h
      · exact .inr ⟨rfl, rfl, _, hr⟩
  have hpend : ∀ t ∈ v.U, ∀ w ∈ t.writes, ∃ b, (b < 2 ^ c.bits ∧ w.1 = c.bkDev + bucketOff b ∧ w.2.length = 5) ∨
      ∃ x ∈ v.recs, x.2.off ≠ r.off ∧ (∀ i, x.1 ≠ .fresh i) ∧ (w.1 = x.2.off ∧ w.2.length = 1 ∨ w.1 = x.2.off + 2 ∧ w.2.length = 6) := by
    intro t ht w hw
    rcases g.pend t ht w hw with ⟨b, h⟩ | ⟨x, h1, h2, h3⟩
    · exact ⟨b, .inl h⟩
    · refine ⟨0, .inr ⟨x, h1, ?_, h2, h3⟩⟩
      intro e
      have := ba.uniq h1 hr e
      exact h2 i (by rw [this])
  have hnot : ∀ t ∈ v.U, ∀ w ∈ t.writes, w.1 ≠ r.off ∧ w.1 ≠ r.off + 2 := by
    intro t ht w hw
    have ho := ge.off hr
    simp only at ho
    have := hc.buckets; have := hc.journal
    obtain ⟨b, ⟨h1, h2, _⟩ | ⟨x, h1, h2, _, h3⟩⟩ := hpend t ht w hw
    · unfold bucketOff at h2; omega
    · have := ge.metas h1 hr h2
      have := ge.off h1
      simp only at *
      omega
  refine ⟨?_, ?_, ?_, ?_, g.ser⟩
  · intro t ht w hw
    obtain ⟨b, h | ⟨x, h1, h2, h3, h4⟩⟩ := hpend t ht w hw
    · exact .inl ⟨b, h⟩
    · exact .inr ⟨x, (hmem x.1 x.2).2 (.inl ⟨h2, h1⟩), h3, h4⟩
  · intro k a x hk hg
    apply g.cur k a x _ hg
    cases k with
    | head b => exact hk
    | state id =>
      obtain ⟨r', h1, h2, h3⟩ := hk
      rcases (hmem _ _).1 h1 with h | ⟨rfl, _⟩
      · exact ⟨r', h.2, h2, h3⟩
      · exfalso
        have : v.ov.map (.state id) ≠ none := by intro e; simp [Overlay.Ov.get, e] at hg
        exact (g.ovid id (.inl this)).2 i r' hr h2
    | next id =>
      obtain ⟨r', h1, h2, h3⟩ := hk
      rcases (hmem _ _).1 h1 with h | ⟨rfl, _⟩
      · exact ⟨r', h.2, h2, h3⟩
      · exfalso
        have : v.ov.map (.next id) ≠ none := by intro e; simp [Overlay.Ov.get, e] at hg
        exact (g.ovid id (.inr this)).2 i r' hr h2
  · intro k a hk ho
    cases k with
    | head b => exact g.quiet (.head b) a hk ho
    | state id =>
      obtain ⟨r', h1, h2, h3⟩ := hk
      rcases (hmem _ _).1 h1 with h | ⟨rfl, _⟩
      · exact g.quiet (.state id) a ⟨r', h.2, h2, h3⟩ ho
      · intro t ht w hw e
        exact absurd (e.trans h3) (hnot t ht w hw).1
    | next id =>
      obtain ⟨r', h1, h2, h3⟩ := hk
      rcases (hmem _ _).1 h1 with h | ⟨rfl, _⟩
      · exact g.quiet (.next id) a ⟨r', h.2, h2, h3⟩ ho
      · intro t ht w hw e
        exact absurd (e.trans h3) (hnot t ht w hw).2
  · intro id ho
    obtain ⟨h1, h2⟩ := g.ovid id ho
    refine ⟨h1, fun i' r' hr' => ?_⟩
    rcases (hmem _ _).1 hr' with h | ⟨_, h⟩
    · exact h2 i' r' h.2
    · cases h

/-- a record leaves its list -/
theorem cells_unlink (g : Cells c v ids) {i : Nat} {r : Rec} (hr : (Own.linked, r) ∈ v.recs) :
    Cells c { v with recs := setOwn v.recs r.off (.dying i) } ids := by
  have hlk : ∀ r', (Own.linked, r') ∈ setOwn v.recs r.off (.dying i) → (Own.linked, r') ∈ v.recs := by
    intro r' h
    rcases mem_setOwn.1 h with h | ⟨_, h, _⟩
    · exact h.2
    · cases h
  have hcell : ∀ k a, CellAt c { v with recs := setOwn v.recs r.off (.dying i) } k a → CellAt c v k a := by
    intro k a hk
    cases k with
    | head b => exact hk
    | state id => obtain ⟨r', h1, h2⟩ := hk; exact ⟨r', hlk r' h1, h2⟩
    | next id => obtain ⟨r', h1, h2⟩ := hk; exact ⟨r', hlk r' h1, h2⟩
  refine ⟨?_, fun k a x hk hg => g.cur k a x (hcell k a hk) hg, fun k a hk ho => g.quiet k a (hcell k a hk) ho, ?_, g.ser⟩
  · intro t ht w hw
    rcases g.pend t ht w hw with h | ⟨x, h1, h2, h3⟩
    · exact .inl h
    · right
      by_cases e : x.2.off = r.off
      · have := ba.uniq h1 hr e
        subst this
        exact ⟨(.dying i, r), mem_setOwn.2 (.inr ⟨rfl, rfl, _, hr⟩), by simp, h3⟩
      · exact ⟨x, mem_setOwn.2 (.inl ⟨e, h1⟩), h2, h3⟩
  · intro id ho
    obtain ⟨h1, h2⟩ := g.ovid id ho
    refine ⟨h1, fun i' r' hr' => ?_⟩
    rcases mem_setOwn.1 hr' with h | ⟨_, h, _⟩
    · exact h2 i' r' h.2
    · cases h

end

end Lite
end Blobd
