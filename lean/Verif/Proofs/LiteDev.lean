import Verif.Proofs.LiteInv
set_option autoImplicit false
/-! # What the device holds at places the journal is not writing -/
namespace Blobd
namespace Lite
open Spec

theorem rec_unique {v : V} {ids : List Nat} {c : LCfg} (g : Good c v ids) {x y : Own × Rec} (hx : x ∈ v.recs) (hy : y ∈ v.recs)
    (h : x.2.off = y.2.off) : x = y :=
  List.inj_on_of_nodup_map g.offs hx hy h

theorem id_unique {v : V} {ids : List Nat} {c : LCfg} (g : Good c v ids) {x y : Own × Rec} (hx : x ∈ v.recs) (hy : y ∈ v.recs)
    (h : x.2.o.id = y.2.o.id) : x = y :=
  List.inj_on_of_nodup_map g.idn hx hy h

section
variable {c : LCfg} (hc : c.Ok) {v : V} {ids : List Nat} (g : Good c v ids) (ge : Geo c v.recs)
include hc g ge

/-- a pending write that meets a record's metadata page is to its state or its next pointer -/
theorem pend_at_rec {x : Own × Rec} (hx : x ∈ v.recs) {t : Journal.Txn} (ht : t ∈ v.U) {w : Nat × List Byte} (hw : w ∈ t.writes)
    {y : Nat} (h1 : w.1 ≤ y) (h2 : y < w.1 + w.2.length) (h3 : x.2.off ≤ y) (h4 : y < x.2.off + 2 ^ x.2.o.metaSizePow2) :
    (∀ i, x.1 ≠ .fresh i) ∧ (y = x.2.off ∧ w.1 = x.2.off ∧ w.2.length = 1 ∨ y < x.2.off + 8 ∧ w.1 = x.2.off + 2 ∧ w.2.length = 6) := by
  have ho := ge.off hx
  rcases g.pend t ht w hw with ⟨b, hb, e1, e2⟩ | ⟨x', hx', hf, hcase⟩
  · exfalso
    have := hc.buckets; have := hc.journal
    unfold bucketOff at e1
    omega
  · have ho' := ge.off hx'
    by_cases he : x'.2.off = x.2.off
    · have : x' = x := rec_unique g hx' hx he
      subst this
      exact ⟨hf, by rcases hcase with h | h <;> omega⟩
    · exfalso
      have := ge.metas hx' hx he
      rcases hcase with h | h <;> omega

/-- … to a bucket head: is that head -/
theorem pend_at_head {b : Nat} (hb : b < 2 ^ c.bits) {t : Journal.Txn} (ht : t ∈ v.U) {w : Nat × List Byte} (hw : w ∈ t.writes)
    {y : Nat} (h1 : w.1 ≤ y) (h2 : y < w.1 + w.2.length) (h3 : c.bkDev + 5 * b ≤ y) (h4 : y < c.bkDev + 5 * b + 5) :
    w.1 = c.bkDev + bucketOff b ∧ w.2.length = 5 := by
  rcases g.pend t ht w hw with ⟨b', hb', e1, e2⟩ | ⟨x', hx', hf, hcase⟩
  · unfold bucketOff at e1 ⊢
    have : b' = b := by omega
    subst this
    exact ⟨e1, e2⟩
  · exfalso
    have ho' := ge.off hx'
    have := hc.buckets; have := hc.journal
    omega

/-- … no data page -/
theorem pend_at_data {x : Own × Rec} (hx : x ∈ v.recs) {p : Nat × Nat} (hp : p ∈ dataPgs c.pages x.2.o) {t : Journal.Txn}
    (ht : t ∈ v.U) {w : Nat × List Byte} (hw : w ∈ t.writes) {y : Nat} (h1 : w.1 ≤ y) (h2 : y < w.1 + w.2.length) :
    y < p.1 ∨ p.1 + 2 ^ p.2 ≤ y := by
  have hpr : p ∈ regs c.pages x.2 := by simp [regs, hp]
  obtain ⟨b1, b2, _⟩ := ge.pg x hx p hpr
  rcases g.pend t ht w hw with ⟨b', hb', e1, e2⟩ | ⟨x', hx', hf, hcase⟩
  · unfold bucketOff at e1
    have := hc.buckets; have := hc.journal
    omega
  · have ho' := ge.off hx'
    have hd : PageDisj p (x'.2.off, x'.2.o.metaSizePow2) := by
      by_cases he : x'.2.off = x.2.off
      · have : x' = x := rec_unique g hx' hx he
        subst this
        exact ge.own _ hx p hp
      · exact ge.apart x hx x' hx' (fun e => he e.symm) p hpr _ (meta_mem _)
    unfold PageDisj at hd
    simp only at hd
    rcases hcase with h | h <;> omega

variable {base : Mem} {j : Journal.State} (hj : JInv c.jc base j) (hL : v.L = logical base j) (hU : v.U = unacked j)
include hj hL hU

theorem outside_heap {y : Nat} (h : c.heap.base ≤ y) : Journal.Outside c.jc y := .inr (by have := hc.journal; omega)

/-- the part of a record that is never changed -/
theorem dev_fixed {x : Own × Rec} (hx : x ∈ v.recs) {y : Nat} (h1 : y = x.2.off + 1 ∨ x.2.off + 8 ≤ y)
    (h2 : y < x.2.off + 2 ^ x.2.o.metaSizePow2) : j.dev y = v.L y := by
  have ho := ge.off hx
  rw [hL]
  apply hj.dev_eq (outside_heap hc g ge hj hL hU (by omega))
  intro t ht w hw
  by_contra hcon
  have := (pend_at_rec hc g ge hx (hU ▸ ht) hw (y := y) (by omega) (by omega) (by omega) h2).2
  rcases this with h | h <;> omega

theorem dev_state {r : Rec} (hr : (Own.linked, r) ∈ v.recs) (ho : v.ov.map (.state r.o.id) = none) :
    rdState j.dev r.off = rdState v.L r.off := by
  have ho' := ge.off hr
  simp only at ho'
  apply rdState_congr
  rw [hL]
  apply hj.dev_eq (outside_heap hc g ge hj hL hU (by omega))
  intro t ht w hw
  by_contra hcon
  have h := (pend_at_rec hc g ge hr (hU ▸ ht) hw (y := r.off) (by omega) (by omega) (Nat.le_refl _) (by simp only; omega)).2
  simp only at h
  rcases h with h | h
  · have := g.quiet (.state r.o.id) r.off ⟨r, hr, rfl, rfl⟩ ho t (hU ▸ ht) w hw h.2.1
    obtain ⟨n, hn, _⟩ := this
    cases hn
  · omega

theorem dev_next {r : Rec} (hr : (Own.linked, r) ∈ v.recs) (ho : v.ov.map (.next r.o.id) = none) :
    rdNext j.dev r.off = rdNext v.L r.off := by
  have ho' := ge.off hr
  simp only at ho'
  apply rdNext_congr
  intro y h1 h2
  rw [hL]
  apply hj.dev_eq (outside_heap hc g ge hj hL hU (by omega))
  intro t ht w hw
  by_contra hcon
  have h := (pend_at_rec hc g ge hr (hU ▸ ht) hw (y := y) (by omega) (by omega) (by simp only; omega) (by simp only; omega)).2
  simp only at h
  rcases h with h | h
  · omega
  · have := g.quiet (.next r.o.id) (r.off + 2) ⟨r, hr, rfl, rfl⟩ ho t (hU ▸ ht) w hw h.2.1
    obtain ⟨n, hn, _⟩ := this
    cases hn

theorem dev_head {b : Nat} (hb : b < 2 ^ c.bits) (ho : v.ov.map (.head b) = none) :
    rdHead j.dev c.bkDev b = rdHead v.L c.bkDev b := by
  apply rdHead_congr
  intro y h1 h2
  rw [hL]
  apply hj.dev_eq (.inl (by have := hc.buckets; omega))
  intro t ht w hw
  by_contra hcon
  have h := pend_at_head hc g ge hb (hU ▸ ht) hw (y := y) (by omega) (by omega) h1 h2
  have := g.quiet (.head b) _ ⟨hb, rfl⟩ ho t (hU ▸ ht) w hw h.1
  obtain ⟨n, hn, _⟩ := this
  cases hn

theorem dev_at {r : Rec} (hr : (Own.linked, r) ∈ v.recs) : At r.o j.dev r.off := by
  refine (g.att r hr).1.congr ?_
  intro y h1 h2
  have := (g.fit _ hr).1.room
  exact dev_fixed hc g ge hj hL hU hr h1 (by simp only at this ⊢; omega)

/-- the head as the store reads it -/
theorem head_read {s : LSt} (hs : s.j = j) (hov : v.ov = s.ov) {b : Nat} (hb : b < 2 ^ c.bits) :
    getHead c s b = rdHead v.L c.bkDev b := by
  unfold getHead
  rw [← hov, hs]
  cases ho : v.ov.map (.head b) with
  | none =>
    rw [show v.ov.get (.head b) = none by simp [Overlay.Ov.get, ho]]
    exact dev_head hc g ge hj hL hU hb ho
  | some p =>
    have hg : v.ov.get (.head b) = some p.2 := by simp [Overlay.Ov.get, ho]
    rw [hg]
    exact (g.cur (.head b) _ p.2 ⟨hb, rfl⟩ hg).symm

end

theorem ofBytes_read {m : Mem} {d n i : Nat} (h : i < n) : ofBytes (m.read d n) i = m (d + i) := by
  unfold ofBytes
  simp [List.getD, h, Mem.getElem_read]

/-- reading a field of a copy -/
theorem read_ofBytes {m : Mem} {d n a l : Nat} (h : a + l ≤ n) : (ofBytes (m.read d n)).read (0 + a) l = m.read (d + a) l := by
  apply List.ext_getElem
  · simp
  · intro i h1 h2
    simp only [Mem.length_read] at h1
    rw [Mem.getElem_read _ _ _ _ h1, Mem.getElem_read _ _ _ _ h1, ofBytes_read (by omega)]
    congr 1; omega

/-- a copy of a record just read -/
theorem copy_read {c : LCfg} (hc : c.Ok) {v : V} {ids : List Nat} (g : Good c v ids) (ge : Geo c v.recs) {base : Mem}
    {j : Journal.State} (hj : JInv c.jc base j) (hL : v.L = logical base j) (hU : v.U = unacked j) {r : Rec}
    (hr : (Own.linked, r) ∈ v.recs) :
    Copy v r (j.dev.read r.off ({ keyLen := rdKeyLen j.dev r.off } : ObjectOffsets).lpages) := by
  obtain ⟨c1, c2, c3, c4, c5, c6, c7, c8⟩ := consts
  have hat := dev_at hc g ge hj hL hU hr
  obtain ⟨f1, f2, f3, f4, f5⟩ := hat.fields (g.fit _ hr).1
  have hlen : ({ keyLen := rdKeyLen j.dev r.off } : ObjectOffsets).lpages = 37 + r.o.key.length := by
    rw [f4]; simp only [ObjectOffsets.lpages, c8]
  rw [hlen]
  have rd : ∀ a l, a + l ≤ 37 + r.o.key.length →
      (ofBytes (j.dev.read r.off (37 + r.o.key.length))).read (0 + a) l = j.dev.read (r.off + a) l := fun a l h => read_ofBytes h
  have hkl : rdKeyLen (ofBytes (j.dev.read r.off (37 + r.o.key.length))) 0 = r.o.key.length := by
    refine Eq.trans ?_ f4; unfold rdKeyLen rdBe; rw [rd _ _ (by rw [c7]; omega)]
  refine ⟨?_, ?_, ?_, ?_, ?_, ?_⟩
  · rw [← f3]; unfold rdId rdBe; rw [rd _ _ (by rw [c6]; omega)]
  · rw [← f1]; unfold rdMetaPow2; rw [rd _ _ (by rw [c2]; omega)]
  · rw [← f2]; unfold rdSize rdBe; rw [rd _ _ (by rw [c5]; omega)]
  · refine Eq.trans ?_ f5; unfold rdKey; rw [hkl, f4, rd _ _ (by rw [c8])]
  · intro ho
    rw [← dev_state hc g ge hj hL hU hr ho]
    unfold rdState; rw [rd _ _ (by rw [c1]; omega)]
  · intro ho
    rw [← dev_next hc g ge hj hL hU hr ho]
    unfold rdNext rdBe; rw [rd _ _ (by rw [c3]; omega)]

/-- a copy's state and next pointer, as the store reads them -/
theorem copy_state {c : LCfg} {v : V} {ids : List Nat} (g : Good c v ids) {s : LSt} (hov : v.ov = s.ov) {r : Rec}
    (hr : (Own.linked, r) ∈ v.recs) {raw : List Byte} (h : Copy v r raw) : rawState s raw = rdState v.L r.off := by
  unfold rawState
  rw [← hov, h.id]
  cases ho : v.ov.map (.state r.o.id) with
  | none =>
    rw [show v.ov.get (.state r.o.id) = none by simp [Overlay.Ov.get, ho]]
    exact h.state ho
  | some p =>
    have hg : v.ov.get (.state r.o.id) = some p.2 := by simp [Overlay.Ov.get, ho]
    rw [hg]
    exact (g.cur (.state r.o.id) r.off p.2 ⟨r, hr, rfl, rfl⟩ hg).symm

theorem copy_next {c : LCfg} {v : V} {ids : List Nat} (g : Good c v ids) {s : LSt} (hov : v.ov = s.ov) {r : Rec}
    (hr : (Own.linked, r) ∈ v.recs) {raw : List Byte} (h : Copy v r raw) : rawNext s raw = rdNext v.L r.off := by
  unfold rawNext
  rw [← hov, h.id]
  cases ho : v.ov.map (.next r.o.id) with
  | none =>
    rw [show v.ov.get (.next r.o.id) = none by simp [Overlay.Ov.get, ho]]
    exact h.next ho
  | some p =>
    have hg : v.ov.get (.next r.o.id) = some p.2 := by simp [Overlay.Ov.get, ho]
    rw [hg]
    exact (g.cur (.next r.o.id) (r.off + 2) p.2 ⟨r, hr, rfl, rfl⟩ hg).symm

end Lite
end Blobd
