import Verif.Proofs.LiteStep
set_option autoImplicit false
/-! # Steps of the lite store: creating, walking, waiting -/
namespace Blobd
namespace Lite
open Spec

theorem state_encode (o : NewObject) (m : Mem) (d : Nat) : rdState (m.write d o.encode) d = stIncomplete := by
  have h := read_field o m d (0, leBytes 1 stIncomplete) (by simp [NewObject.fieldWrites, consts.1])
    (by rw [off_total]; simp; omega)
  unfold rdState
  rw [consts.1]
  simp only [length_leBytes] at h
  rw [h, leVal_leBytes_of_lt (by decide)]

section
variable {c : LCfg} (hc : c.Ok) {s : LSt} {base : Mem} {v : V} {leak : List (Nat × Nat)} (h : LInv c s base v leak)
include hc h

/-- libblobd-lite/src/op/write_object.rs:158-166 -/
theorem step_data {i : Nat} {t : Thread} {key : List Byte} {wid : Nat} {targets : List (Nat × Nat)} (ht : s.thr i = some t)
    (hp : t.pc = .writing key wid targets) {n amount page skip : Nat} {bytes : List Byte} (htg : targets[n]? = some (amount, page))
    (hl : skip + bytes.length ≤ amount) :
    ∃ base' v', LInv c { s with j := { s.j with dev := s.j.dev.write (page + skip) bytes } } base' v' leak ∧ v'.ch = v.ch := by
  have hpc := (h.thr i t ht).2
  rw [hp] at hpc
  obtain ⟨r, r1, r2, r3, r4⟩ := hpc
  obtain ⟨p, p1, p2, p3⟩ := r4 _ (List.mem_of_getElem? htg)
  simp only at p2 p3
  have hr : (Own.linked, r) ∈ v.recs := by rw [h.good.lnk, h.good.chb _ r r1]; exact r1
  obtain ⟨base', k1, k2, k3, k4, k5⟩ := page_write hc h (i := s.nextCall) hr (p := p) (by simp [regs, p1]) (.inl p1) (a := page + skip)
    (d := bytes) (by omega) (by omega)
  refine ⟨base', _, h.build k4 k1 k2 h.U h.ov h.heap k3 (fun _ _ => rfl) (Nat.le_refl _) ?_ (fun _ _ _ _ _ _ _ h => h)
    (fun _ _ _ _ _ _ => ⟨fun h => h, fun h => h⟩) (by rw [k5]; exact h.abs) h.orph (.quiet (fun _ h => h) h.noCall), rfl⟩
  intro t ht
  exact absurd (h.thr _ t ht).1 (Nat.lt_irrefl _)

/-- libblobd-lite/src/op/create_object.rs:96 -/
theorem step_createWritten {i : Nat} {t : Thread} {o : NewObject} {off : Nat} (ht : s.thr i = some t) (hp : t.pc = .createWrite o off) :
    ∃ base' v', LInv c (setPc { s with j := { s.j with dev := s.j.dev.write off o.encode } } i t (.createLink o off)) base' v' leak ∧ v'.ch = v.ch := by
  have hpc := (h.thr i t ht).2
  rw [hp] at hpc
  have hpc : (Own.fresh i, ⟨off, o⟩) ∈ v.recs := hpc
  have hroom := (h.good.fit _ hpc).1.room
  have hlen : o.encode.length = o.off.totalSize := by simp [NewObject.encode, Mem.length_read]
  obtain ⟨base', k1, k2, k3, k4, k5⟩ := page_write hc h (i := i) hpc (p := (off, o.metaSizePow2)) (meta_mem (pages := c.pages) ⟨off, o⟩)
    (.inr rfl) (a := off) (d := o.encode) (Nat.le_refl _) (by simp only at hroom ⊢; omega)
  refine ⟨base', _, h.build k4 k1 k2 h.U h.ov h.heap k3 ?_ (Nat.le_refl _) ?_ (fun _ _ _ _ _ _ _ h => h)
    (fun _ _ _ _ _ _ => ⟨fun h => h, fun h => h⟩) (by rw [k5]; exact h.abs) h.orph ?_, rfl⟩
  · intro j hj; simp [setPc, upd, hj]
  · intro t' ht'
    have : t' = { t with pc := .createLink o off } := by simpa [setPc, upd] using ht'.symm
    rw [this]
    exact ⟨(h.thr i t ht).1, ⟨hpc, at_encode _ _ _, (state_encode o v.L off)⟩, LockOk.none rfl⟩
  · intro x hx
    by_cases e : x = (Own.fresh i, ⟨off, o⟩)
    · exact .inr (.inr ⟨{ t with pc := .createLink o off }, by simp [setPc, upd], e⟩)
    · refine .inr (.inl ⟨hx, fun t' ht' => ?_⟩)
      rw [ht] at ht'
      cases ht'
      rw [hp]
      exact e

/-- a record is added for a new `create` -/
theorem add_rec {a : Buddy} {leak' : List (Nat × Nat)} {i : Nat} {r : Rec} (hh : Heap c ((Own.fresh i, r) :: v.recs) a leak')
    (hfit : RecFits c.pages r.o) (hid : r.o.id ∉ s.ids) :
    Good c { v with recs := (Own.fresh i, r) :: v.recs } (r.o.id :: s.ids) ∧
      Keep c v { v with recs := (Own.fresh i, r) :: v.recs } i (fun _ => False) (fun _ => False) := by
  have g := h.good
  have ge := geo_of hc hh
  have hlk : ∀ r', (Own.linked, r') ∈ (Own.fresh i, r) :: v.recs ↔ (Own.linked, r') ∈ v.recs := by
    intro r'; simp
  have hcell : ∀ k a, CellAt c { v with recs := (Own.fresh i, r) :: v.recs } k a ↔ CellAt c v k a := by
    intro k a
    cases k <;> simp [CellAt]
  have hoff : ∀ x ∈ v.recs, r.off ≠ x.2.off := by
    intro x hx e
    have hp := (List.pairwise_append.1 hh.disj).1
    rw [List.flatMap_cons, List.pairwise_append] at hp
    have := hp.2.2 _ (meta_mem r) (x.2.off, x.2.o.metaSizePow2) (List.mem_flatMap.2 ⟨x, hx, meta_mem _⟩)
    have p1 := Nat.two_pow_pos r.o.metaSizePow2
    have p2 := Nat.two_pow_pos x.2.o.metaSizePow2
    unfold PageDisj at this
    simp only at this
    omega
  refine ⟨{ toCells := ?_, toLists := ?_, toBase := ?_ }, ?_⟩
  · refine ⟨?_, fun k a x hk => g.cur k a x ((hcell k a).1 hk), fun k a hk => g.quiet k a ((hcell k a).1 hk), ?_, g.ser⟩
    · intro t ht w hw
      rcases g.pend t ht w hw with h | ⟨x, h1, h2⟩
      · exact .inl h
      · exact .inr ⟨x, List.mem_cons_of_mem _ h1, h2⟩
    · intro id ho
      obtain ⟨h1, h2⟩ := g.ovid id ho
      refine ⟨List.mem_cons_of_mem _ h1, ?_⟩
      intro j r' hr' e
      rcases List.mem_cons.1 hr' with h' | h'
      · cases h'
        exact hid (e ▸ h1)
      · exact h2 j r' h' e
  · exact ⟨fun r' hr' => g.att r' ((hlk r').1 hr'), fun r' => (hlk r').trans (g.lnk r'), g.chb, g.chn, g.chain⟩
  · refine ⟨?_, ?_, ?_⟩
    · intro x hx
      rcases List.mem_cons.1 hx with rfl | hx
      · exact ⟨hfit, List.mem_cons_self⟩
      · exact ⟨(g.fit x hx).1, List.mem_cons_of_mem _ (g.fit x hx).2⟩
    · rw [List.map_cons, List.nodup_cons]
      refine ⟨?_, g.offs⟩
      intro hm
      obtain ⟨x, h1, h2⟩ := List.mem_map.1 hm
      exact hoff x h1 h2.symm
    · rw [List.map_cons, List.nodup_cons]
      refine ⟨?_, g.idn⟩
      intro hm
      obtain ⟨x, h1, h2⟩ := List.mem_map.1 hm
      exact hid (h2 ▸ (g.fit x h1).2)
  · refine ⟨fun _ _ => rfl, fun _ _ _ _ => ⟨rfl, rfl⟩, fun _ _ _ _ _ _ _ h => h, fun _ _ _ h => ⟨List.mem_cons_of_mem _ h, fun h => h, rfl⟩,
      fun _ _ _ h => ⟨List.mem_cons_of_mem _ h, fun _ ht _ _ _ => ht⟩, Nat.le_refl _, ?_⟩
    intro k n x hk _
    exact ⟨hk, fun a ha => ⟨(hcell k a).1 ha, fun _ ht _ _ _ => ht⟩⟩

theorem LInv.newThread {s' : LSt} {leak' : List (Nat × Nat)} {st : Begun} {pc : PC}
    (hj : s'.j = s.j) (hov : s'.ov = s.ov) (hal : Heap c v.recs s'.alloc leak') (hids : s'.ids = s.ids) (hor : s'.orphans = s.orphans)
    (hthr : s'.thr = upd s.thr s.nextCall (some ⟨st, pc⟩)) (hn : s'.nextCall = s.nextCall + 1)
    (hp : PcOk c v s.nextCall pc) (hl : LockOk c s s.nextCall pc) (hlin : s'.lin = s.lin) : LInv c s' base v leak' := by
  refine h.build (i := s.nextCall) (Keep.refl c v _) (by rw [hj]; exact h.jinv) (by rw [hj]; exact h.L) (by rw [hj]; exact h.U)
    (by rw [hov]; exact h.ov) hal (by rw [hids]; exact h.good) ?_ (by omega) ?_ (fun _ _ _ _ _ _ _ h => h)
    (fun _ _ _ _ _ _ => ⟨fun h => h, fun h => h⟩) (by rw [hlin]; exact h.abs) (by rw [hor]; exact h.orph)
    (.quiet (fun _ h => h) h.noCall)
  · intro j hj'; rw [hthr]; simp [upd, hj']
  · intro t ht
    have : t = ⟨st, pc⟩ := by rw [hthr] at ht; simpa [upd] using ht.symm
    rw [this]
    exact ⟨by omega, hp, hl⟩

/-- libblobd-lite/src/op/create_object.rs:38-93 -/
theorem step_create {key : List Byte} {size : Nat} {assoc : List Byte} {created id : Nat} {s' : LSt}
    (hs : create c s key size assoc created id = some s') : ∃ v' leak', LInv c s' base v' leak' ∧ v'.ch = v.ch ∧ s'.lin = s.lin ∧
      (leak' = leak ∨ ∃ st, s'.thr s.nextCall = some ⟨st, .dead⟩ ∧ st.call = .create key size) := by
  unfold create at hs
  split at hs
  · rename_i hg
    obtain ⟨g1, g2, g3, g4, g5, g6⟩ := hg
    split at hs
    · cases hs
    · rename_i lay hlay
      simp only at hs
      split at hs
      · cases hs
        refine ⟨v, leak, h.same (i := s.nextCall) rfl rfl rfl rfl rfl (fun _ _ => rfl) (Nat.le_succ _) ?_ h.abs (.quiet (fun _ h => h) h.noCall), rfl, rfl, .inl rfl⟩
        intro t ht
        exact absurd (h.thr _ t ht).1 (Nat.lt_irrefl _)
      · rename_i hsz
        have hsizes : ∀ s ∈ Direct.dataSizes c.pages lay, Buddy.requestPow2 c.pages s ≤ c.pages.lpage :=
          (dataPgs_alloc hc.rw hlay (offs := List.replicate (Direct.dataSizes c.pages lay).length 0) (by simp) 0 0 0 [] []).2.1
        split at hs
        · rename_i a ha
          cases hs
          obtain ⟨lk, hi⟩ := Direct.allocPages_inv h.heap hsizes ha
          have hl : Heap c v.recs a (lk ++ leak) := by
            unfold Heap
            refine hi.perm ?_
            rw [← List.append_assoc, ← List.append_assoc]
            exact List.perm_append_comm.append_right _
          exact ⟨v, lk ++ leak, LInv.newThread hc h (pc := .dead) rfl rfl hl rfl rfl rfl rfl trivial (LockOk.none rfl) rfl, rfl, rfl,
            .inr ⟨⟨.create key size, s.lin.length⟩, by simp [upd], rfl⟩⟩
        · rename_i offs a ha
          obtain ⟨hlen, hi⟩ := Direct.allocPages_inv h.heap hsizes ha
          have hreq := nextPow2Exp_le (Nat.le_of_not_gt hsz)
          have hreq' : Buddy.requestPow2 c.heap.pages
              ({ keyLen := key.length, lpageCount := lay.lpageCount, tailPageCount := lay.tailPageSizes.len, assocDataLen := assoc.length } :
                ObjectOffsets).totalSize ≤ c.heap.pages.lpage := Nat.max_le.2 ⟨hc.sl, hreq⟩
          rcases hi.alloc _ hreq' with ⟨n, b', e1, _, e3, _⟩ | ⟨b', e1, e2, _⟩
          · rw [e1] at hs
            simp only [Option.some.injEq] at hs
            obtain ⟨d1, d2, d3, d4⟩ := dataPgs_alloc hc.rw hlay hlen (Buddy.requestPow2 c.pages
              ({ keyLen := key.length, lpageCount := lay.lpageCount, tailPageCount := lay.tailPageSizes.len, assocDataLen := assoc.length } :
                ObjectOffsets).totalSize) id created key assoc
            generalize hmo : c.heap.base + n * 2 ^ Buddy.requestPow2 c.heap.pages
              ({ keyLen := key.length, lpageCount := lay.lpageCount, tailPageCount := lay.tailPageSizes.len, assocDataLen := assoc.length } :
                ObjectOffsets).totalSize = mo at e1 e3 hs
            generalize ho : (⟨Buddy.requestPow2 c.pages
              ({ keyLen := key.length, lpageCount := lay.lpageCount, tailPageCount := lay.tailPageSizes.len, assocDataLen := assoc.length } :
                ObjectOffsets).totalSize, id, created, size, key, offs.take lay.lpageCount, offs.drop lay.lpageCount, assoc⟩ : NewObject) = o at d1 hs
            have hoff : o.off.totalSize = ({ keyLen := key.length, lpageCount := lay.lpageCount, tailPageCount := lay.tailPageSizes.len, assocDataLen := assoc.length } :
                ObjectOffsets).totalSize := by
              rw [← ho]
              simp only [NewObject.off, d3, d4]
            have hH : Heap c ((Own.fresh s.nextCall, ⟨mo, o⟩) :: v.recs) b' leak := by
              unfold Heap
              refine e3.perm ?_
              rw [List.flatMap_cons]
              simp only [regs, d1]
              rw [← ho]
              simp only [List.append_assoc, List.singleton_append]
              exact List.perm_middle.symm
            have hpgs : ∀ q ∈ offs, q < 2 ^ 48 := by
              intro q hq
              obtain ⟨j, hj, e⟩ := List.getElem_of_mem hq
              have hm : (q, ((Direct.dataSizes c.pages lay).map (Buddy.requestPow2 c.pages))[j]'(by simp; omega)) ∈
                  offs.zip ((Direct.dataSizes c.pages lay).map (Buddy.requestPow2 c.pages)) := by
                rw [List.mem_iff_getElem]
                exact ⟨j, by simp; omega, by simp [e]⟩
              obtain ⟨⟨_, _, p3⟩, _⟩ := hi.pgs _ (List.mem_append_left _ hm)
              have := hc.heapEnd
              have := Nat.two_pow_pos (((Direct.dataSizes c.pages lay).map (Buddy.requestPow2 c.pages))[j]'(by simp; omega))
              simp only at p3
              omega
            have hfit : RecFits c.pages o := by
              refine ⟨?_, ⟨lay, ?_⟩, ?_⟩
              · rw [← ho]
                refine ⟨?_, g5, g4, g3, g1, g2, fun q hq => hpgs q (List.mem_of_mem_take hq), fun q hq => hpgs q (List.mem_of_mem_drop hq)⟩
                have := hc.l32
                exact Nat.lt_of_le_of_lt hreq' (by omega)
              · rw [← ho]
                exact ⟨hlay, d3, d4⟩
              · rw [hoff, ← ho]
                exact Nat.le_trans (le_nextPow2 _) (Nat.pow_le_pow_right (by decide) (Nat.le_max_right _ _))
            have hoid : o.id = id := by rw [← ho]
            obtain ⟨k1, k2⟩ := add_rec hc h (i := s.nextCall) (r := ⟨mo, o⟩) hH hfit (by simp only; rw [hoid]; exact g6)
            cases hs
            refine ⟨_, leak, h.build k2 h.jinv h.L h.U h.ov hH (by simp only [hoid] at k1; exact k1) ?_ (Nat.le_succ _) ?_
              (fun _ _ _ _ _ _ _ h => h) (fun _ _ _ _ _ _ => ⟨fun h => h, fun h => h⟩) h.abs h.orph ?_, rfl, rfl, .inl rfl⟩
            · intro j hj; simp [upd, hj]
            · intro t ht
              have : t = ⟨⟨.create key size, s.lin.length⟩, .createWrite o mo⟩ := by simpa [upd] using ht.symm
              rw [this]
              exact ⟨Nat.lt_succ_self _, List.mem_cons_self, LockOk.none rfl⟩
            · intro x hx
              rcases List.mem_cons.1 hx with rfl | hx
              · exact .inr (.inr ⟨⟨⟨.create key size, s.lin.length⟩, .createWrite o mo⟩, by simp [upd], rfl⟩)
              · exact .inr (.inl ⟨hx, h.noCall⟩)
          · rw [e1] at hs
            simp only [Option.some.injEq] at hs
            cases hs
            have hl : Heap c v.recs b' (offs.zip ((Direct.dataSizes c.pages lay).map (Buddy.requestPow2 c.pages)) ++ leak) := by
              unfold Heap
              refine e2.perm ?_
              rw [← List.append_assoc, ← List.append_assoc]
              exact List.perm_append_comm.append_right _
            exact ⟨v, _, LInv.newThread hc h (pc := .dead) rfl rfl hl rfl rfl rfl rfl trivial (LockOk.none rfl) rfl, rfl, rfl,
            .inr ⟨⟨.create key size, s.lin.length⟩, by simp [upd], rfl⟩⟩
  · cases hs

end
end Lite
end Blobd
