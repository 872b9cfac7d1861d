import Verif.Proofs.LiteObject
import Verif.Proofs.WriteRead
import Verif.Proofs.ReadWrite2
import Verif.Proofs.DirectPages
import Verif.Proofs.LiteJournal
import Verif.Spec.LiteStore
set_option autoImplicit false
/-! # Records of the lite store on the device -/
namespace Blobd
namespace Lite
open Spec

structure Rec where
  off : Nat
  o : NewObject

/-- the object as the read and write operations see it -/
def NewObject.rw (o : NewObject) : RW.Obj := ⟨o.size, fun i => o.lpages.getD i 0, fun i => o.tailPages.getD i 0⟩

/-- data pages of an object -/
def dataPgs (pages : Pages) (o : NewObject) : List (Nat × Nat) :=
  match calcObjectLayout pages o.size with
  | some lay => RW.objPages pages lay o.rw
  | none => []

/-- all pages of an object, in the order they are released -/
def regs (pages : Pages) (r : Rec) : List (Nat × Nat) := dataPgs pages r.o ++ [(r.off, r.o.metaSizePow2)]

/-- what holds of any object `create` made -/
structure RecFits (pages : Pages) (o : NewObject) : Prop where
  fits : Fits o
  shaped : ∃ lay, Shaped pages o lay
  room : o.off.totalSize ≤ 2 ^ o.metaSizePow2

theorem getD_lt {l : List Nat} {i : Nat} (h : i < l.length) : l.getD i 0 = l[i] := by simp [List.getD, h]

theorem At.congr {o : NewObject} {m m' : Mem} {d : Nat} (h : At o m d)
    (he : ∀ x, (x = d + 1 ∨ d + 8 ≤ x) → x < d + o.off.totalSize → m' x = m x) : At o m' d := by
  obtain ⟨c1, c2, c3, c4, c5, c6, c7, c8⟩ := consts
  constructor
  intro w hw hn
  refine Eq.trans ?_ (h.rest w hw hn)
  apply Mem.read_congr
  intro x h1 h2
  have hr := fieldWrites_range o w hw hn
  apply he
  · rcases hr with ⟨e1, e2⟩ | hr
    · left; omega
    · right; omega
  · have hle : w.1 + w.2.length ≤ o.off.totalSize := by
      rw [off_total]
      unfold NewObject.fieldWrites at hw
      rcases List.mem_append.1 hw with hw | hw
      · simp only [List.mem_cons, List.not_mem_nil, or_false] at hw
        rcases hw with rfl | rfl | rfl | rfl | rfl | rfl | rfl | rfl | rfl <;>
          simp only [length_beBytes, length_leBytes, c1, c2, c4, c5, c6, c7, c8, off_assocLen, off_assoc] <;> omega
      · rcases List.mem_append.1 hw with hw | hw
        · have := pageWrites_range hw; rw [off_lpages] at this; omega
        · have := pageWrites_range hw; rw [off_tail] at this; omega
    omega

theorem totalSize_ge (o : NewObject) : 39 ≤ o.off.totalSize := by rw [off_total]; omega

/-- decoded fields a record keeps for life -/
theorem At.fields {pages : Pages} {o : NewObject} {m : Mem} {d : Nat} (h : At o m d) (hf : RecFits pages o) :
    rdMetaPow2 m d = o.metaSizePow2 ∧ rdSize m d = o.size ∧ rdId m d = o.id ∧ rdKeyLen m d = o.key.length ∧
      rdKey m d = o.key := by
  obtain ⟨lay, hs⟩ := hf.shaped
  obtain ⟨h1, _, h3, h4, h5, h6, _⟩ := h.decode hf.fits hs
  exact ⟨h1, h3, h4, h5, h6⟩

theorem At.rwPages {pages : Pages} (hp : RW.PagesOk pages) {o : NewObject} {m : Mem} {d : Nat} (h : At o m d)
    (hf : RecFits pages o) {lay : ObjectLayout} (hl : calcObjectLayout pages o.size = some lay) :
    RW.objPages pages lay (rwObj pages m d) = dataPgs pages o ∧ (rwObj pages m d).size = o.size := by
  obtain ⟨lay', hs⟩ := hf.shaped
  have hlay : lay' = lay := Option.some.inj (hs.eq.symm.trans hl)
  rw [hlay] at hs
  have hd := h.decode hf.fits hs
  obtain ⟨es, hi⟩ := RW.layInfo_of hp hl
  refine ⟨?_, hd.2.2.1⟩
  have h9 := hd.2.2.2.2.2.2.2.2.1
  have h10 := hd.2.2.2.2.2.2.2.2.2.1
  clear hd
  have e : dataPgs pages o = RW.objPages pages lay o.rw := by unfold dataPgs; rw [hl]
  rw [e, RW.objPages_eq hi.rep, RW.objPages_eq hi.rep]
  congr 1
  · apply List.map_congr_left
    intro i hi'
    have : i < o.lpages.length := by rw [hs.lpages]; exact List.mem_range.1 hi'
    show (rdLpage m d i, pages.lpage) = (o.lpages.getD i 0, pages.lpage)
    rw [h9 i this, getD_lt this]
  · apply List.map_congr_left
    intro ei hi'
    have : ei.2 < o.tailPages.length := by
      rw [hs.tails, hi.rep.len]
      have := List.mem_zipIdx hi'
      omega
    show ((rdTailPage pages m d ei.2).getD 0, ei.1) = (o.tailPages.getD ei.2 0, ei.1)
    rw [h10 ei.2 this, getD_lt this]; rfl

theorem recPages_eq {pages : Pages} (hp : RW.PagesOk pages) {r : Rec} {m : Mem} (h : At r.o m r.off)
    (hf : RecFits pages r.o) : recPages pages m r.off r.o.metaSizePow2 = some (regs pages r) := by
  obtain ⟨lay, hs⟩ := hf.shaped
  obtain ⟨es, hi⟩ := RW.layInfo_of hp hs.eq
  have h2 := (h.rwPages hp hf hs.eq).1
  unfold recPages regs
  rw [(h.fields hf).2.1, hs.eq, ← h2, RW.objPages_eq hi.rep]
  simp only [Option.map_some, hi.rep.toIter, List.map_map]
  rfl

theorem targets_in {pages : Pages} (hp : RW.PagesOk pages) {o : NewObject} {m : Mem} {d : Nat} (h : At o m d)
    (hf : RecFits pages o) {lay : ObjectLayout} (hl : calcObjectLayout pages o.size = some lay) {offset len : Nat}
    (hc : RW.writeCheck pages o.size offset len = none) :
    ∀ t ∈ RW.writeTargets pages lay (rwObj pages m d) offset, ∃ p ∈ dataPgs pages o, p.1 = t.2 ∧ t.1 ≤ 2 ^ p.2 := by
  obtain ⟨hpg, hsz⟩ := h.rwPages hp hf hl
  obtain ⟨es, hi⟩ := RW.layInfo_of hp hl
  rw [← hsz] at hi hc
  obtain ⟨hfit, _, a, b, hab, _⟩ := hi.targets hp offset len hc
  have key : ∀ {ts pp : List (Nat × Nat)}, RW.Fit ts pp → ∀ t ∈ ts, ∃ p ∈ pp, p.1 = t.2 ∧ t.1 ≤ 2 ^ p.2 := by
    intro ts pp hf
    induction hf with
    | nil => simp
    | last h0 h => intro t ht; simp only [List.mem_singleton] at ht; subst ht; exact ⟨_, List.mem_singleton.2 rfl, rfl, h⟩
    | cons _ ih =>
      intro t ht
      rcases List.mem_cons.1 ht with rfl | ht
      · exact ⟨_, List.mem_cons_self, rfl, Nat.le_refl _⟩
      · obtain ⟨p, h1, h2⟩ := ih t ht
        exact ⟨p, List.mem_cons_of_mem _ h1, h2⟩
  intro t ht
  obtain ⟨p, h1, h2⟩ := key hfit t ht
  refine ⟨p, ?_, h2⟩
  rw [← hpg, hab]
  simp [h1]

/-- the pages of an object whose offsets come from the allocator -/
theorem dataPgs_alloc {pages : Pages} (hp : RW.PagesOk pages) {size : Nat} {lay : ObjectLayout}
    (hl : calcObjectLayout pages size = some lay) {offs : List Nat} (hlen : offs.length = (Direct.dataSizes pages lay).length)
    (pow2 id created : Nat) (key assoc : List Byte) :
    dataPgs pages ⟨pow2, id, created, size, key, offs.take lay.lpageCount, offs.drop lay.lpageCount, assoc⟩ =
        offs.zip ((Direct.dataSizes pages lay).map (Buddy.requestPow2 pages)) ∧
      (∀ s ∈ Direct.dataSizes pages lay, Buddy.requestPow2 pages s ≤ pages.lpage) ∧
      (offs.take lay.lpageCount).length = lay.lpageCount ∧ (offs.drop lay.lpageCount).length = lay.tailPageSizes.len := by
  obtain ⟨es, hi⟩ := RW.layInfo_of hp hl
  obtain ⟨e1, e2⟩ := Direct.sizes_exps hp.le (lay := lay) (by rw [hi.rep.toList]; exact hi.bounds)
  have hlen' : offs.length = lay.lpageCount + es.length := by
    rw [hlen]; simp [Direct.dataSizes, hi.rep.toList]
  refine ⟨?_, e2, by simp; omega, by simp [hi.rep.len]; omega⟩
  rw [e1, hi.rep.toList]
  simp only [dataPgs, hl, RW.objPages_eq hi.rep, NewObject.rw]
  apply List.ext_getElem
  · simp; omega
  · intro i h1 h2
    simp only [List.length_append, List.length_map, List.length_range, List.length_zipIdx] at h1
    rw [List.getElem_append, List.getElem_zip, List.getElem_append]
    simp only [List.length_map, List.length_range, List.length_replicate]
    split
    · rename_i h
      simp only [List.getElem_map, List.getElem_range, List.getElem_replicate]
      rw [getD_lt (by simp; omega), List.getElem_take]
    · rename_i h
      simp only [List.getElem_map, List.getElem_zipIdx, Nat.zero_add]
      rw [getD_lt (by simp; omega), List.getElem_drop]
      congr 2; omega

/-! ## Pointers and states -/

theorem rdState_congr {m m' : Mem} {d : Nat} (h : m' d = m d) : rdState m' d = rdState m d := by
  unfold rdState
  rw [consts.1]
  congr 1
  apply Mem.read_congr
  intro x h1 h2
  have : x = d := by omega
  rw [this]; exact h

theorem rdNext_congr {m m' : Mem} {d : Nat} (h : ∀ x, d + 2 ≤ x → x < d + 8 → m' x = m x) : rdNext m' d = rdNext m d := by
  unfold rdNext rdBe
  rw [consts.2.2.1]
  congr 1
  apply Mem.read_congr
  intro x h1 h2
  exact h x (by omega) (by omega)

theorem rdHead_congr {m m' : Mem} {base b : Nat} (h : ∀ x, base + 5 * b ≤ x → x < base + 5 * b + 5 → m' x = m x) :
    rdHead m' base b = rdHead m base b := by
  unfold rdHead rdBe bucketOff
  congr 2
  apply Mem.read_congr
  intro x h1 h2
  exact h x (by omega) (by omega)

theorem rdState_write {m : Mem} {d st : Nat} (h : st < 2 ^ 8) : rdState (m.write (d + ObjectOffsets.state) (leBytes 1 st)) d = st := by
  unfold rdState
  have := Mem.read_write_same m (d + ObjectOffsets.state) (leBytes 1 st)
  rw [length_leBytes] at this
  rw [this, leVal_leBytes_of_lt (by simpa using h)]

theorem rdNext_write {m : Mem} {d nx : Nat} (h : nx < 2 ^ 48) : rdNext (m.write (d + ObjectOffsets.nextNode) (beBytes 6 nx)) d = nx := by
  unfold rdNext rdBe
  have := Mem.read_write_same m (d + ObjectOffsets.nextNode) (beBytes 6 nx)
  rw [length_beBytes] at this
  rw [this, beVal_beBytes_of_lt (by simpa using h)]

/-- following next pointers from `h` visits `l` and arrives at `e` -/
def Seg (m : Mem) : Nat → List Rec → Nat → Prop
  | h, [], e => h = e
  | h, r :: l, e => h = r.off ∧ Seg m (rdNext m r.off) l e

/-- where a list starts -/
def headOff (l : List Rec) : Nat := (l.head?.map Rec.off).getD 0

theorem Seg.append {m : Mem} {l1 l2 : List Rec} {h e : Nat} : Seg m h (l1 ++ l2) e ↔ ∃ x, Seg m h l1 x ∧ Seg m x l2 e := by
  induction l1 generalizing h with
  | nil => simp [Seg]
  | cons r l ih => simp only [List.cons_append, Seg, ih]; grind

theorem Seg.congr {m m' : Mem} {l : List Rec} {h e : Nat} (hs : Seg m h l e)
    (hc : ∀ r ∈ l, rdNext m' r.off = rdNext m r.off) : Seg m' h l e := by
  induction l generalizing h with
  | nil => exact hs
  | cons r l ih =>
    refine ⟨hs.1, ?_⟩
    rw [hc r (by simp)]
    exact ih hs.2 (fun r hr => hc r (by simp [hr]))

theorem Seg.head {m : Mem} {l : List Rec} {h : Nat} (hs : Seg m h l 0) : h = headOff l := by
  cases l with
  | nil => exact hs
  | cons r l => exact hs.1

end Lite
end Blobd
