import Verif.Proofs.LiteUploadRun
import Verif.Props.ReadWrite
set_option autoImplicit false
/-!
# C80: what was uploaded to the lite store is what is read from it

Model: Model/LiteUpload (request bodies), Model/LiteStore. Vocabulary: Spec/LiteUpload, Spec/LiteStore.
-/
namespace Blobd
namespace Props
open Lite Lite.Upload

/-- **C80 (lite), answered parts.** Calls overlapping in any way, without the faults of C15: once a `write_object` call for a part of an
object has been answered with success, every byte of that part, for as long as the object exists (incomplete or committed), is one that
was sent for this place of this object in the body of a `write_object` call. -/
theorem C80_acked_parts_partial (c : LCfg) (hc : c.Ok) (w : World) (h : Runs c w) (hf : w.s.faults = []) (off part pos : Nat)
    (hl : Listed c w.s off) (ha : PartAcked w.s (rdId w.s.j.dev off) part) (h1 : part ≤ pos) (h2 : pos < part + 2 ^ c.pages.lpage)
    (h3 : pos < rdSize w.s.j.dev off) :
    ∃ y, byteAddr (dataAt c w.s.j.dev off) pos = some y ∧ Uploaded w (rdId w.s.j.dev off) pos (w.s.j.dev y) := by
  obtain ⟨base, v, leak, hi, hu⟩ := runs_inv hc h hf
  obtain ⟨r, rfl, hr⟩ := (listed_iff hc hi).1 hl
  obtain ⟨f1, f2, f3⟩ := inode_fields hc hi hr
  have hat := dev_at hc hi.good (hi.geo hc) hi.jinv hi.L hi.U hr
  have hfit := (hi.good.fit _ hr).1
  obtain ⟨lay, hs⟩ := hfit.shaped
  obtain ⟨es, hly⟩ := RW.layInfo_of hc.rw hs.eq
  rw [f1] at ha ⊢
  rw [f3] at h3
  have he := dataAt_eq hc hat hfit
  have hsz : r.o.size ≤ RW.psum (dataPgs c.pages r.o) := by
    have := hly.size_le r.o.rw
    unfold dataPgs
    rw [hs.eq]
    exact this
  obtain ⟨y, hy⟩ := ba_some (Nat.lt_of_lt_of_le h3 hsz)
  exact ⟨y, by rw [he]; exact hy, (hu.ack _ _ ha).2 r hr rfl pos y h1 h2 h3 hy⟩

/-- **C80 (lite), contents.** If every part of the object has been answered with success and the bodies sent for it are parts of `D`, the
object holds exactly `D`. -/
theorem C80_contents_partial (c : LCfg) (hc : c.Ok) (w : World) (h : Runs c w) (hf : w.s.faults = []) (off : Nat) (hl : Listed c w.s off)
    (ha : ∀ k, k * 2 ^ c.pages.lpage < rdSize w.s.j.dev off → PartAcked w.s (rdId w.s.j.dev off) (k * 2 ^ c.pages.lpage))
    (D : List Byte) (hD : D.length = rdSize w.s.j.dev off)
    (hsent : ∀ part body, (rdId w.s.j.dev off, part, body) ∈ w.sent → ∀ k b, (received body)[k]? = some b → part + k < D.length →
      D[part + k]? = some b) :
    ∃ lay, calcObjectLayout c.pages (rdSize w.s.j.dev off) = some lay ∧
      RW.contents c.pages lay w.s.j.dev (rwObj c.pages w.s.j.dev off) = D := by
  obtain ⟨lay, es, hly⟩ := RW.layInfo hc.rw (rdSize w.s.j.dev off)
  refine ⟨lay, hly.eq, ?_⟩
  have hda : dataAt c w.s.j.dev off = RW.objPages c.pages lay (rwObj c.pages w.s.j.dev off) := by
    unfold dataAt
    rw [hly.eq]
  have hpos := Nat.two_pow_pos c.pages.lpage
  apply List.ext_getElem?
  intro pos
  unfold RW.contents
  rw [List.getElem?_take]
  have hsz : (rwObj c.pages w.s.j.dev off).size = rdSize w.s.j.dev off := rfl
  by_cases hlt : pos < rdSize w.s.j.dev off
  · rw [hsz, if_pos hlt]
    have hdm := Nat.div_add_mod pos (2 ^ c.pages.lpage)
    have hml := Nat.mod_lt pos hpos
    have hk : pos / 2 ^ c.pages.lpage * 2 ^ c.pages.lpage ≤ pos := Nat.div_mul_le_self _ _
    obtain ⟨y, y1, part, body, y2, y3, y4⟩ := C80_acked_parts_partial c hc w h hf off (pos / 2 ^ c.pages.lpage * 2 ^ c.pages.lpage) pos hl
      (ha _ (by omega)) hk (by rw [Nat.mul_comm] at hk ⊢; omega) hlt
    rw [ba_get, ← hda, y1, Option.map_some]
    have := hsent part body y2 _ _ y4 (by omega)
    rw [show part + (pos - part) = pos by omega] at this
    exact this.symm
  · rw [hsz, if_neg hlt, List.getElem?_eq_none (by omega)]

/-- **C80 (lite), reads.** In that case every accepted range read from the object yields exactly these bytes of `D`. -/
theorem C80_read_partial (c : LCfg) (hc : c.Ok) (w : World) (h : Runs c w) (hf : w.s.faults = []) (off : Nat) (hl : Listed c w.s off)
    (ha : ∀ k, k * 2 ^ c.pages.lpage < rdSize w.s.j.dev off → PartAcked w.s (rdId w.s.j.dev off) (k * 2 ^ c.pages.lpage))
    (D : List Byte) (hD : D.length = rdSize w.s.j.dev off)
    (hsent : ∀ part body, (rdId w.s.j.dev off, part, body) ∈ w.sent → ∀ k b, (received body)[k]? = some b → part + k < D.length →
      D[part + k]? = some b)
    (start stop : Nat) (stop? : Option Nat) (hst : stop = stop?.getD D.length) (h1 : start < stop) (h2 : stop ≤ D.length)
    (fuel : Nat) (hfu : stop - start < fuel) :
    ∃ chunks, RW.opReadLite c.pages (rwObj c.pages w.s.j.dev off) w.s.j.dev start stop? fuel = .ret (.ok chunks) ∧
      chunks.flatten = (D.drop start).take (stop - start) := by
  obtain ⟨lay, e1, e2⟩ := C80_contents_partial c hc w h hf off hl ha D hD hsent
  obtain ⟨chunks, g1, g2, _⟩ := C18_lite_read_exact c.pages hc.rw (rwObj c.pages w.s.j.dev off) w.s.j.dev lay e1 start stop stop?
    (by rw [hst, hD]; rfl) h1 (by show stop ≤ rdSize w.s.j.dev off; omega) fuel hfu
  exact ⟨chunks, g1, by rw [g2, e2]⟩

/-- **C80 (lite), one call at a time.** Then none of the faults can happen and there is no exclusion: an object all of whose parts were
answered with success holds exactly what was sent. -/
theorem C80_sequential (c : LCfg) (hc : c.Ok) (w : World) (h : Runs c w) (hs : SeqReach c w.s) (off : Nat) (hl : Listed c w.s off)
    (ha : ∀ k, k * 2 ^ c.pages.lpage < rdSize w.s.j.dev off → PartAcked w.s (rdId w.s.j.dev off) (k * 2 ^ c.pages.lpage))
    (D : List Byte) (hD : D.length = rdSize w.s.j.dev off)
    (hsent : ∀ part body, (rdId w.s.j.dev off, part, body) ∈ w.sent → ∀ k b, (received body)[k]? = some b → part + k < D.length →
      D[part + k]? = some b)
    (start stop : Nat) (stop? : Option Nat) (hst : stop = stop?.getD D.length) (h1 : start < stop) (h2 : stop ≤ D.length)
    (fuel : Nat) (hfu : stop - start < fuel) :
    ∃ chunks, RW.opReadLite c.pages (rwObj c.pages w.s.j.dev off) w.s.j.dev start stop? fuel = .ret (.ok chunks) ∧
      chunks.flatten = (D.drop start).take (stop - start) :=
  C80_read_partial c hc w h (seq_faults hc hs).2 off hl ha D hD hsent start stop stop? hst h1 h2 fuel hfu

/-- an object of 1027 bytes (two parts) is created, its second part is sent in two chunks and its first in one, and it is committed -/
def upTwo : List UCmd := (doCreate 0 [1] 1027 5).map .c ++
  [.c (.a (.lookup (.write 5 1024 3) [1])), .c (.a (.read 1)), .start 1 [.ok [1, 2], .ok [3]], .chunk 1, .chunk 1, .begin_ 1, .written 1, .ack 1] ++
  [.c (.a (.lookup (.write 5 0 1024) [1])), .c (.a (.read 2)), .start 2 [.ok (List.replicate 1024 9)], .chunk 2, .begin_ 2, .written 2, .ack 2] ++
  (doCommit 3 [1] 5 1).map .c

/-- Its hypotheses are met: that object, all its parts answered, read from byte 1022 on. -/
example : ∃ w off, Runs wcfg w ∧ SeqReach wcfg w.s ∧ wcfg.Ok ∧ w.s.faults = [] ∧ Listed wcfg w.s off ∧ rdSize w.s.j.dev off = 1027 ∧
    (∀ k, k * 2 ^ wcfg.pages.lpage < rdSize w.s.j.dev off → PartAcked w.s (rdId w.s.j.dev off) (k * 2 ^ wcfg.pages.lpage)) ∧
    (∀ part body, (rdId w.s.j.dev off, part, body) ∈ w.sent → ∀ k b, (received body)[k]? = some b → part + k < 1027 →
      (List.replicate 1024 9 ++ [1, 2, 3])[part + k]? = some b) ∧
    ∃ chunks, RW.opReadLite wcfg.pages (rwObj wcfg.pages w.s.j.dev off) w.s.j.dev 1022 none 6 = .ret (.ok chunks) ∧
      chunks.flatten = [9, 9, 1, 2, 3] := by
  have h : (wup upTwo).map (fun w => decide (listOf w.s 9 (getHead wcfg w.s 0) = [34048]) && (decide (rdSize w.s.j.dev 34048 = 1027) &&
      (decide (rdId w.s.j.dev 34048 = 5) && (decide (w.s.acks.map (fun a => (a.start.call, a.resp)) =
        [(.create [1] 1027, .created 5), (.lookup (.write 5 1024 3) [1], .written (.ok ())),
        (.lookup (.write 5 0 1024) [1], .written (.ok ())), (.lookup (.commit 5) [1], .committed)]) &&
      decide (w.sent.map (fun x => (x.1, x.2.1, received x.2.2)) = [(5, 0, List.replicate 1024 9), (5, 1024, [1, 2, 3])]))))) =
      some true := by decide +kernel
  obtain ⟨w, hw, e⟩ := Option.map_eq_some_iff.1 h
  simp only [Bool.and_eq_true, decide_eq_true_eq] at e
  obtain ⟨e1, e2, e3, e4, e5⟩ := e
  obtain ⟨hr, hs⟩ := wup_ok hw
  have hl : Listed wcfg w.s 34048 := ⟨0, Nat.two_pow_pos _, _, listOf_chain (n := 9) (by rw [e1]; decide), by rw [e1]; simp⟩
  have hack : ∀ x, x ∈ w.s.acks.map (fun a => (a.start.call, a.resp)) → ∃ a ∈ w.s.acks, a.start.call = x.1 ∧ a.resp = x.2 := by
    intro x hx
    obtain ⟨a, h1, rfl⟩ := List.mem_map.1 hx
    exact ⟨a, h1, rfl, rfl⟩
  have ha : ∀ k, k * 2 ^ wcfg.pages.lpage < rdSize w.s.j.dev 34048 → PartAcked w.s (rdId w.s.j.dev 34048) (k * 2 ^ wcfg.pages.lpage) := by
    intro k hk
    rw [e2] at hk
    rw [e3]
    have hk : k * 1024 < 1027 := hk
    show PartAcked w.s 5 (k * 1024)
    have : k = 0 ∨ k = 1 := by omega
    rcases this with rfl | rfl
    · obtain ⟨a, a1, a2, a3⟩ := hack (.lookup (.write 5 0 1024) [1], .written (.ok ())) (by rw [e4]; simp)
      exact ⟨a, a1, [1], 1024, a2, a3⟩
    · obtain ⟨a, a1, a2, a3⟩ := hack (.lookup (.write 5 1024 3) [1], .written (.ok ())) (by rw [e4]; simp)
      exact ⟨a, a1, [1], 3, a2, a3⟩
  have hD : (List.replicate 1024 9 ++ [1, 2, 3] : List Byte).length = 1027 := by
    rw [List.length_append, List.length_replicate]
    rfl
  have hsent : ∀ part body, (rdId w.s.j.dev 34048, part, body) ∈ w.sent → ∀ k b, (received body)[k]? = some b → part + k < 1027 →
      (List.replicate 1024 9 ++ [1, 2, 3])[part + k]? = some b := by
    intro part body hm k b hb _
    have hm' := List.mem_map_of_mem (f := fun x : Nat × Nat × List (Except Unit (List Byte)) => (x.1, x.2.1, received x.2.2)) hm
    rw [e5] at hm'
    simp only [List.mem_cons, List.not_mem_nil, or_false, Prod.mk.injEq] at hm'
    rcases hm' with ⟨_, rfl, r⟩ | ⟨_, rfl, r⟩
    · rw [r] at hb
      have := (List.getElem?_eq_some_iff.1 hb).1
      rw [Nat.zero_add, List.getElem?_append_left this]
      exact hb
    · rw [r] at hb
      rw [List.getElem?_append_right (by rw [List.length_replicate]; omega), List.length_replicate,
        show 1024 + k - 1024 = k by omega]
      exact hb
  refine ⟨w, 34048, hr, hs, wcfg_ok, (seq_faults wcfg_ok hs).2, hl, e2, ha, hsent, ?_⟩
  obtain ⟨chunks, g1, g2⟩ := C80_sequential wcfg wcfg_ok w hr hs 34048 hl ha _ (hD.trans e2.symm) (by rw [hD]; exact hsent) 1022 1027 none
    hD.symm (by decide) (by rw [hD]) 6 (by decide)
  exact ⟨chunks, g1, g2.trans (by decide +kernel)⟩

end Props
end Blobd
