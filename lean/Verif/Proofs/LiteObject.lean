import Verif.Spec.LiteObject
import Verif.Proofs.Layout
/-! Round trip of lite object records. -/
namespace Blobd
namespace Lite
open Mem

theorem mem_pageWrites {base : Nat} {ps : List Nat} {w : Nat × List Byte} :
    w ∈ pageWrites base ps ↔ ∃ i, ∃ h : i < ps.length, w = (base + 6 * i, beBytes 6 ps[i]) := by
  unfold pageWrites
  rw [List.mem_mapIdx]
  constructor
  · rintro ⟨i, hi, rfl⟩; exact ⟨i, hi, rfl⟩
  · rintro ⟨i, hi, rfl⟩; exact ⟨i, hi, rfl⟩

theorem pageWrites_pairwise (base : Nat) (ps : List Nat) : (pageWrites base ps).Pairwise Apart := by
  rw [List.pairwise_iff_getElem]
  intro i j hi hj hij
  left
  simp only [pageWrites, List.getElem_mapIdx, length_beBytes]
  omega

theorem pageWrites_range {base : Nat} {ps : List Nat} {w : Nat × List Byte} (h : w ∈ pageWrites base ps) :
    base ≤ w.1 ∧ w.1 + w.2.length ≤ base + 6 * ps.length := by
  obtain ⟨i, hi, rfl⟩ := mem_pageWrites.1 h
  simp only [length_beBytes]; omega

section
variable (o : NewObject)

theorem off_lpages : o.off.lpages = 37 + o.key.length := by
  simp [NewObject.off, ObjectOffsets.lpages, ObjectOffsets.key, ObjectOffsets.keyLenOff, ObjectOffsets.id,
    ObjectOffsets.size, ObjectOffsets.createdMs, ObjectOffsets.nextNode, ObjectOffsets.metadataSizePow2,
    ObjectOffsets.state]

theorem off_tail : o.off.tailPages = 37 + o.key.length + 6 * o.lpages.length := by
  simp only [ObjectOffsets.tailPages, ObjectOffsets.lpage, off_lpages]; rfl

theorem off_assocLen : o.off.assocDataLenOff = 37 + o.key.length + 6 * o.lpages.length + 6 * o.tailPages.length := by
  simp only [ObjectOffsets.assocDataLenOff, ObjectOffsets.tailPage, off_tail]; rfl

theorem off_assoc : o.off.assocData = 37 + o.key.length + 6 * o.lpages.length + 6 * o.tailPages.length + 2 := by
  simp only [ObjectOffsets.assocData, off_assocLen]

theorem off_total : o.off.totalSize =
    37 + o.key.length + 6 * o.lpages.length + 6 * o.tailPages.length + 2 + o.assocData.length := by
  simp only [ObjectOffsets.totalSize, off_assoc]; rfl

theorem consts : ObjectOffsets.state = 0 ∧ ObjectOffsets.metadataSizePow2 = 1 ∧ ObjectOffsets.nextNode = 2 ∧
    ObjectOffsets.createdMs = 8 ∧ ObjectOffsets.size = 14 ∧ ObjectOffsets.id = 19 ∧
    ObjectOffsets.keyLenOff = 35 ∧ ObjectOffsets.key = 37 := by decide

theorem fieldWrites_pairwise : o.fieldWrites.Pairwise Apart := by
  obtain ⟨c1, c2, c3, c4, c5, c6, c7, c8⟩ := consts
  unfold NewObject.fieldWrites
  rw [List.pairwise_append]
  refine ⟨?_, ?_, ?_⟩
  · simp only [List.pairwise_cons, List.mem_cons, List.not_mem_nil, or_false, forall_eq_or_imp, forall_eq,
      List.Pairwise.nil, Apart, length_beBytes, length_leBytes, c1, c2, c4, c5, c6, c7, c8, off_assocLen, off_assoc]
    repeat' apply And.intro
    all_goals first | omega | trivial | (intros; contradiction)
  · rw [List.pairwise_append]
    refine ⟨pageWrites_pairwise _ _, pageWrites_pairwise _ _, ?_⟩
    intro a ha b hb
    have h1 := pageWrites_range ha
    have h2 := pageWrites_range hb
    rw [off_lpages] at h1
    rw [off_tail] at h2
    left; omega
  · intro a ha b hb
    have hb' : 37 + o.key.length ≤ b.1 ∧
        b.1 + b.2.length ≤ 37 + o.key.length + 6 * o.lpages.length + 6 * o.tailPages.length := by
      rcases List.mem_append.1 hb with hb | hb
      · have := pageWrites_range hb; rw [off_lpages] at this; omega
      · have := pageWrites_range hb; rw [off_tail] at this; omega
    simp only [List.mem_cons, List.not_mem_nil, or_false] at ha
    unfold Apart
    rcases ha with rfl | rfl | rfl | rfl | rfl | rfl | rfl | rfl | rfl <;>
      simp only [length_beBytes, length_leBytes, c1, c2, c4, c5, c6, c7, c8, off_assocLen, off_assoc] <;> omega

/-- any field written by `create` can be read from the device afterwards -/
theorem read_field (m : Mem) (d : Nat) (w : Nat × List Byte) (hw : w ∈ o.fieldWrites)
    (he : w.1 + w.2.length ≤ o.off.totalSize) :
    (m.write d o.encode).read (d + w.1) w.2.length = w.2 := by
  unfold NewObject.encode
  rw [read_write_block _ _ _ _ _ _ he]
  exact read_writeAll_mem (fieldWrites_pairwise o) _ w hw

end

/-- the record of `o` is present at `d` in `m`, except possibly the state byte and next pointer -/
structure At (o : NewObject) (m : Mem) (d : Nat) : Prop where
  rest : ∀ w ∈ o.fieldWrites, w.1 ≠ 0 → m.read (d + w.1) w.2.length = w.2

theorem at_encode (o : NewObject) (m : Mem) (d : Nat) : At o (m.write d o.encode) d := by
  obtain ⟨c1, c2, c3, c4, c5, c6, c7, c8⟩ := consts
  constructor
  intro w hw hn
  apply read_field o m d w hw
  unfold NewObject.fieldWrites at hw
  rw [off_total]
  rcases List.mem_append.1 hw with hw | hw
  · simp only [List.mem_cons, List.not_mem_nil, or_false] at hw
    rcases hw with rfl | rfl | rfl | rfl | rfl | rfl | rfl | rfl | rfl <;>
      simp only [length_beBytes, length_leBytes, c1, c2, c4, c5, c6, c7, c8, off_assocLen, off_assoc] <;> omega
  · rcases List.mem_append.1 hw with hw | hw
    · have := pageWrites_range hw; rw [off_lpages] at this; omega
    · have := pageWrites_range hw; rw [off_tail] at this; omega

theorem fieldWrites_range (o : NewObject) (w : Nat × List Byte) (hw : w ∈ o.fieldWrites) (hn : w.1 ≠ 0) :
    1 = w.1 ∧ w.2.length = 1 ∨ 8 ≤ w.1 := by
  obtain ⟨c1, c2, c3, c4, c5, c6, c7, c8⟩ := consts
  unfold NewObject.fieldWrites at hw
  rcases List.mem_append.1 hw with hw | hw
  · simp only [List.mem_cons, List.not_mem_nil, or_false] at hw
    rcases hw with rfl | rfl | rfl | rfl | rfl | rfl | rfl | rfl | rfl <;>
      simp only [length_beBytes, length_leBytes, c1, c2, c4, c5, c6, c7, c8, off_assocLen, off_assoc, ne_eq, not_true] at hn ⊢ <;> first | omega | simp
  · rcases List.mem_append.1 hw with hw | hw
    · have := pageWrites_range hw; rw [off_lpages] at this; omega
    · have := pageWrites_range hw; rw [off_tail] at this; omega

theorem At.write_state {o : NewObject} {m : Mem} {d : Nat} (h : At o m d) (st : Nat) :
    At o (m.write (d + ObjectOffsets.state) (leBytes 1 st)) d := by
  constructor
  intro w hw hn
  rw [read_write_disj _ _ _ _ _ (by rw [consts.1]; simp; omega)]
  exact h.rest w hw hn

theorem At.write_next {o : NewObject} {m : Mem} {d : Nat} (h : At o m d) (nx : Nat) :
    At o (m.write (d + ObjectOffsets.nextNode) (beBytes 6 nx)) d := by
  constructor
  intro w hw hn
  have := fieldWrites_range o w hw hn
  rw [read_write_disj _ _ _ _ _ (by rw [consts.2.2.1]; simp; omega)]
  exact h.rest w hw hn

theorem At.decode {o : NewObject} {m : Mem} {d : Nat} (h : At o m d) (hf : Fits o) {pages : Pages} {lay : ObjectLayout}
    (hs : Shaped pages o lay) :
    rdMetaPow2 m d = o.metaSizePow2 ∧ rdCreatedMs m d = o.createdMs ∧ rdSize m d = o.size ∧ rdId m d = o.id ∧
    rdKeyLen m d = o.key.length ∧ rdKey m d = o.key ∧
    rdLpageCount pages m d = some o.lpages.length ∧ rdTailPageCount pages m d = some o.tailPages.length ∧
    (∀ i (hi : i < o.lpages.length), rdLpage m d i = o.lpages[i]) ∧
    (∀ i (hi : i < o.tailPages.length), rdTailPage pages m d i = some o.tailPages[i]) ∧
    rdAssocLen pages m d = some o.assocData.length ∧ rdAssoc pages m d = some o.assocData := by
  obtain ⟨c1, c2, c3, c4, c5, c6, c7, c8⟩ := consts
  have r := h.rest
  have p256 : (256 : Nat) ^ 1 = 2 ^ 8 ∧ (256 : Nat) ^ 2 = 2 ^ 16 ∧ (256 : Nat) ^ 5 = 2 ^ 40 ∧
      (256 : Nat) ^ 6 = 2 ^ 48 ∧ (256 : Nat) ^ 16 = 2 ^ 128 := by decide
  have fpow : m.read (d + 1) 1 = leBytes 1 o.metaSizePow2 := by
    have := r (1, leBytes 1 o.metaSizePow2) (by simp [NewObject.fieldWrites, c2]) (by simp)
    simpa using this
  have fid : m.read (d + 19) 16 = beBytes 16 o.id := by
    have := r (19, beBytes 16 o.id) (by simp [NewObject.fieldWrites, c6]) (by simp)
    simpa using this
  have fcr : m.read (d + 8) 6 = beBytes 6 o.createdMs := by
    have := r (8, beBytes 6 o.createdMs) (by simp [NewObject.fieldWrites, c4]) (by simp)
    simpa using this
  have fsz : m.read (d + 14) 5 = beBytes 5 o.size := by
    have := r (14, beBytes 5 o.size) (by simp [NewObject.fieldWrites, c5]) (by simp)
    simpa using this
  have fkl : m.read (d + 35) 2 = beBytes 2 o.key.length := by
    have := r (35, beBytes 2 o.key.length) (by simp [NewObject.fieldWrites, c7]) (by simp)
    simpa using this
  have fk : m.read (d + 37) o.key.length = o.key := by
    have := r (37, o.key) (by simp [NewObject.fieldWrites, c8]) (by simp)
    simpa using this
  have fal : m.read (d + o.off.assocDataLenOff) 2 = beBytes 2 o.assocData.length := by
    have := r (o.off.assocDataLenOff, beBytes 2 o.assocData.length) (by simp [NewObject.fieldWrites])
      (by simp only [off_assocLen]; omega)
    simpa using this
  have fa : m.read (d + o.off.assocData) o.assocData.length = o.assocData := by
    exact r (o.off.assocData, o.assocData) (by simp [NewObject.fieldWrites]) (by simp only [off_assoc]; omega)
  have flp : ∀ i (hi : i < o.lpages.length), m.read (d + o.off.lpage i) 6 = beBytes 6 o.lpages[i] := by
    intro i hi
    have := r (o.off.lpages + 6 * i, beBytes 6 o.lpages[i]) (by
      unfold NewObject.fieldWrites
      exact List.mem_append_right _ (List.mem_append_left _ (mem_pageWrites.2 ⟨i, hi, rfl⟩)))
      (by simp only [off_lpages]; omega)
    simpa [ObjectOffsets.lpage] using this
  have ftp : ∀ i (hi : i < o.tailPages.length), m.read (d + o.off.tailPage i) 6 = beBytes 6 o.tailPages[i] := by
    intro i hi
    have := r (o.off.tailPages + 6 * i, beBytes 6 o.tailPages[i]) (by
      unfold NewObject.fieldWrites
      exact List.mem_append_right _ (List.mem_append_right _ (mem_pageWrites.2 ⟨i, hi, rfl⟩)))
      (by simp only [off_tail]; omega)
    simpa [ObjectOffsets.tailPage] using this
  have dkl : rdKeyLen m d = o.key.length := by
    unfold rdKeyLen rdBe; rw [c7, fkl, beVal_beBytes_of_lt (by rw [p256.2.1]; exact hf.key)]
  have dsz : rdSize m d = o.size := by
    unfold rdSize rdBe; rw [c5, fsz, beVal_beBytes_of_lt (by rw [p256.2.2.1]; exact hf.size)]
  have dlc : rdLpageCount pages m d = some o.lpages.length := by
    unfold rdLpageCount; rw [dsz, hs.eq, hs.lpages]; rfl
  have dtc : rdTailPageCount pages m d = some o.tailPages.length := by
    unfold rdTailPageCount; rw [dsz, hs.eq, hs.tails]; rfl
  have dal : rdAssocLen pages m d = some o.assocData.length := by
    unfold rdAssocLen
    rw [dlc, dtc, dkl]
    have : beVal (beBytes 2 o.assocData.length) = o.assocData.length :=
      beVal_beBytes_of_lt (by rw [p256.2.1]; exact hf.assoc)
    rw [← fal] at this
    exact congrArg some this
  refine ⟨?_, ?_, dsz, ?_, dkl, ?_, dlc, dtc, ?_, ?_, dal, ?_⟩
  · unfold rdMetaPow2; rw [c2, fpow, leVal_leBytes_of_lt (by rw [p256.1]; exact hf.pow2)]
  · unfold rdCreatedMs rdBe; rw [c4, fcr, beVal_beBytes_of_lt (by rw [p256.2.2.2.1]; exact hf.created)]
  · unfold rdId rdBe; rw [c6, fid, beVal_beBytes_of_lt (by rw [p256.2.2.2.2]; exact hf.id)]
  · unfold rdKey; rw [c8, dkl, fk]
  · intro i hi
    unfold rdLpage rdBe
    rw [dkl]
    have := flp i hi
    rw [show ({ keyLen := o.key.length } : ObjectOffsets).lpage i = o.off.lpage i from rfl, this,
      beVal_beBytes_of_lt (by rw [p256.2.2.2.1]; exact hf.lpages _ (List.getElem_mem hi))]
  · intro i hi
    unfold rdTailPage rdBe
    rw [dkl, dlc]
    have := ftp i hi
    rw [show o.off.tailPage i = ({ keyLen := o.key.length, lpageCount := o.lpages.length } : ObjectOffsets).tailPage i
      from rfl] at this
    show some _ = _
    rw [this, beVal_beBytes_of_lt (by rw [p256.2.2.2.1]; exact hf.tails _ (List.getElem_mem hi))]
  · unfold rdAssoc
    rw [dlc, dtc, dal, dkl]
    exact congrArg some fa

end Lite
end Blobd
