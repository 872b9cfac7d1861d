import Verif.Spec.LiteIo
import Verif.Proofs.LiteIso
set_option autoImplicit false
/-! # Device writes of the lite store -/
namespace Blobd
namespace Lite
open Spec

section
variable {c : LCfg} (hc : c.Ok) {s : LSt} {base : Mem} {v : V} {leak : List (Nat × Nat)} (h : LInv c s base v leak)
include hc h

omit hc in
theorem phase_of : Journal.PhaseInv c.jc base [] s.j.dev s.j.phase := h.jinv.inv.phase

/-- every byte of an entry is written by a pending transaction -/
theorem entry_pend {b : Journal.Batch} {todo : Merge.Writes} {e : Nat × List Byte} (hp : s.j.phase = .entries b todo) (he : e ∈ todo) {y : Nat}
    (h1 : e.1 ≤ y) (h2 : y < e.1 + e.2.length) : ∃ t ∈ v.U, ∃ w ∈ t.writes, w.1 ≤ y ∧ y < w.1 + w.2.length := by
  have hph := phase_of h
  rw [hp] at hph
  obtain ⟨hb, hin, _⟩ := hph
  have htouch : Journal.Touches (Merge.mergeAll (Journal.writesOf b.txns)) y := ⟨e, by rw [← hb.entries]; exact hin e he, h1, h2⟩
  obtain ⟨w, hw, w1, w2⟩ := Journal.merged_touches htouch
  simp only [Journal.writesOf, List.mem_flatMap] at hw
  obtain ⟨t, ht, hw⟩ := hw
  refine ⟨t, ?_, w, hw, w1, w2⟩
  rw [h.U, h.jinv.acc]
  have : held s.j = [] ++ (Journal.inFlight s.j ++ (s.j.queue.flatMap Journal.Batch.txns ++ s.j.pending.txns)) := h.jinv.inv.hist
  rw [this]
  simp only [Journal.inFlight, hp]
  simp [ht]

theorem entry_good {b : Journal.Batch} {todo : Merge.Writes} (hp : s.j.phase = .entries b todo) :
    Merge.Good b.entries ∧ ∀ e ∈ todo, e ∈ b.entries := by
  have hph := phase_of h
  rw [hp] at hph
  obtain ⟨hb, hin, _⟩ := hph
  rw [hb.entries]
  exact ⟨(Merge.mergeAll_spec _).1, fun e he => by rw [← hb.entries]; exact hin e he⟩

theorem entry_region {b : Journal.Batch} {todo : Merge.Writes} {e : Nat × List Byte} (hp : s.j.phase = .entries b todo) (he : e ∈ todo) {y : Nat}
    (h1 : e.1 ≤ y) (h2 : y < e.1 + e.2.length) : BucketByte c y ∨ HeapByte c y := by
  obtain ⟨t, ht, w, hw, w1, w2⟩ := entry_pend hc h hp he h1 h2
  rcases h.good.pend t ht w hw with ⟨k, hk, e1, e2⟩ | ⟨x, hx, _, hcase⟩
  · left
    unfold bucketOff at e1
    unfold BucketByte
    omega
  · right
    have := (h.geo hc).off hx
    unfold HeapByte
    omega

theorem record_in {i : Nat} {st : Begun} {o : NewObject} {off : Nat} (ht : s.thr i = some ⟨st, .createWrite o off⟩) :
    (Own.fresh i, (⟨off, o⟩ : Rec)) ∈ v.recs ∧ 0 < o.encode.length ∧ o.encode.length ≤ 2 ^ o.metaSizePow2 := by
  have hp : (Own.fresh i, (⟨off, o⟩ : Rec)) ∈ v.recs := (h.thr i _ ht).2
  have hroom := (h.good.fit _ hp).1.room
  have e : o.encode.length = o.off.totalSize := by simp [NewObject.encode, Mem.length_read]
  refine ⟨hp, ?_, by rw [e]; exact hroom⟩
  rw [e]
  simp only [ObjectOffsets.totalSize, ObjectOffsets.assocData]
  omega

theorem part_in {i : Nat} {st : Begun} {key : List Byte} {id : Nat} {targets : List (Nat × Nat)} {t : Nat × Nat}
    (ht : s.thr i = some ⟨st, .writing key id targets⟩) (hm : t ∈ targets) :
    ∃ r p, (Own.linked, r) ∈ v.recs ∧ r.o.id = id ∧ p ∈ dataPgs c.pages r.o ∧ p.1 = t.2 ∧ t.1 ≤ 2 ^ p.2 := by
  obtain ⟨r, q1, ⟨q2, q3⟩, q4, q5⟩ := (h.thr i _ ht).2
  obtain ⟨p, p1, p2, p3⟩ := q5 t hm
  exact ⟨r, p, linked_of hc h q1, q3, p1, p2, p3⟩

theorem flight_region {src : Src} {off len : Nat} (hf : InFlight c s src off len) {y : Nat} (h1 : off ≤ y) (h2 : y < off + len) : src.Region c y := by
  have ge := h.geo hc
  cases hf with
  | record ht =>
    obtain ⟨a, b, d⟩ := record_in hc h ht
    have := ge.off a
    simp only at this
    show HeapByte c y
    unfold HeapByte
    omega
  | part ht hm =>
    obtain ⟨r, p, a, b, d, e, f⟩ := part_in hc h ht hm
    have := ge.pg _ a p (by simp [regs, d])
    show HeapByte c y
    unfold HeapByte
    omega
  | journal hp =>
    have hph := phase_of h
    rw [hp] at hph
    have := hph.1.len
    rw [Journal.buf_length hc.jok] at h2
    exact ⟨h1, by omega⟩
  | blank hp =>
    rw [Journal.blank_length hc.jok] at h2
    have := hc.jok.cap
    exact ⟨h1, by omega⟩
  | entry hp he => exact entry_region hc h hp he h1 h2

/-- neither reaches into the other -/
def Clear (off len off' len' : Nat) : Prop := off + len ≤ off' ∨ off' + len' ≤ off

omit hc h in
theorem Clear.symm {a b a' b' : Nat} (h : Clear a b a' b') : Clear a' b' a b := Or.symm h

/-- journal writes against all others -/
theorem journal_clear {off len : Nat} (h1 : c.jc.devOffset ≤ off) (h2 : 0 < len ∧ off + len ≤ c.jc.devOffset + c.jc.cap) {src : Src} {off' len' : Nat}
    (hf : InFlight c s src off' len') (hs : src ≠ .journal ∧ src ≠ .blank) : Clear off len off' len' := by
  have ge := h.geo hc
  have := hc.journal
  have := hc.buckets
  unfold Clear
  cases hf with
  | record ht =>
    have := (ge.off (record_in hc h ht).1).1
    simp only at this
    omega
  | part ht hm =>
    obtain ⟨r, p, a, b, d, e, f⟩ := part_in hc h ht hm
    have := ge.pg _ a p (by simp [regs, d])
    omega
  | journal => exact absurd rfl hs.1
  | blank => exact absurd rfl hs.2
  | @entry b todo e hp he =>
    by_contra hcon
    have hne := (entry_good hc h hp).1.nonempty e ((entry_good hc h hp).2 e he)
    have hr : BucketByte c (max off e.1) ∨ HeapByte c (max off e.1) := by
      by_cases hle : off ≤ e.1
      · rw [Nat.max_eq_right hle]
        exact entry_region hc h hp he (Nat.le_refl _) (by omega)
      · rw [Nat.max_eq_left (by omega)]
        exact entry_region hc h hp he (by omega) (by omega)
    unfold BucketByte HeapByte at hr
    omega

theorem record_record {i j : Nat} {st st' : Begun} {o o' : NewObject} {off off' : Nat} (h1 : s.thr i = some ⟨st, .createWrite o off⟩)
    (h2 : s.thr j = some ⟨st', .createWrite o' off'⟩) (hne : i ≠ j) : Clear off o.encode.length off' o'.encode.length := by
  obtain ⟨a, _, d⟩ := record_in hc h h1
  obtain ⟨a', _, d'⟩ := record_in hc h h2
  have ho : off ≠ off' := by
    intro e
    have := rec_unique h.good a a' e
    simp only [Prod.mk.injEq, Own.fresh.injEq] at this
    exact hne this.1
  have := (h.geo hc).metas a a' ho
  simp only at this
  unfold Clear
  omega

theorem record_part {i j : Nat} {st st' : Begun} {o : NewObject} {off : Nat} {key : List Byte} {id : Nat} {targets : List (Nat × Nat)} {t : Nat × Nat}
    (h1 : s.thr i = some ⟨st, .createWrite o off⟩) (h2 : s.thr j = some ⟨st', .writing key id targets⟩) (hm : t ∈ targets) :
    Clear off o.encode.length t.2 t.1 := by
  obtain ⟨a, _, d⟩ := record_in hc h h1
  obtain ⟨r, p, b1, b2, b3, b4, b5⟩ := part_in hc h h2 hm
  have ho : off ≠ r.off := by
    intro e
    have := rec_unique h.good a b1 e
    simp at this
  have := (h.geo hc).apart _ a _ b1 ho _ (meta_mem _) p (by simp [regs, b3])
  unfold PageDisj at this
  simp only at this
  unfold Clear
  omega

theorem part_part {i j : Nat} {st st' : Begun} {key key' : List Byte} {id id' : Nat} {targets targets' : List (Nat × Nat)} {t t' : Nat × Nat}
    (h1 : s.thr i = some ⟨st, .writing key id targets⟩) (hm : t ∈ targets) (h2 : s.thr j = some ⟨st', .writing key' id' targets'⟩)
    (hm' : t' ∈ targets') (hne : id ≠ id') : Clear t.2 t.1 t'.2 t'.1 := by
  obtain ⟨r, p, b1, b2, b3, b4, b5⟩ := part_in hc h h1 hm
  obtain ⟨r', p', b1', b2', b3', b4', b5'⟩ := part_in hc h h2 hm'
  have ho : r.off ≠ r'.off := by
    intro e
    have := rec_unique h.good b1 b1' e
    simp only [Prod.mk.injEq, true_and] at this
    exact hne (by rw [← b2, ← b2', this])
  have := (h.geo hc).apart _ b1 _ b1' ho p (by simp [regs, b3]) p' (by simp [regs, b3'])
  unfold PageDisj at this
  unfold Clear
  omega

theorem record_entry {i : Nat} {st : Begun} {o : NewObject} {off : Nat} {b : Journal.Batch} {todo : Merge.Writes} {e : Nat × List Byte}
    (h1 : s.thr i = some ⟨st, .createWrite o off⟩) (hp : s.j.phase = .entries b todo) (he : e ∈ todo) :
    Clear off o.encode.length e.1 e.2.length := by
  obtain ⟨a, a2, d⟩ := record_in hc h h1
  have hne := (entry_good hc h hp).1.nonempty e ((entry_good hc h hp).2 e he)
  by_contra hcon
  unfold Clear at hcon
  have key : ∀ y, e.1 ≤ y → y < e.1 + e.2.length → off ≤ y → y < off + o.encode.length → False := by
    intro y y1 y2 y3 y4
    obtain ⟨t, ht, w, hw, w1, w2⟩ := entry_pend hc h hp he y1 y2
    exact (pend_at_rec hc h.good (h.geo hc) a ht hw w1 w2 y3 (by simp only; omega)).1 i rfl
  by_cases hle : off ≤ e.1
  · exact key e.1 (Nat.le_refl _) (by omega) hle (by omega)
  · exact key off (by omega) (by omega) (Nat.le_refl _) (by omega)

theorem part_entry {i : Nat} {st : Begun} {key : List Byte} {id : Nat} {targets : List (Nat × Nat)} {t : Nat × Nat} {b : Journal.Batch}
    {todo : Merge.Writes} {e : Nat × List Byte} (h1 : s.thr i = some ⟨st, .writing key id targets⟩) (hm : t ∈ targets)
    (hp : s.j.phase = .entries b todo) (he : e ∈ todo) : Clear t.2 t.1 e.1 e.2.length := by
  obtain ⟨r, p, b1, b2, b3, b4, b5⟩ := part_in hc h h1 hm
  have hne := (entry_good hc h hp).1.nonempty e ((entry_good hc h hp).2 e he)
  have hpos := Nat.two_pow_pos p.2
  by_contra hcon
  unfold Clear at hcon
  have key : ∀ y, e.1 ≤ y → y < e.1 + e.2.length → p.1 ≤ y → y < p.1 + 2 ^ p.2 → False := by
    intro y y1 y2 y3 y4
    obtain ⟨t, ht, w, hw, w1, w2⟩ := entry_pend hc h hp he y1 y2
    have := pend_at_data hc h.good (h.geo hc) b1 b3 ht hw w1 w2
    omega
  by_cases hle : p.1 ≤ e.1
  · exact key e.1 (Nat.le_refl _) (by omega) hle (by omega)
  · exact key p.1 (by omega) (by omega) (Nat.le_refl _) (by omega)

theorem entry_entry {b b' : Journal.Batch} {todo todo' : Merge.Writes} {e e' : Nat × List Byte} (hp : s.j.phase = .entries b todo) (he : e ∈ todo)
    (hp' : s.j.phase = .entries b' todo') (he' : e' ∈ todo') (hne : e.1 ≠ e'.1) : Clear e.1 e.2.length e'.1 e'.2.length := by
  rw [hp] at hp'
  cases hp'
  obtain ⟨g, hin⟩ := entry_good hc h hp
  rcases Nat.lt_or_gt_of_ne hne with hlt | hlt
  · exact .inl (g.disj e (hin e he) e' (hin e' he') hlt)
  · exact .inr (g.disj e' (hin e' he') e (hin e he) hlt)

theorem flights_clear {src src' : Src} {off len off' len' : Nat} (hf : InFlight c s src off len) (hf' : InFlight c s src' off' len') :
    (src = src' ∧ off = off' ∧ len = len') ∨ src.SameUpload src' ∨ Clear off len off' len' := by
  have hj : ∀ {b}, s.j.phase = .journal b → c.jc.devOffset ≤ c.jc.devOffset ∧ 0 < (b.buf c.jc).length ∧ c.jc.devOffset + (b.buf c.jc).length ≤ c.jc.devOffset + c.jc.cap := by
    intro b hp
    have hph := phase_of h
    rw [hp] at hph
    have := hph.1.len
    rw [Journal.buf_length hc.jok]
    have : 36 ≤ b.bufLen := by unfold Journal.Batch.bufLen; omega
    omega
  have hbl : c.jc.devOffset ≤ c.jc.devOffset ∧ 0 < (Journal.blank c.jc).length ∧ c.jc.devOffset + (Journal.blank c.jc).length ≤ c.jc.devOffset + c.jc.cap := by
    have := hc.jok.cap
    rw [Journal.blank_length hc.jok]
    omega
  cases hf with
  | @record i st o off ht =>
    cases hf' with
    | @record j st' o' off' ht' =>
      by_cases e : i = j
      · subst e
        rw [ht] at ht'
        cases ht'
        exact .inl ⟨rfl, rfl, rfl⟩
      · exact .inr (.inr (record_record hc h ht ht' e))
    | part ht' hm => exact .inr (.inr (record_part hc h ht ht' hm))
    | entry hp he => exact .inr (.inr (record_entry hc h ht hp he))
    | journal hp => exact .inr (.inr (journal_clear hc h (hj hp).1 (hj hp).2 (.record ht) (by simp)).symm)
    | blank hp => exact .inr (.inr (journal_clear hc h hbl.1 hbl.2 (.record ht) (by simp)).symm)
  | @part i st key id targets t ht hm =>
    cases hf' with
    | record ht' => exact .inr (.inr (record_part hc h ht' ht hm).symm)
    | @part j st' key' id' targets' t' ht' hm' =>
      by_cases e : id = id'
      · exact .inr (.inl e)
      · exact .inr (.inr (part_part hc h ht hm ht' hm' e))
    | entry hp he => exact .inr (.inr (part_entry hc h ht hm hp he))
    | journal hp => exact .inr (.inr (journal_clear hc h (hj hp).1 (hj hp).2 (.part ht hm) (by simp)).symm)
    | blank hp => exact .inr (.inr (journal_clear hc h hbl.1 hbl.2 (.part ht hm) (by simp)).symm)
  | @journal b hp =>
    cases hf' with
    | record ht => exact .inr (.inr (journal_clear hc h (hj hp).1 (hj hp).2 (.record ht) (by simp)))
    | part ht hm => exact .inr (.inr (journal_clear hc h (hj hp).1 (hj hp).2 (.part ht hm) (by simp)))
    | entry hp' _ => rw [hp] at hp'; cases hp'
    | journal hp' => rw [hp] at hp'; cases hp'; exact .inl ⟨rfl, rfl, rfl⟩
    | blank hp' => rw [hp] at hp'; cases hp'
  | @entry b todo e hp he =>
    cases hf' with
    | record ht => exact .inr (.inr (record_entry hc h ht hp he).symm)
    | part ht hm => exact .inr (.inr (part_entry hc h ht hm hp he).symm)
    | @entry b' todo' e' hp' he' =>
      by_cases e : e.1 = e'.1
      · rw [hp] at hp'
        cases hp'
        obtain ⟨g, hin⟩ := entry_good hc h hp
        have := Merge.sorted_key g.sorted (hin _ he) (hin _ he') e
        subst this
        exact .inl ⟨rfl, rfl, rfl⟩
      · exact .inr (.inr (entry_entry hc h hp he hp' he' e))
    | journal hp' => rw [hp] at hp'; cases hp'
    | blank hp' => rw [hp] at hp'; cases hp'
  | @blank b hp =>
    cases hf' with
    | record ht => exact .inr (.inr (journal_clear hc h hbl.1 hbl.2 (.record ht) (by simp)))
    | part ht hm => exact .inr (.inr (journal_clear hc h hbl.1 hbl.2 (.part ht hm) (by simp)))
    | entry hp' _ => rw [hp] at hp'; cases hp'
    | journal hp' => rw [hp] at hp'; cases hp'
    | blank hp' => exact .inl ⟨rfl, rfl, rfl⟩

/-- the list of a bucket -/
theorem listed_rec {r : Rec} (hr : (Own.linked, r) ∈ v.recs) : ∃ b l, b < 2 ^ c.bits ∧ Chain s (getHead c s b) l ∧ r.off ∈ l := by
  have hb := bkt_lt hc r.o.key
  exact ⟨_, _, hb, chain_of hc h hb, List.mem_map.2 ⟨r, (h.good.lnk r).1 hr, rfl⟩⟩

/-- every change of the device comes from a write in flight, or is of the pointer from one listed inode to the next -/
theorem change_source {s' : LSt} (hs : Step c s s') {y : Nat} (hy : s'.j.dev y ≠ s.j.dev y) :
    (∃ src off len, InFlight c s src off len ∧ off ≤ y ∧ y < off + len) ∨
      ∃ b l p, b < 2 ^ c.bits ∧ Chain s (getHead c s b) l ∧ p ∈ l ∧ p + 2 ≤ y ∧ y < p + 8 := by
  have out : ∀ {a : Nat} {d : List Byte}, s'.j.dev = s.j.dev.write a d → a ≤ y ∧ y < a + d.length := by
    intro a d e
    by_contra hcon
    apply hy
    rw [e]
    exact Mem.write_out (by omega)
  cases hs with
  | act a ha =>
    cases act_dev ha with
    | same e => exact absurd (congrFun e y) hy
    | create i st o off ht e => exact .inl ⟨_, _, _, .record ht, out e⟩
    | data i st key id targets t n skip bytes ea ht hn hle e =>
      have := out e
      exact .inl ⟨_, _, _, .part ht (List.mem_of_getElem? hn), by omega, by omega⟩
    | found i st req key cur p raw inc ex x ht e =>
      obtain ⟨vis, rest, e1, _, e3, _⟩ := (h.thr i _ ht).2
      obtain ⟨q, q1, q2⟩ := prev_rec hc h e1 e3
      obtain ⟨b, l, b1, b2, b3⟩ := listed_rec hc h q1
      have := out e
      rw [length_beBytes, show ObjectOffsets.nextNode = 2 from rfl] at this
      exact .inr ⟨b, l, p, b1, b2, q2 ▸ b3, by omega, by omega⟩
    | replaced i st id key cur p prev inc f x ht hp e =>
      obtain ⟨vis, rest, e1, _, _, _, e5⟩ := (h.thr i _ ht).2
      obtain ⟨a, r', d, f1, f2, f3, f4, _⟩ := e5.2
      rw [hp] at f4
      obtain ⟨q, q1, q2⟩ := prev_rec hc h (vis := a) (rest := r' :: d ++ rest) (by rw [e1, f1]; simp) f4
      obtain ⟨b, l, b1, b2, b3⟩ := listed_rec hc h q1
      have := out e
      rw [length_beBytes, show ObjectOffsets.nextNode = 2 from rfl] at this
      exact .inr ⟨b, l, p, b1, b2, q2 ▸ b3, by omega, by omega⟩
    | orphan e => exact absurd h.orph e
  | journal hj hh =>
    left
    cases hj with
    | commit idle t hcm =>
      simp only [Journal.commit] at hcm
      split at hcm
      · cases hcm
      · split at hcm <;> (cases hcm; exact absurd rfl hy)
    | timer => exact absurd rfl hy
    | recv => exact absurd rfl hy
    | journalPart hp i n =>
      have := out rfl
      simp only [List.length_take, List.length_drop] at this
      exact ⟨_, _, _, .journal hp, by omega, by omega⟩
    | journalDone hp => exact ⟨_, _, _, .journal hp, out rfl⟩
    | entryPart hp e he i n =>
      have := out rfl
      simp only [List.length_take, List.length_drop] at this
      exact ⟨_, _, _, .entry hp he, by omega, by omega⟩
    | entryDone hp e he => exact ⟨_, _, _, .entry hp he, out rfl⟩
    | ack => exact absurd rfl hy
    | blankPart hp i n =>
      have := out rfl
      simp only [List.length_take, List.length_drop] at this
      exact ⟨_, _, _, .blank hp, by omega, by omega⟩
    | blankDone hp => exact ⟨_, _, _, .blank hp, out rfl⟩

end
end Lite
end Blobd
