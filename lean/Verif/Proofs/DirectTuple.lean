import Verif.Spec.DirectTuple
namespace Blobd
namespace Direct
open List

theorem length_bufWrite {buf : List Byte} {off : Nat} {d : List Byte} (h : off + d.length ≤ buf.length) :
    (bufWrite buf off d).length = buf.length := by
  simp only [bufWrite, length_append, length_take, length_drop]; omega

theorem bufSlice_same {buf : List Byte} {off : Nat} {d : List Byte} (h : off + d.length ≤ buf.length) :
    bufSlice (bufWrite buf off d) off d.length = d := by
  simp only [bufSlice, bufWrite, append_assoc]
  rw [drop_left' (by simp only [length_take]; omega), take_left' rfl]

theorem bufSlice_getElem? (buf : List Byte) (off len i : Nat) :
    (bufSlice buf off len)[i]? = if i < len then buf[off + i]? else none := by
  simp only [bufSlice]
  split
  · rename_i h; rw [getElem?_take_of_lt h, getElem?_drop]
  · rename_i h; rw [getElem?_take, if_neg h]

theorem bufWrite_getElem? {buf : List Byte} {off : Nat} {d : List Byte} (h : off + d.length ≤ buf.length) (i : Nat) :
    (bufWrite buf off d)[i]? = if off ≤ i ∧ i < off + d.length then d[i - off]? else buf[i]? := by
  have hl : (buf.take off).length = off := by simp only [length_take]; omega
  simp only [bufWrite]
  split
  · rename_i hc
    rw [append_assoc, getElem?_append_right (by omega), getElem?_append_left (by omega), hl]
  · rename_i hc
    rcases Nat.lt_or_ge i off with h1 | h1
    · rw [append_assoc, getElem?_append_left (by omega), getElem?_take_of_lt h1]
    · rw [getElem?_append_right (by simp only [length_append, hl]; omega), getElem?_drop]
      congr 1; simp only [length_append, hl]; omega

theorem bufSlice_disj {buf : List Byte} {off : Nat} {d : List Byte} (h : off + d.length ≤ buf.length)
    {o2 l2 : Nat} (hd : o2 + l2 ≤ off ∨ off + d.length ≤ o2) :
    bufSlice (bufWrite buf off d) o2 l2 = bufSlice buf o2 l2 := by
  apply ext_getElem?
  intro i
  rw [bufSlice_getElem?, bufSlice_getElem?]
  split
  · rw [bufWrite_getElem? h, if_neg (by omega)]
  · rfl

theorem length_bufSlice {buf : List Byte} {off len : Nat} (h : off + len ≤ buf.length) : (bufSlice buf off len).length = len := by
  simp only [bufSlice, length_take, length_drop]; omega

theorem getD_of_slice {buf : List Byte} {off : Nat} {x : Byte} (h : bufSlice buf off 1 = [x]) : buf.getD off 0 = x := by
  have := bufSlice_getElem? buf off 1 0
  rw [h] at this
  simp at this
  rw [getD_eq_getElem?_getD, ← this]; rfl

theorem stateFromByte_toByte (s : ObjState) : stateFromByte s.toByte = some (some s) := by cases s <;> decide

theorem serialise_length {t : Tuple} {out : List Byte} (h : out.length = tupleLen) : (t.serialise out).length = tupleLen := by
  have e : tupleLen = 24 := rfl
  unfold Tuple.serialise
  simp only
  have h1 : (bufWrite out offState [t.state.toByte]).length = 24 := by
    rw [length_bufWrite (by simp [offState]; omega)]; omega
  have h2 : (bufWrite (bufWrite out offState [t.state.toByte]) offId (leBytes 16 t.id)).length = 24 := by
    rw [length_bufWrite (by simp [offState, offId] at *; omega)]; exact h1
  have h3 : (bufWrite (bufWrite (bufWrite out offState [t.state.toByte]) offId (leBytes 16 t.id)) offMetaOff (leBytes 6 t.metaOff)).length = 24 := by
    rw [length_bufWrite (by simp [offState, offId, offMetaOff] at *; omega)]; exact h2
  rw [length_bufWrite (by simp [offState, offId, offMetaOff, offMetaPow2] at *; omega), h3]; rfl

theorem serialise_eq {t : Tuple} {out : List Byte} (h : out.length = tupleLen) :
    t.serialise out = t.state.toByte :: (leBytes 16 t.id ++ leBytes 6 t.metaOff ++ [UInt8.ofNat t.metaPow2]) := by
  have e : tupleLen = 24 := rfl
  rw [e] at h
  unfold Tuple.serialise
  simp only [bufWrite, offState, offId, offMetaOff, offMetaPow2, length_leBytes, length_cons, length_nil]
  match out, h with
  | [a0,a1,a2,a3,a4,a5,a6,a7,a8,a9,a10,a11,a12,a13,a14,a15,a16,a17,a18,a19,a20,a21,a22,a23], _ =>
    simp [leBytes]

theorem deserialise_serialise {t : Tuple} (ht : TupleFits t) {out : List Byte} (h : out.length = tupleLen) :
    Tuple.deserialise (t.serialise out) = some t := by
  rw [serialise_eq h]
  unfold Tuple.deserialise
  have h1 : bufSlice (t.state.toByte :: (leBytes 16 t.id ++ leBytes 6 t.metaOff ++ [UInt8.ofNat t.metaPow2])) offId 16 = leBytes 16 t.id := by
    simp [bufSlice, offId, offState, take_append]
  have h2 : bufSlice (t.state.toByte :: (leBytes 16 t.id ++ leBytes 6 t.metaOff ++ [UInt8.ofNat t.metaPow2])) offMetaOff 6 = leBytes 6 t.metaOff := by
    simp [bufSlice, offId, offState, offMetaOff, drop_append]
  have h3 : (t.state.toByte :: (leBytes 16 t.id ++ leBytes 6 t.metaOff ++ [UInt8.ofNat t.metaPow2])).getD offMetaPow2 0 = UInt8.ofNat t.metaPow2 := by
    simp [offMetaPow2, offMetaOff, offId, offState, getElem?_append]
  rw [h1, h2, h3]
  simp only [offState, getD_cons_zero, stateFromByte_toByte]
  rw [leVal_leBytes_of_lt (by have := ht.id; simpa using this), leVal_leBytes_of_lt (by have := ht.off; simpa using this)]
  have : (UInt8.ofNat t.metaPow2).toNat = t.metaPow2 := by
    simp only [UInt8.toNat_ofNat']; exact Nat.mod_eq_of_lt ht.pow
  rw [this]

theorem serialiseAll_spec : ∀ (ts : List Tuple) (i : Nat) (page : List Byte), (i + ts.length) * tupleLen ≤ page.length →
    (serialiseAll i ts page).length = page.length ∧
    (∀ o l, o + l ≤ i * tupleLen → bufSlice (serialiseAll i ts page) o l = bufSlice page o l) ∧
    ∀ j (hj : j < ts.length), ∃ out : List Byte, out.length = tupleLen ∧
      bufSlice (serialiseAll i ts page) ((i + j) * tupleLen) tupleLen = ts[j].serialise out := by
  intro ts
  induction ts with
  | nil => intro i page _; exact ⟨rfl, fun _ _ _ => rfl, fun j hj => absurd hj (by simp)⟩
  | cons t ts ih =>
    intro i page h
    simp only [length_cons] at h
    have e : tupleLen = 24 := rfl
    have h' : (i + (ts.length + 1)) * 24 ≤ page.length := h
    have hin : i * tupleLen + tupleLen ≤ page.length := by rw [e]; omega
    have hsl : (bufSlice page (i * tupleLen) tupleLen).length = tupleLen := length_bufSlice hin
    have hser := serialise_length (t := t) hsl
    have hb : i * tupleLen + (t.serialise (bufSlice page (i * tupleLen) tupleLen)).length ≤ page.length := by rw [hser]; exact hin
    have hlen := length_bufWrite hb
    obtain ⟨h1, h2, h3⟩ := ih (i + 1) (bufWrite page (i * tupleLen) (t.serialise (bufSlice page (i * tupleLen) tupleLen)))
      (by rw [hlen, e]; omega)
    simp only [serialiseAll]
    refine ⟨h1.trans hlen, ?_, ?_⟩
    · intro o l hol
      rw [h2 o l (by rw [e] at *; omega), bufSlice_disj hb (Or.inl hol)]
    · intro j hj
      cases j with
      | zero =>
        refine ⟨_, hsl, ?_⟩
        rw [h2 _ _ (by rw [e]; omega)]
        have := bufSlice_same hb
        rw [hser] at this
        simpa using this
      | succ j =>
        obtain ⟨out, ho, he⟩ := h3 j (by simpa using hj)
        refine ⟨out, ho, ?_⟩
        rw [show i + (j + 1) = i + 1 + j by omega, he]
        rfl

theorem decodeLoop_spec (raw : List Byte) : ∀ (ts : List Tuple) (n i : Nat), ts.length ≤ n → (∀ t ∈ ts, TupleFits t) →
    (∀ j (hj : j < ts.length), ∃ out : List Byte, out.length = tupleLen ∧
      bufSlice raw ((i + j) * tupleLen) tupleLen = ts[j].serialise out) →
    (ts.length < n → raw.getD ((i + ts.length) * tupleLen) 0 = endOfBundle) →
    decodeLoop raw n i = some ts := by
  intro ts
  induction ts with
  | nil =>
    intro n i _ _ _ hend
    cases n with
    | zero => rfl
    | succ n =>
      have h0 := hend (by simp)
      simp only [length_nil, Nat.add_zero] at h0
      have hc : (bufSlice raw (i * tupleLen) tupleLen).getD 0 0 = 0 := by
        rw [getD_eq_getElem?_getD, bufSlice_getElem?, if_pos (by decide)]
        rw [getD_eq_getElem?_getD] at h0
        exact h0
      unfold decodeLoop
      simp only [hc]
      rfl
  | cons t ts ih =>
    intro n i hn hfit hser hend
    cases n with
    | zero => simp at hn
    | succ n =>
      obtain ⟨out, ho, he⟩ := hser 0 (by simp)
      simp only [Nat.add_zero, getElem_cons_zero] at he
      have hst : stateFromByte ((bufSlice raw (i * tupleLen) tupleLen).getD 0 0) = some (some t.state) := by
        rw [he, serialise_eq ho]; simp [stateFromByte_toByte]
      unfold decodeLoop
      simp only [hst]
      rw [he, deserialise_serialise (hfit t (by simp)) ho]
      simp only
      rw [ih n (i + 1) (by simpa using hn) (fun t ht => hfit t (by simp [ht]))]
      · rfl
      · intro j hj
        obtain ⟨out, ho, he⟩ := hser (j + 1) (by simpa using hj)
        exact ⟨out, ho, by rw [show i + 1 + j = i + (j + 1) by omega, he]; rfl⟩
      · intro hlt
        have := hend (by simpa using hlt)
        rw [show i + 1 + ts.length = i + (t :: ts).length by simp only [length_cons]; omega]
        exact this

theorem decode_encode {pages : Pages} {ts : List Tuple} (hfit : ∀ t ∈ ts, TupleFits t) (hlen : ts.length ≤ maxTuples pages)
    {page : List Byte} (hp : page.length = 2 ^ pages.spage) :
    (encodeBundle pages ts page).length = 2 ^ pages.spage ∧ decodeBundle (encodeBundle pages ts page) = some ts := by
  have e : tupleLen = 24 := rfl
  have hmul : maxTuples pages * tupleLen ≤ 2 ^ pages.spage := Nat.div_mul_le_self _ _
  have hle : (0 + ts.length) * tupleLen ≤ page.length := by
    rw [hp]; exact Nat.le_trans (Nat.mul_le_mul_right _ (by omega)) hmul
  obtain ⟨h1, _, h3⟩ := serialiseAll_spec ts 0 page hle
  by_cases hlt : ts.length < maxTuples pages
  · have hb : ts.length * tupleLen + [endOfBundle].length ≤ (serialiseAll 0 ts page).length := by
      rw [h1, hp]
      have : (ts.length + 1) * tupleLen ≤ maxTuples pages * tupleLen := Nat.mul_le_mul_right _ (by omega)
      simp only [length_cons, length_nil]
      rw [e] at *; omega
    have henc : encodeBundle pages ts page = bufWrite (serialiseAll 0 ts page) (ts.length * tupleLen) [endOfBundle] := by
      simp only [encodeBundle, if_pos hlt]
    have hl : (encodeBundle pages ts page).length = 2 ^ pages.spage := by rw [henc, length_bufWrite hb, h1, hp]
    refine ⟨hl, ?_⟩
    unfold decodeBundle
    rw [hl]
    refine decodeLoop_spec _ ts (2 ^ pages.spage / tupleLen) 0 hlen hfit ?_ ?_
    · intro j hj
      obtain ⟨out, ho, he⟩ := h3 j hj
      refine ⟨out, ho, ?_⟩
      rw [henc, bufSlice_disj hb (Or.inl ?_), he]
      rw [e]; omega
    · intro _
      rw [henc, Nat.zero_add]
      exact getD_of_slice (bufSlice_same hb)
  · have henc : encodeBundle pages ts page = serialiseAll 0 ts page := by simp only [encodeBundle, if_neg hlt]
    have hl : (encodeBundle pages ts page).length = 2 ^ pages.spage := by rw [henc, h1, hp]
    refine ⟨hl, ?_⟩
    unfold decodeBundle
    rw [hl]
    exact decodeLoop_spec _ ts (2 ^ pages.spage / tupleLen) 0 hlen hfit (by rw [henc]; exact h3)
      (fun h => absurd h (by unfold maxTuples at hlt; exact hlt))

theorem loadBundle_writeBundle {pages : Pages} {dev : Mem} {b c : Nat} {page : List Byte} (hp : page.length = 2 ^ pages.spage) :
    loadBundle pages (writeBundle pages dev b page) c = if c = b then decodeBundle page else loadBundle pages dev c := by
  unfold loadBundle writeBundle
  split
  · rename_i h
    subst h
    congr 1
    apply ext_getElem
    · rw [Mem.length_read, hp]
    · intro i h1 h2
      rw [Mem.length_read] at h1
      rw [Mem.getElem_read _ _ _ _ h1, Mem.write_in (by omega) (by omega)]
      congr 1; omega
  · rename_i h
    congr 1
    apply ext_getElem
    · simp
    · intro i h1 h2
      rw [Mem.length_read] at h1
      rw [Mem.getElem_read _ _ _ _ h1, Mem.getElem_read _ _ _ _ h1, Mem.write_out]
      rw [hp]
      rcases Nat.lt_or_gt_of_ne h with hlt | hlt
      · have : (c + 1) * 2 ^ pages.spage ≤ b * 2 ^ pages.spage := Nat.mul_le_mul_right _ hlt
        rw [Nat.succ_mul] at this; omega
      · have : (b + 1) * 2 ^ pages.spage ≤ c * 2 ^ pages.spage := Nat.mul_le_mul_right _ hlt
        rw [Nat.succ_mul] at this; omega

theorem loadBundle_formatted {pages : Pages} (h24 : tupleLen ≤ 2 ^ pages.spage) (dev : Mem) (areaLen b : Nat)
    (hb : (b + 1) * 2 ^ pages.spage ≤ areaLen) : loadBundle pages (formatted dev areaLen) b = some [] := by
  unfold loadBundle formatted decodeBundle
  rw [Mem.length_read]
  refine decodeLoop_spec _ [] _ 0 (by simp) (by simp) (fun j hj => absurd hj (by simp)) ?_
  intro _
  simp only [length_nil, Nat.add_zero, Nat.zero_mul]
  have hpos := Nat.two_pow_pos pages.spage
  rw [getD_eq_getElem?_getD, getElem?_eq_getElem (by simpa using hpos), Option.getD_some, Mem.getElem_read _ _ _ _ hpos,
    Mem.write_in (by omega) (by rw [length_replicate]; rw [Nat.succ_mul] at hb; omega)]
  simp [endOfBundle]

end Direct
end Blobd
