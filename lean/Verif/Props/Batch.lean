import Verif.Spec.Batch
import Verif.Proofs.Http
/-!
# C43: batch creation
-/
namespace Blobd
namespace Props

open Http
open MP (Bytes takeN)

theorem batchWrites_eq {σ : Type} (B : Store σ) {L : Nat} (hL : 0 < L) (tok : Tok) (data rest : Bytes) :
    ∀ (n i : Nat) (s : σ), partCount data.length L - i ≤ n →
      batchWrites B L tok data.length n (i * L) (data.drop (i * L) ++ rest) s =
        let r := writeParts B tok (((List.range (partCount data.length L)).drop i).map
          (fun i => (i * L, (data.drop (i * L)).take L))) s
        (r.1, if r.2 then some rest else none) := by
  intro n
  induction n with
  | zero =>
    intro i s h
    have hd : (List.range (partCount data.length L)).drop i = [] := by
      rw [List.drop_eq_nil_iff]; simp; omega
    have hge : data.length ≤ i * L := by
      have := (partCount_iff (n := data.length) (p := i) hL).not
      omega
    simp [hd, writeParts, batchWrites, List.drop_of_length_le hge]
  | succ n ih =>
    intro i s h
    by_cases hlt : i * L < data.length
    · have hi : i < partCount data.length L := (partCount_iff hL).2 hlt
      have hd : (List.range (partCount data.length L)).drop i =
          i :: (List.range (partCount data.length L)).drop (i + 1) := by
        rw [List.drop_eq_getElem_cons (by simpa using hi)]; simp
      have hlen : ((data.drop (i * L)).take L).length = min L (data.length - i * L) := by simp
      have htake : takeN (min L (data.length - i * L)) (data.drop (i * L) ++ rest) =
          some ((data.drop (i * L)).take L, data.drop ((i + 1) * L) ++ rest) := by
        have : data.drop (i * L) ++ rest = (data.drop (i * L)).take L ++ (data.drop ((i + 1) * L) ++ rest) := by
          rw [← List.append_assoc]
          congr 1
          rw [Nat.add_mul, Nat.one_mul, ← List.drop_drop, List.take_append_drop]
        rw [this]
        exact MP.takeN_append' hlen _
      simp only [batchWrites, if_pos hlt, htake, hd, List.map_cons, writeParts]
      cases hw : B.write s tok (i * L) ((data.drop (i * L)).take L) with
      | mk s' ok =>
        cases ok with
        | false => simp
        | true =>
          simp only
          have := ih (i + 1) s' (by omega)
          rw [show (i + 1) * L = i * L + L by rw [Nat.add_mul, Nat.one_mul]] at this ⊢
          exact this
    · have hd : (List.range (partCount data.length L)).drop i = [] := by
        rw [List.drop_eq_nil_iff]; simp
        have := (partCount_iff (n := data.length) (p := i) hL).not
        omega
      simp [hd, writeParts, batchWrites, if_neg hlt, List.drop_of_length_le (by omega : data.length ≤ i * L)]

theorem partCount_le {n L : Nat} (hL : 0 < L) : partCount n L ≤ n := by
  rcases Nat.lt_or_ge n (partCount n L) with h | h
  · have := (partCount_iff hL).1 h
    have := Nat.le_mul_of_pos_right n hL
    omega
  · exact h

theorem batchLoop_cons {σ : Type} (B : Store σ) {L : Nat} (hL : 0 < L) (e : Bytes × Bytes) (hk : e.1.length < 2 ^ 16)
    (hd : e.2.length < 2 ^ 40) (rest : Bytes) (fuel : Nat) (s : σ) (c : Nat) :
    batchLoop B L (fuel + 1) (encodeEntry e ++ rest) s c =
      match createOne B L e s with
      | (s, false) => (s, c)
      | (s, true) => batchLoop B L fuel rest s (c + 1) := by
  have h1 : takeN 2 (encodeEntry e ++ rest) = some (beBytes 2 e.1.length, e.1 ++ (beBytes 5 e.2.length ++ (e.2 ++ rest))) := by
    rw [show encodeEntry e ++ rest = beBytes 2 e.1.length ++ (e.1 ++ (beBytes 5 e.2.length ++ (e.2 ++ rest))) by
      simp [encodeEntry]]
    exact MP.takeN_append' (length_beBytes _ _) _
  have h2 : takeN (beVal (beBytes 2 e.1.length)) (e.1 ++ (beBytes 5 e.2.length ++ (e.2 ++ rest))) =
      some (e.1, beBytes 5 e.2.length ++ (e.2 ++ rest)) := by
    rw [beVal_beBytes_of_lt (n := 2) (by omega)]
    exact MP.takeN_append _ _
  have h3 : takeN 5 (beBytes 5 e.2.length ++ (e.2 ++ rest)) = some (beBytes 5 e.2.length, e.2 ++ rest) :=
    MP.takeN_append' (length_beBytes _ _) _
  have h4 : beVal (beBytes 5 e.2.length) = e.2.length := beVal_beBytes_of_lt (n := 5) (by omega)
  simp only [batchLoop, h1, h2, h3, h4, createOne]
  cases hc : B.create s e.1 e.2.length with
  | mk s1 t =>
    cases t with
    | none => simp
    | some tok =>
      simp only
      have hw := batchWrites_eq B hL tok e.2 rest e.2.length 0 s1 (by have := partCount_le (n := e.2.length) hL; omega)
      simp only [Nat.zero_mul, List.drop_zero] at hw
      rw [hw]
      simp only [partsOf]
      cases hp : writeParts B tok ((List.range (partCount e.2.length L)).map (fun i => (i * L, (e.2.drop (i * L)).take L))) s1 with
      | mk s2 ok =>
        cases ok with
        | false => simp
        | true =>
          simp only [if_true]
          cases hm : B.commit s2 tok with
          | mk s3 ok => cases ok <;> simp

theorem batchLoop_nil {σ : Type} (B : Store σ) (L fuel : Nat) (s : σ) (c : Nat) : batchLoop B L fuel [] s c = (s, c) := by
  cases fuel <;> simp [batchLoop, takeN]

theorem batchLoop_entries {σ : Type} (B : Store σ) {L : Nat} (hL : 0 < L) (es : List (Bytes × Bytes))
    (hk : ∀ e ∈ es, e.1.length < 2 ^ 16 ∧ e.2.length < 2 ^ 40) (rest : Bytes) :
    ∀ (s : σ) (c fuel : Nat),
      batchLoop B L (es.length + fuel) (encodeBatch es ++ rest) s c =
        if (createAll B L es s).2 = es.length then batchLoop B L fuel rest (createAll B L es s).1 (c + es.length)
        else ((createAll B L es s).1, c + (createAll B L es s).2) := by
  induction es with
  | nil => intro s c fuel; simp [encodeBatch, createAll]
  | cons e es ih =>
    intro s c fuel
    obtain ⟨h1, h2⟩ := hk e (by simp)
    have : encodeBatch (e :: es) ++ rest = encodeEntry e ++ (encodeBatch es ++ rest) := by simp [encodeBatch]
    rw [this, show (e :: es).length + fuel = (es.length + fuel) + 1 by simp; omega, batchLoop_cons B hL e h1 h2]
    simp only [createAll, List.length_cons]
    obtain ⟨s1, hc⟩ : ∃ s1, createOne B L e s = (s1, false) ∨ createOne B L e s = (s1, true) := by
      rcases createOne B L e s with ⟨s1, ok⟩
      cases ok
      · exact ⟨s1, Or.inl rfl⟩
      · exact ⟨s1, Or.inr rfl⟩
    rcases hc with hc | hc
    · simp [hc]
    · simp only [hc]
      · rw [ih (fun e he => hk e (by simp [he]))]
        simp only [Nat.add_right_cancel_iff]
        split
        · congr 1; omega
        · congr 1; omega

theorem encodeBatch_len (es : List (Bytes × Bytes)) : es.length ≤ (encodeBatch es).length := by
  induction es with
  | nil => simp
  | cons e es ih =>
    simp only [encodeBatch, List.flatMap_cons, List.length_append, List.length_cons, encodeEntry, length_beBytes] at ih ⊢
    omega

/-- **C43 (any store).** For every list of objects (keys below 64 KiB, data below 2^40 bytes) and every
store, with any pattern of failures: sending the client's encoding of the list is the same as creating
the objects one after another — create, write every part, commit — until the first failure, and the
reported count is the number that succeeded. -/
theorem C43_batch_is_sequence {σ : Type} (B : Store σ) (L : Nat) (hL : 0 < L) (es : List (Bytes × Bytes))
    (hk : ∀ e ∈ es, e.1.length < 2 ^ 16 ∧ e.2.length < 2 ^ 40) (s : σ) :
    batchCreate B L (encodeBatch es) s = createAll B L es s := by
  have hle := encodeBatch_len es
  obtain ⟨fuel, hf⟩ : ∃ fuel, (encodeBatch es).length + 1 = es.length + fuel := ⟨(encodeBatch es).length + 1 - es.length, by omega⟩
  have := batchLoop_entries B hL es hk [] s 0 fuel
  simp only [List.append_nil] at this
  unfold batchCreate
  rw [hf, this]
  split
  · rename_i h
    rw [batchLoop_nil, Nat.zero_add]
    exact Prod.ext rfl h.symm
  · rw [Nat.zero_add]

/-- **C43 (every part is accepted).** The writes issued for an object are exactly those a store with
this large-page size accepts. -/
theorem C43_parts_accepted (pages : Pages) (data : Bytes) :
    ∀ p ∈ partsOf (2 ^ pages.lpage) data, RW.writeCheck pages data.length p.1 p.2.length = none := by
  intro p hp
  have hL : 0 < 2 ^ pages.lpage := Nat.two_pow_pos _
  simp only [partsOf, List.mem_map, List.mem_range] at hp
  obtain ⟨i, hi, rfl⟩ := hp
  rw [partCount_iff hL] at hi
  have hm : isMultipleOfPow2 (i * 2 ^ pages.lpage) pages.lpage = true := (isMultipleOfPow2_iff _ _).2 ⟨i, Nat.mul_comm _ _⟩
  have hl : ((data.drop (i * 2 ^ pages.lpage)).take (2 ^ pages.lpage)).length =
      min (2 ^ pages.lpage) (data.length - i * 2 ^ pages.lpage) := by simp
  unfold RW.writeCheck
  simp only [hl]
  rw [if_neg (by simp [hm]), if_neg (by omega), if_neg (by omega), if_neg (by omega)]

theorem refStore_parts (pages : Pages) (data : Bytes) (tok : Tok) (k : Bytes) :
    ∀ (n i : Nat) (s : RefStore) (m : Mem), s.inc tok.id = some (k, data.length, m) →
      partCount data.length (2 ^ pages.lpage) - i = n →
      (∀ x, x < i * 2 ^ pages.lpage → x < data.length → data[x]? = some (m x)) →
      ∃ s' m', writeParts (refStore pages) tok (((List.range (partCount data.length (2 ^ pages.lpage))).drop i).map
          (fun i => (i * 2 ^ pages.lpage, (data.drop (i * 2 ^ pages.lpage)).take (2 ^ pages.lpage)))) s = (s', true) ∧
        s'.inc tok.id = some (k, data.length, m') ∧ (∀ x, x < data.length → data[x]? = some (m' x)) ∧
        s'.map = s.map ∧ s'.next = s.next := by
  have hL : 0 < 2 ^ pages.lpage := Nat.two_pow_pos _
  intro n
  induction n with
  | zero =>
    intro i s m hs hn hx
    have hd : (List.range (partCount data.length (2 ^ pages.lpage))).drop i = [] := by
      rw [List.drop_eq_nil_iff]; simp; omega
    refine ⟨s, m, by simp [hd, writeParts], hs, ?_, rfl, rfl⟩
    intro x hxl
    refine hx x ?_ hxl
    have := (partCount_iff (n := data.length) (p := i) hL).not
    omega
  | succ n ih =>
    intro i s m hs hn hx
    have hi : i < partCount data.length (2 ^ pages.lpage) := by omega
    have hd : (List.range (partCount data.length (2 ^ pages.lpage))).drop i =
        i :: (List.range (partCount data.length (2 ^ pages.lpage))).drop (i + 1) := by
      rw [List.drop_eq_getElem_cons (by simpa using hi)]; simp
    have hchk := C43_parts_accepted pages data (i * 2 ^ pages.lpage, (data.drop (i * 2 ^ pages.lpage)).take (2 ^ pages.lpage))
      (by simp only [partsOf, List.mem_map, List.mem_range]; exact ⟨i, hi, rfl⟩)
    simp only at hchk
    rw [hd]
    simp only [List.map_cons, writeParts]
    have hw : (refStore pages).write s tok (i * 2 ^ pages.lpage) ((data.drop (i * 2 ^ pages.lpage)).take (2 ^ pages.lpage)) =
        ({ s with inc := fun j => (if j = tok.id then
            some (k, data.length, m.write (i * 2 ^ pages.lpage) ((data.drop (i * 2 ^ pages.lpage)).take (2 ^ pages.lpage)))
            else s.inc j) }, true) := by
      simp only [refStore, hs, hchk]
    rw [hw]
    simp only
    obtain ⟨s', m', h1, h2, h3, h4, h5⟩ := ih (i + 1)
      { s with inc := fun j => (if j = tok.id then
            some (k, data.length, m.write (i * 2 ^ pages.lpage) ((data.drop (i * 2 ^ pages.lpage)).take (2 ^ pages.lpage)))
            else s.inc j) }
      (m.write (i * 2 ^ pages.lpage) ((data.drop (i * 2 ^ pages.lpage)).take (2 ^ pages.lpage)))
      (by simp) (by omega) (by
      intro x hx1 hx2
      by_cases hlt : x < i * 2 ^ pages.lpage
      · rw [Mem.write_out (Or.inl hlt)]; exact hx x hlt hx2
      · have hxi : x - i * 2 ^ pages.lpage < 2 ^ pages.lpage := by
          rw [Nat.add_mul, Nat.one_mul] at hx1; omega
        simp only [Mem.write, if_pos (by omega : i * 2 ^ pages.lpage ≤ x)]
        rw [List.getElem?_take_of_lt hxi, List.getElem?_drop,
          show i * 2 ^ pages.lpage + (x - i * 2 ^ pages.lpage) = x by omega, List.getElem?_eq_getElem hx2]
        rfl)
    exact ⟨s', m', h1, h2, h3, h4, h5⟩

/-- **C43 (contents).** On a store that does not fail, after the batch every key maps to exactly the bytes
of the last object sent under it, all other keys are unchanged, and the count is the number of objects. -/
theorem C43_batch_stores_exactly (pages : Pages) (es : List (Bytes × Bytes))
    (hk : ∀ e ∈ es, e.1.length < 2 ^ 16 ∧ e.2.length < 2 ^ 40) (s : RefStore) :
    (batchCreate (refStore pages) (2 ^ pages.lpage) (encodeBatch es) s).1.map = putAll es s.map ∧
    (batchCreate (refStore pages) (2 ^ pages.lpage) (encodeBatch es) s).2 = es.length := by
  rw [C43_batch_is_sequence _ _ (Nat.two_pow_pos _) es hk]
  clear hk
  induction es generalizing s with
  | nil => simp [createAll, putAll]
  | cons e es ih =>
    have hone : ∃ s', createOne (refStore pages) (2 ^ pages.lpage) e s = (s', true) ∧
        s'.map = fun x => if x = e.1 then some e.2 else s.map x := by
      let s1 : RefStore := { s with next := s.next + 1, inc := fun i => if i = s.next then some (e.1, e.2.length, fun _ => 0) else s.inc i }
      obtain ⟨s', m', h1, h2, h3, h4, h5⟩ := refStore_parts pages e.2 ⟨s.next, 0⟩ e.1 _ 0 s1 (fun _ => 0) (by simp [s1]) rfl (by simp)
      have hc : (refStore pages).create s e.1 e.2.length = (s1, some ⟨s.next, 0⟩) := rfl
      simp only [List.drop_zero] at h1
      refine ⟨{ s' with inc := fun i => if i = s.next then none else s'.inc i,
                        map := fun x => if x = e.1 then some (m'.read 0 e.2.length) else s'.map x }, ?_, ?_⟩
      · simp only [createOne, hc, partsOf, h1]
        simp only [refStore] at h2 ⊢
        simp only [h2]
      · have : m'.read 0 e.2.length = e.2 := by
          apply List.ext_getElem (by simp [Mem.read])
          intro i hi1 hi2
          have := h3 i hi2
          rw [List.getElem?_eq_getElem hi2] at this
          simp [Mem.read] at this ⊢
          exact this.symm
        simp only [this, h4, s1]
    obtain ⟨s', h1, h2⟩ := hone
    simp only [createAll, h1]
    obtain ⟨i1, i2⟩ := ih s'
    refine ⟨?_, by rw [i2]; simp⟩
    rw [i1, h2]
    simp [putAll]

/-- **C43 (cut-off bodies).** If the body ends in the middle of an object, the objects before it are
created as usual, and the incomplete one is never committed: whatever part of the store state is left
alone by creating and writing is as the complete objects left it. -/
theorem C43_truncated_body {σ α : Type} (B : Store σ) (vis : σ → α)
    (hcreate : ∀ s k n, vis (B.create s k n).1 = vis s) (hwrite : ∀ s t o d, vis (B.write s t o d).1 = vis s)
    (L : Nat) (hL : 0 < L) (es : List (Bytes × Bytes)) (hk : ∀ e ∈ es, e.1.length < 2 ^ 16 ∧ e.2.length < 2 ^ 40)
    (e : Bytes × Bytes) (he : e.1.length < 2 ^ 16 ∧ e.2.length < 2 ^ 40) (cut : Nat) (hcut : cut < (encodeEntry e).length) (s : σ) :
    vis (batchCreate B L (encodeBatch es ++ (encodeEntry e).take cut) s).1 = vis (createAll B L es s).1 ∧
    (batchCreate B L (encodeBatch es ++ (encodeEntry e).take cut) s).2 = (createAll B L es s).2 := by
  -- a cut-off object: nothing is committed, nothing is counted
  have hwr : ∀ (tok : Tok) (size n off : Nat) (body : Bytes) (s : σ),
      vis (batchWrites B L tok size n off body s).1 = vis s := by
    intro tok size n
    induction n with
    | zero => intro off body s; rfl
    | succ n ih =>
      intro off body s
      unfold batchWrites
      split
      · split
        · rfl
        · rename_i chunk rest _
          have hw := hwrite s tok off chunk
          cases hb : B.write s tok off chunk with
          | mk s1 ok =>
            rw [hb] at hw
            cases ok with
            | false => exact hw
            | true => simp only; rw [ih]; exact hw
      · rfl
  have hshort : ∀ (tok : Tok) (size n off : Nat) (body : Bytes) (s : σ), off + n * L ≥ size → body.length + off < size →
      (batchWrites B L tok size n off body s).2 = none := by
    intro tok size n
    induction n with
    | zero => intro off body s h1 h2; omega
    | succ n ih =>
      intro off body s h1 h2
      unfold batchWrites
      rw [if_pos (by omega)]
      split
      · rfl
      · rename_i chunk rest ht
        simp only [takeN] at ht
        split at ht
        · rename_i hle
          simp at ht
          obtain ⟨rfl, rfl⟩ := ht
          cases hb : B.write s tok off (body.take (min L (size - off))) with
          | mk s1 ok =>
            cases ok with
            | false => rfl
            | true =>
              simp only
              refine ih (off + L) _ s1 (by rw [Nat.add_mul, Nat.one_mul] at h1; omega) ?_
              simp only [List.length_drop]
              omega
        · simp at ht
  have hpart : ∀ (fuel c : Nat) (s : σ), vis (batchLoop B L fuel ((encodeEntry e).take cut) s c).1 = vis s ∧
      (batchLoop B L fuel ((encodeEntry e).take cut) s c).2 = c := by
    intro fuel c s
    cases fuel with
    | zero => exact ⟨rfl, rfl⟩
    | succ fuel =>
      have hlen : (encodeEntry e).length = 2 + (e.1.length + (5 + e.2.length)) := by
        simp only [encodeEntry, List.length_append, length_beBytes]; omega
      have hfull : encodeEntry e = beBytes 2 e.1.length ++ (e.1 ++ (beBytes 5 e.2.length ++ e.2)) := by simp [encodeEntry]
      unfold batchLoop
      by_cases c1 : cut < 2
      · have : takeN 2 ((encodeEntry e).take cut) = none := by simp [takeN]; omega
        simp [this]
      have t1 : (encodeEntry e).take cut = beBytes 2 e.1.length ++ (e.1 ++ (beBytes 5 e.2.length ++ e.2)).take (cut - 2) := by
        rw [hfull, List.take_append, length_beBytes, List.take_of_length_le (by rw [length_beBytes]; omega)]
      rw [t1, MP.takeN_append' (length_beBytes _ _)]
      simp only
      rw [beVal_beBytes_of_lt (n := 2) (by omega)]
      by_cases c2 : cut - 2 < e.1.length
      · have : takeN e.1.length ((e.1 ++ (beBytes 5 e.2.length ++ e.2)).take (cut - 2)) = none := by
          simp [takeN]; omega
        simp [this]
      have t2 : (e.1 ++ (beBytes 5 e.2.length ++ e.2)).take (cut - 2) =
          e.1 ++ (beBytes 5 e.2.length ++ e.2).take (cut - 2 - e.1.length) := by
        rw [List.take_append, List.take_of_length_le (by omega)]
      rw [t2, MP.takeN_append]
      simp only
      by_cases c3 : cut - 2 - e.1.length < 5
      · have : takeN 5 ((beBytes 5 e.2.length ++ e.2).take (cut - 2 - e.1.length)) = none := by
          simp [takeN]; omega
        simp [this]
      have t3 : (beBytes 5 e.2.length ++ e.2).take (cut - 2 - e.1.length) =
          beBytes 5 e.2.length ++ e.2.take (cut - 2 - e.1.length - 5) := by
        rw [List.take_append, length_beBytes, List.take_of_length_le (by rw [length_beBytes]; omega)]
      rw [t3, MP.takeN_append' (length_beBytes _ _)]
      simp only
      rw [beVal_beBytes_of_lt (n := 5) (by omega)]
      have hc := hcreate s e.1 e.2.length
      cases hcr : B.create s e.1 e.2.length with
      | mk s1 t =>
        rw [hcr] at hc
        cases t with
        | none => exact ⟨hc, rfl⟩
        | some tok =>
          simp only
          have hv := hwr tok e.2.length e.2.length 0 (e.2.take (cut - 2 - e.1.length - 5)) s1
          have hn := hshort tok e.2.length e.2.length 0 (e.2.take (cut - 2 - e.1.length - 5)) s1
            (by have := Nat.le_mul_of_pos_right e.2.length hL; omega) (by rw [List.length_take]; omega)
          cases hb : batchWrites B L tok e.2.length e.2.length 0 (e.2.take (cut - 2 - e.1.length - 5)) s1 with
          | mk s2 o =>
            rw [hb] at hv hn
            simp only at hn
            subst hn
            exact ⟨hv.trans hc, rfl⟩
  have hle := encodeBatch_len es
  obtain ⟨fuel, hf⟩ : ∃ fuel, (encodeBatch es ++ (encodeEntry e).take cut).length + 1 = es.length + fuel :=
    ⟨(encodeBatch es ++ (encodeEntry e).take cut).length + 1 - es.length, by simp only [List.length_append]; omega⟩
  unfold batchCreate
  rw [hf, batchLoop_entries B hL es hk]
  split
  · rename_i h
    obtain ⟨p1, p2⟩ := hpart fuel (0 + es.length) (createAll B L es s).1
    exact ⟨p1, by rw [p2, Nat.zero_add, h]⟩
  · exact ⟨rfl, by rw [Nat.zero_add]⟩

/-- a concrete batch: two objects, the first of three parts (part size 4), and the key used twice -/
example : (batchCreate (refStore ⟨0, 2⟩) 4 (encodeBatch [([1], [1,2,3,4,5,6,7,8,9]), ([2], [])]) ⟨0, fun _ => none, fun _ => none⟩).2 = 2 :=
  (C43_batch_stores_exactly ⟨0, 2⟩ _ (by intro e he; simp at he; rcases he with rfl | rfl <;> simp) _).2

end Props
end Blobd
