import Verif.Proofs.ConcWrite
/-!
# Properties C18–C23 and C31: reading and writing object data

`contents pages lay dev o` (Spec/ReadWrite.lean) is the byte string an object holds on device `dev`:
its pages in order, cut to its size. `fuel` is a step budget: a statement for every `fuel` above a bound
says the operation terminates; a statement `= .running` for every `fuel` says it never does.
-/
namespace Blobd
namespace Props
open RW

/-! ### C18, C19: reads -/

/-- **C18 (lite).** Every accepted range `[start, stop)`, whatever the page layout: the read ends
normally and the chunks, concatenated, are exactly bytes `start..stop` of the object. No chunk is
empty. -/
theorem C18_lite_read_exact (pages : Pages) (hp : PagesOk pages) (o : Obj) (dev : Mem) (lay : ObjectLayout)
    (hlay : calcObjectLayout pages o.size = some lay) (start stop : Nat) (stop? : Option Nat)
    (hst : stop = stop?.getD o.size) (h1 : start < stop) (h2 : stop ≤ o.size)
    (fuel : Nat) (hf : stop - start < fuel) :
    ∃ chunks, opReadLite pages o dev start stop? fuel = .ret (.ok chunks) ∧
      chunks.flatten = ((contents pages lay dev o).drop start).take (stop - start) ∧ ∀ c ∈ chunks, c ≠ [] := by
  obtain ⟨es, hi⟩ := layInfo_of hp hlay
  obtain ⟨cs, e, f, g⟩ := readLoopLite_spec pages lay o dev stop (objPages pages lay o) (pageAt_eq hi.rep)
    (objPages_aligned hi.rep hi.sorted (fun e he => (hi.bounds e he).2)) (Nat.le_trans h2 (hi.size_le o))
    fuel (startIdx pages lay start) start hf (by omega) (fun _ => hi.startIdx_at o start (by omega))
  refine ⟨cs, ?_, ?_, g⟩
  · unfold opReadLite
    simp only [← hst]
    rw [if_neg (by omega), hlay]
    simp only [e]
  · rw [slice_contents dev (by omega) h2, f]

/-- **C18 (direct).** The same for the direct store, for every stream buffer size above zero; chunks
are no longer than the buffer. -/
theorem C18_direct_read_exact (pages : Pages) (hp : PagesOk pages) (o : Obj) (dev : Mem) (lay : ObjectLayout)
    (hlay : calcObjectLayoutDirect pages o.size = some lay) (bufSize start stop : Nat) (hb : 0 < bufSize)
    (stop? : Option Nat) (hst : stop = stop?.getD o.size) (h1 : start ≤ stop) (h2 : stop ≤ o.size)
    (fuel : Nat) (hf : stop - start < fuel) :
    ∃ chunks, opReadDirect pages o dev bufSize start stop? fuel = .ret (.ok chunks) ∧
      chunks.flatten = ((contents pages lay dev o).drop start).take (stop - start) ∧
      ∀ c ∈ chunks, c ≠ [] ∧ c.length ≤ bufSize := by
  have hlay' : calcObjectLayout pages o.size = some lay := by
    unfold calcObjectLayoutDirect at hlay
    split at hlay
    · exact hlay
    · exact absurd hlay (by simp)
  obtain ⟨es, hi⟩ := layInfo_of hp hlay'
  unfold opReadDirect
  rw [hlay]
  simp only [← hst]
  rw [if_neg (by omega)]
  by_cases hempty : start = stop ∨ start = o.size
  · rw [if_pos hempty]
    refine ⟨[], rfl, ?_, by simp⟩
    have : stop - start = 0 := by omega
    rw [this]; simp
  · rw [if_neg hempty]
    obtain ⟨cs, e, f, g⟩ := readLoopDirect_spec pages lay o dev bufSize stop (objPages pages lay o) (pageAt_eq hi.rep)
      (objPages_aligned hi.rep hi.sorted (fun e he => (hi.bounds e he).2)) (Nat.le_trans h2 (hi.size_le o)) hb
      fuel (startIdx pages lay start) start hf (by omega) (fun _ => hi.startIdx_at o start (by omega))
    refine ⟨cs, by simp only [e], ?_, g⟩
    rw [slice_contents dev (by omega) h2, f]

/-- C18 needs a positive buffer: with `stream_buffer_size = 0` the direct store's read loop yields
empty chunks forever and never advances, on every non-empty range. -/
theorem C18_direct_zero_buffer_never_ends (pages : Pages) (hp : PagesOk pages) (o : Obj) (dev : Mem) (lay : ObjectLayout)
    (hlay : calcObjectLayoutDirect pages o.size = some lay) (start stop : Nat) (h1 : start < stop)
    (h2 : stop ≤ o.size) (fuel : Nat) :
    opReadDirect pages o dev 0 start (some stop) fuel = .running := by
  have hlay' : calcObjectLayout pages o.size = some lay := by
    unfold calcObjectLayoutDirect at hlay
    split at hlay
    · exact hlay
    · exact absurd hlay (by simp)
  obtain ⟨es, hi⟩ := layInfo_of hp hlay'
  obtain ⟨a, off, e, b, hpl, hlen, _, _⟩ := hi.startIdx_at o start (by omega)
  have hpa : pageAt pages lay o (startIdx pages lay start) = some (off, e) := by
    rw [pageAt_eq hi.rep, hpl, ← hlen]; simp
  have hloop : ∀ fuel, readLoopDirect pages lay o dev 0 stop fuel (startIdx pages lay start) start = .running := by
    intro fuel
    induction fuel with
    | zero => rfl
    | succ fuel ih =>
      unfold readLoopDirect
      rw [if_pos h1, hpa]
      simp only [Nat.zero_min, Nat.add_zero]
      have hne : ¬ 0 = 1 <<< e - modPow2 start e := by
        have := Nat.mod_lt start (Nat.two_pow_pos e)
        rw [modPow2_eq, Nat.shiftLeft_eq]; omega
      rw [if_neg hne, ih]
  unfold opReadDirect
  rw [hlay]
  simp only [Option.getD_some]
  rw [if_neg (by omega), if_neg (by omega), hloop]

/-- **C19 (lite).** A read is refused with RangeOutOfBounds exactly when the range is empty, inverted
or reaches past the object's size (`start = stop` is refused). In every other case it succeeds. -/
theorem C19_lite_range_exact (pages : Pages) (hp : PagesOk pages) (o : Obj) (dev : Mem)
    (start : Nat) (stop? : Option Nat) (fuel : Nat) (hf : o.size < fuel) :
    (opReadLite pages o dev start stop? fuel = .ret (.error .rangeOutOfBounds) ↔
      ¬ (start < stop?.getD o.size ∧ stop?.getD o.size ≤ o.size)) ∧
    ((start < stop?.getD o.size ∧ stop?.getD o.size ≤ o.size) →
      ∃ chunks, opReadLite pages o dev start stop? fuel = .ret (.ok chunks) ∧
        chunks.flatten.length = stop?.getD o.size - start) := by
  obtain ⟨lay, es, hi⟩ := layInfo hp o.size
  have key : (start < stop?.getD o.size ∧ stop?.getD o.size ≤ o.size) →
      ∃ chunks, opReadLite pages o dev start stop? fuel = .ret (.ok chunks) ∧
        chunks.flatten.length = stop?.getD o.size - start := by
    intro ⟨a, b⟩
    obtain ⟨cs, e, f, _⟩ := C18_lite_read_exact pages hp o dev lay hi.eq start _ stop? rfl a b fuel (by omega)
    refine ⟨cs, e, ?_⟩
    rw [f, List.length_take, List.length_drop, contents_length hi]; omega
  refine ⟨⟨fun h hc => ?_, fun h => ?_⟩, key⟩
  · obtain ⟨cs, e, _⟩ := key hc
    rw [e] at h; simp at h
  · unfold opReadLite
    simp only
    rw [if_pos (by omega)]

/-- **C19 (direct).** As for lite, except that an empty range inside the object is accepted. -/
theorem C19_direct_range_exact (pages : Pages) (hp : PagesOk pages) (o : Obj) (dev : Mem)
    (hsz : o.size / 2 ^ pages.lpage < 2 ^ 32)
    (bufSize start : Nat) (hb : 0 < bufSize) (stop? : Option Nat) (fuel : Nat) (hf : o.size < fuel) :
    (opReadDirect pages o dev bufSize start stop? fuel = .ret (.error .rangeOutOfBounds) ↔
      ¬ (start ≤ stop?.getD o.size ∧ stop?.getD o.size ≤ o.size)) ∧
    ((start ≤ stop?.getD o.size ∧ stop?.getD o.size ≤ o.size) →
      ∃ chunks, opReadDirect pages o dev bufSize start stop? fuel = .ret (.ok chunks) ∧
        chunks.flatten.length = stop?.getD o.size - start) := by
  obtain ⟨lay, es, hi⟩ := layInfo hp o.size
  have hl : calcObjectLayoutDirect pages o.size = some lay := (layoutDirect_eq hsz).trans hi.eq
  have key : (start ≤ stop?.getD o.size ∧ stop?.getD o.size ≤ o.size) →
      ∃ chunks, opReadDirect pages o dev bufSize start stop? fuel = .ret (.ok chunks) ∧
        chunks.flatten.length = stop?.getD o.size - start := by
    intro ⟨a, b⟩
    obtain ⟨cs, e, f, _⟩ := C18_direct_read_exact pages hp o dev lay hl bufSize start _ hb stop? rfl a b fuel (by omega)
    refine ⟨cs, e, ?_⟩
    rw [f, List.length_take, List.length_drop, contents_length hi]; omega
  refine ⟨⟨fun h hc => ?_, fun h => ?_⟩, key⟩
  · obtain ⟨cs, e, _⟩ := key hc
    rw [e] at h; simp at h
  · unfold opReadDirect
    rw [hl]
    simp only
    rw [if_pos (by omega)]

/-- an object of 16 MiB + 5000 bytes, with one large and two tail pages -/
def exObj : Obj := { size := 2 ^ 24 + 5000, lpageOff := fun _ => 2 ^ 25, tailOff := fun i => if i = 0 then 2 ^ 26 else 2 ^ 26 + 4096 }

example : PagesOk ⟨9, 24⟩ := ⟨by decide, by decide, by decide⟩
/-- ranges accepted and refused for that object: across the large page boundary; empty; past the end -/
example : (100 < (some (2 ^ 24 + 4500)).getD exObj.size ∧ (some (2 ^ 24 + 4500)).getD exObj.size ≤ exObj.size) ∧
    ¬ (7 < (some 7).getD exObj.size) ∧ ¬ ((some (2 ^ 24 + 5001)).getD exObj.size ≤ exObj.size) := by
  decide
/-- a complete small read: sizes 2^2/2^3, an object of 11 bytes in pages at 8 and 100; bytes 6..10 -/
example : opReadLite ⟨2, 3⟩ ⟨11, fun _ => 8, fun _ => 100⟩ (fun x => UInt8.ofNat x) 6 (some 10) 20 =
    .ret (.ok [[14, 15], [100, 101]]) := by rfl

/-! ### C20–C23: writes -/

/-- Specification: `ws` (offset and chunks of each call) are performed one after another, each of them
terminates successfully, and between the calls everything outside the object's pages may change. -/
def WritesDone (mine : Nat → Prop)
    (write : Mem → Nat → Nat → List (Except Unit (List Byte)) → Nat → Run (Except OpError Unit × Mem)) :
    Mem → List (Nat × List (List Byte)) → Mem → Prop
  | dev, [], dev' => ∀ x, mine x → dev' x = dev x
  | dev, (off, cs) :: ws, dev' => ∃ pre mid, (∀ x, mine x → pre x = dev x) ∧
      (∃ n, ∀ fuel, n ≤ fuel → write pre off cs.flatten.length (cs.map .ok) fuel = .ret (.ok (), mid)) ∧
      WritesDone mine write mid ws dev'

/-- Specification: `(off, cs)` is a part of `data`: starts at a part boundary, its chunks are not empty
and concatenate to the part's bytes. -/
def IsPart (pages : Pages) (data : List Byte) (w : Nat × List (List Byte)) : Prop :=
  2 ^ pages.lpage ∣ w.1 ∧ w.1 ≤ data.length ∧ (∀ c ∈ w.2, c ≠ []) ∧ w.2.flatten = (data.drop w.1).take (2 ^ pages.lpage)

theorem part_check {pages : Pages} {data : List Byte} {w : Nat × List (List Byte)} (h : IsPart pages data w) :
    writeCheck pages data.length w.1 w.2.flatten.length = none := by
  obtain ⟨h1, h2, _, h4⟩ := h
  rw [writeCheck_none]
  refine ⟨h1, ?_⟩
  rw [h4, List.length_take, List.length_drop]
  omega

theorem part_write {layout : Pages → Nat → Option ObjectLayout} {block : List Byte → List Byte} {pages : Pages}
    (hp : PagesOk pages) {o : Obj} {lay : ObjectLayout} (hl : layout pages o.size = some lay)
    {es : List Nat} (hi : LayInfo pages o.size lay es)
    {data : List Byte} (hd : data.length = o.size) {w : Nat × List (List Byte)} (hw : IsPart pages data w) (dev : Mem) :
    ∃ n, ∀ fuel, n ≤ fuel → opWrite layout block pages o dev w.1 w.2.flatten.length (w.2.map .ok) fuel =
      .ret (.ok (), dev.writeAll (pieces block (writeTargets pages lay o w.1) w.2.flatten)) := by
  have hc := part_check hw
  rw [hd] at hc
  obtain ⟨hfit, hsum, _⟩ := hi.targets hp w.1 _ hc
  refine ⟨w.2.length + (writeTargets pages lay o w.1).length + 1, fun fuel hf => ?_⟩
  have := wrun_ok (block := block) (len := w.2.flatten.length) (targets := writeTargets pages lay o w.1) fuel w.2
    { stream := w.2.map .ok, dev := dev } rfl (by simp only; omega) hw.2.2.1 hfit.pos (by simp [hsum])
    (by simp only [List.length_nil]; omega)
  unfold opWrite
  rw [hc]
  simp only [hl]
  rw [this]
  simp

theorem writes_done {layout : Pages → Nat → Option ObjectLayout} {block : List Byte → List Byte} {pages : Pages}
    (hp : PagesOk pages) (hb : BlockOk pages.spage block) {o : Obj} {lay : ObjectLayout} (hl : layout pages o.size = some lay)
    {es : List Nat} (hi : LayInfo pages o.size lay es) (hap : (objPages pages lay o).Pairwise PagesApart)
    {data : List Byte} (hd : data.length = o.size) :
    ∀ (ws : List (Nat × List (List Byte))) (dev dev' : Mem), (∀ w ∈ ws, IsPart pages data w) →
      WritesDone (InPages (objPages pages lay o)) (opWrite layout block pages o) dev ws dev' →
      ∀ i, ((∃ w ∈ ws, w.1 ≤ i ∧ i < w.1 + w.2.flatten.length) → (contents pages lay dev' o)[i]? = data[i]?) ∧
        ((contents pages lay dev o)[i]? = data[i]? → (contents pages lay dev' o)[i]? = data[i]?) := by
  intro ws
  have hcc : ∀ {m m' : Mem}, (∀ x, InPages (objPages pages lay o) x → m x = m' x) →
      contents pages lay m o = contents pages lay m' o :=
    fun h => contents_congr (fun p hp x hx => h x ⟨p, hp, hx⟩)
  induction ws with
  | nil =>
    intro dev dev' _ h i
    exact ⟨by simp, fun hh => by rw [hcc (m := dev') (m' := dev) h]; exact hh⟩
  | cons w ws ih =>
    intro dev dev' hpart h i
    obtain ⟨off, cs⟩ := w
    obtain ⟨pre, mid, hpre, ⟨n, hn⟩, hrest⟩ := h
    have hw := hpart (off, cs) (by simp)
    obtain ⟨n', hn'⟩ := part_write (layout := layout) (block := block) hp hl hi hd hw pre
    have hmid : mid = pre.writeAll (pieces block (writeTargets pages lay o off) cs.flatten) := by
      have a := hn (max n n') (by omega)
      have b := hn' (max n n') (by omega)
      simp only at b
      rw [a] at b
      injection b with b
      exact congrArg Prod.snd b
    have hc := part_check hw
    rw [hd] at hc
    simp only at hc
    have hmc := contents_write hp hi hap hb off cs.flatten hc pre
    rw [← hmid, hcc (m := pre) (m' := dev) hpre] at hmc
    have hbound : off + cs.flatten.length ≤ (contents pages lay dev o).length := by
      rw [contents_length hi]
      have := (writeCheck_none.1 hc).2
      omega
    have hget : (contents pages lay mid o)[i]? =
        if off ≤ i ∧ i < off + cs.flatten.length then data[i]? else (contents pages lay dev o)[i]? := by
      rw [hmc, getElem?_splice _ _ _ _ hbound]
      split
      · rename_i hin
        have hcs := hw.2.2.2
        simp only at hcs
        have hlen : cs.flatten.length = min (2 ^ pages.lpage) (data.length - off) := by
          rw [hcs, List.length_take, List.length_drop]
        rw [hcs, List.getElem?_take_of_lt (by omega), List.getElem?_drop]
        congr 1; omega
      · rfl
    obtain ⟨ih1, ih2⟩ := ih mid dev' (fun w hw => hpart w (by simp [hw])) hrest i
    constructor
    · rintro ⟨w, hwm, hin⟩
      rcases List.mem_cons.1 hwm with rfl | hwm
      · exact ih2 (by rw [hget, if_pos hin])
      · exact ih1 ⟨w, hwm, hin⟩
    · intro hh
      refine ih2 ?_
      rw [hget]
      split
      · rfl
      · exact hh

/-- **C20.** After writing parts of `data` in any order, with any chunking, some of them repeatedly, so
that every byte is covered — while anything outside the object's pages changes arbitrarily in between —
the object's contents are `data`, and every accepted read returns exactly the requested bytes. Lite
store. -/
theorem C20_lite_write_then_read (pages : Pages) (hp : PagesOk pages) (o : Obj) (lay : ObjectLayout)
    (hlay : calcObjectLayout pages o.size = some lay) (hap : (objPages pages lay o).Pairwise PagesApart)
    (data : List Byte) (hd : data.length = o.size) (ws : List (Nat × List (List Byte))) (dev dev' : Mem)
    (hpart : ∀ w ∈ ws, IsPart pages data w)
    (hcover : ∀ i, i < o.size → ∃ w ∈ ws, w.1 ≤ i ∧ i < w.1 + w.2.flatten.length)
    (hdone : WritesDone (InPages (objPages pages lay o)) (opWriteLite pages o) dev ws dev') :
    contents pages lay dev' o = data ∧
    ∀ start stop, start < stop → stop ≤ o.size → ∀ fuel, stop - start < fuel →
      ∃ chunks, opReadLite pages o dev' start (some stop) fuel = .ret (.ok chunks) ∧
        chunks.flatten = (data.drop start).take (stop - start) := by
  obtain ⟨es, hi⟩ := layInfo_of hp hlay
  have hall := writes_done hp (blockLite_ok pages.spage) hlay hi hap hd ws dev dev' hpart hdone
  have hcon : contents pages lay dev' o = data := by
    apply List.ext_getElem?
    intro i
    by_cases hlt : i < o.size
    · exact (hall i).1 (hcover i hlt)
    · rw [List.getElem?_eq_none (by rw [contents_length hi]; omega), List.getElem?_eq_none (by omega)]
  refine ⟨hcon, fun start stop h1 h2 fuel hf => ?_⟩
  obtain ⟨cs, e, f, _⟩ := C18_lite_read_exact pages hp o dev' lay hlay start stop (some stop) rfl h1 h2 fuel hf
  exact ⟨cs, e, by rw [f, hcon]⟩

/-- **C20 (direct).** The same for the direct store, whatever is in the padding it writes after a
part's last byte. -/
theorem C20_direct_write_then_read (pages : Pages) (hp : PagesOk pages) (o : Obj) (lay : ObjectLayout)
    (hlay : calcObjectLayoutDirect pages o.size = some lay) (hap : (objPages pages lay o).Pairwise PagesApart)
    (junk : Nat → Byte) (data : List Byte) (hd : data.length = o.size) (ws : List (Nat × List (List Byte)))
    (dev dev' : Mem) (hpart : ∀ w ∈ ws, IsPart pages data w)
    (hcover : ∀ i, i < o.size → ∃ w ∈ ws, w.1 ≤ i ∧ i < w.1 + w.2.flatten.length)
    (hdone : WritesDone (InPages (objPages pages lay o)) (opWriteDirect pages junk o) dev ws dev') :
    contents pages lay dev' o = data ∧
    ∀ bufSize start stop, 0 < bufSize → start ≤ stop → stop ≤ o.size → ∀ fuel, stop - start < fuel →
      ∃ chunks, opReadDirect pages o dev' bufSize start (some stop) fuel = .ret (.ok chunks) ∧
        chunks.flatten = (data.drop start).take (stop - start) := by
  have hlay' : calcObjectLayout pages o.size = some lay := by
    unfold calcObjectLayoutDirect at hlay
    split at hlay
    · exact hlay
    · exact absurd hlay (by simp)
  obtain ⟨es, hi⟩ := layInfo_of hp hlay'
  have hall := writes_done hp (blockDirect_ok pages junk) hlay hi hap hd ws dev dev' hpart hdone
  have hcon : contents pages lay dev' o = data := by
    apply List.ext_getElem?
    intro i
    by_cases hlt : i < o.size
    · exact (hall i).1 (hcover i hlt)
    · rw [List.getElem?_eq_none (by rw [contents_length hi]; omega), List.getElem?_eq_none (by omega)]
  refine ⟨hcon, fun bufSize start stop hbs h1 h2 fuel hf => ?_⟩
  obtain ⟨cs, e, f, _⟩ := C18_direct_read_exact pages hp o dev' lay hlay bufSize start stop hbs (some stop) rfl h1 h2 fuel hf
  exact ⟨cs, e, by rw [f, hcon]⟩

/-- C20's premises can always be met: for any data, any object with disjoint pages and any list of
parts, performing the writes does succeed. (So the theorems above are about something that happens.) -/
theorem C20_writes_succeed (pages : Pages) (hp : PagesOk pages) (o : Obj) (lay : ObjectLayout)
    (hlay : calcObjectLayout pages o.size = some lay) (data : List Byte) (hd : data.length = o.size)
    (ws : List (Nat × List (List Byte))) (hpart : ∀ w ∈ ws, IsPart pages data w) (dev : Mem) :
    ∃ dev', WritesDone (InPages (objPages pages lay o)) (opWriteLite pages o) dev ws dev' := by
  obtain ⟨es, hi⟩ := layInfo_of hp hlay
  induction ws generalizing dev with
  | nil => exact ⟨dev, fun _ _ => rfl⟩
  | cons w ws ih =>
    obtain ⟨off, cs⟩ := w
    obtain ⟨n, hn⟩ := part_write (layout := calcObjectLayout) (block := blockLite) hp hlay hi hd (hpart (off, cs) (by simp)) dev
    obtain ⟨dev', h'⟩ := ih (fun w hw => hpart w (by simp [hw])) (dev.writeAll (pieces blockLite (writeTargets pages lay o off) cs.flatten))
    exact ⟨dev', dev, _, fun _ _ => rfl, ⟨n, hn⟩, h'⟩

/-- two parts of an 11-byte object with 8-byte large pages, the second first, with chunking -/
example : (∀ w ∈ [(8, [[9, 10], [11]]), (0, [[1, 2, 3], [4, 5, 6, 7, 8]])],
      IsPart ⟨2, 3⟩ [1, 2, 3, 4, 5, 6, 7, 8, 9, 10, 11] w) ∧
    (∀ i, i < 11 → ∃ w ∈ [(8, [[9, 10], [11]]), (0, [[1, 2, 3], [4, 5, 6, 7, 8]])],
      w.1 ≤ i ∧ i < w.1 + (w.2.flatten : List Byte).length) := by
  constructor
  · intro w hw
    simp only [List.mem_cons, List.not_mem_nil, or_false] at hw
    rcases hw with rfl | rfl <;> exact ⟨by decide, by decide, by decide, by decide⟩
  · intro i hi
    by_cases h : i < 8
    · exact ⟨(0, [[1, 2, 3], [4, 5, 6, 7, 8]]), by simp, by simp, by simpa using h⟩
    · exact ⟨(8, [[9, 10], [11]]), by simp, by simp; omega, by simp; omega⟩

/-- **C20 (concurrent writers).** Writers of different parts may run at the same time: under every
interleaving of their loop iterations with each other and with arbitrary activity outside the object's
pages, no writer panics or fails, and once those covering the object have finished its contents are
`data`. `block` is lite's or direct's page image (`BlockOk`). -/
theorem C20_concurrent_writers (pages : Pages) (hp : PagesOk pages) (o : Obj) (lay : ObjectLayout)
    (hlay : calcObjectLayout pages o.size = some lay) (hap : (objPages pages lay o).Pairwise PagesApart)
    (block : List Byte → List Byte) (hb : BlockOk pages.spage block)
    (data : List Byte) (hd : data.length = o.size) (ws : List (Nat × List (List Byte)))
    (hpart : ∀ w ∈ ws, IsPart pages data w)
    (hdist : ws.Pairwise (fun a b => a.1 ≠ b.1)) (dev0 : Mem) (c : CState)
    (hr : CReach block pages lay o (ws.map fun w => ⟨w.1, w.2.flatten.length, w.2.map .ok⟩)
      (InPages (objPages pages lay o)) dev0 c) :
    (∀ i, i < ws.length → c.ws i ≠ .panicked ∧ ∀ r, c.ws i = .finished r → r = .ok ()) ∧
    ((∀ i, i < ws.length → ∃ r, c.ws i = .finished r) →
      (∀ i, i < o.size → ∃ w ∈ ws, w.1 ≤ i ∧ i < w.1 + w.2.flatten.length) →
      contents pages lay c.dev o = data) := by
  obtain ⟨es, hi⟩ := layInfo_of hp hlay
  have hok : ∀ q ∈ ws.map (fun w => (⟨w.1, w.2.flatten.length, w.2.map .ok⟩ : WriteReq)), ReqOk pages o.size data q := by
    intro q hq
    obtain ⟨w, hw, rfl⟩ := List.mem_map.1 hq
    have hpw := hpart w hw
    have hc := part_check hpw
    rw [hd] at hc
    refine ⟨hc, w.2, rfl, hpw.2.2.1, ?_, rfl⟩
    simp only
    rw [hpw.2.2.2, List.length_take, List.length_drop]
    rw [List.take_eq_take_iff, List.length_drop]; omega
  have hdist' : ∀ (i j : Nat) (q q' : WriteReq), (ws.map fun w => (⟨w.1, w.2.flatten.length, w.2.map .ok⟩ : WriteReq))[i]? = some q →
      (ws.map fun w => (⟨w.1, w.2.flatten.length, w.2.map .ok⟩ : WriteReq))[j]? = some q' → i ≠ j → q.offset ≠ q'.offset := by
    intro i j q q' hq hq' hij
    simp only [List.getElem?_map, Option.map_eq_some_iff] at hq hq'
    obtain ⟨w, hw, rfl⟩ := hq
    obtain ⟨w', hw', rfl⟩ := hq'
    obtain ⟨hi1, hw⟩ := List.getElem?_eq_some_iff.1 hw
    obtain ⟨hj1, hw'⟩ := List.getElem?_eq_some_iff.1 hw'
    rcases Nat.lt_or_gt_of_ne hij with hlt | hlt
    · have := List.pairwise_iff_getElem.1 hdist i j hi1 hj1 hlt
      rw [hw, hw'] at this; exact this
    · have := List.pairwise_iff_getElem.1 hdist j i hj1 hi1 hlt
      rw [hw, hw'] at this; exact this.symm
  have inv := creach_inv hp hi hap hb hok hdist' hr
  have hat : ∀ i (h : i < ws.length), (ws.map fun w => (⟨w.1, w.2.flatten.length, w.2.map .ok⟩ : WriteReq))[i]? =
      some ⟨ws[i].1, ws[i].2.flatten.length, ws[i].2.map .ok⟩ := by
    intro i h; simp [h]
  have hfin : ∀ i (h : i < ws.length) r, c.ws i = .finished r → r = .ok () ∧
      ((contents pages lay c.dev o).drop ws[i].1).take ws[i].2.flatten.length = ws[i].2.flatten := by
    intro i h r hr'
    have hq := hat i h
    have hqm := List.mem_of_getElem? hq
    have := inv i _ hq
    rw [hr'] at this
    obtain ⟨t, d, hst, hw, hdv⟩ := this
    obtain ⟨n, hret⟩ := solo_ret (block := block) hp hi (hok _ hqm) dev0
    have he := (hst.done hret).1 r d hw
    injection he with he1 he2
    refine ⟨he1, ?_⟩
    have hck := (hok _ hqm).check
    simp only at hck hdv he2
    rw [part_contents hp hi hck, allBytes_congr (m' := d) (fun p hp x hx => hdv x ⟨p, hp, hx⟩),
      ← part_contents hp hi hck, he2]
    have hfl : ws[i].2.flatten = (data.drop ws[i].1).take ws[i].2.flatten.length := by
      have := (hpart ws[i] (List.getElem_mem h)).2.2.2
      have h2 : (data.drop ws[i].1).take ws[i].2.flatten.length = (data.drop ws[i].1).take (2 ^ pages.lpage) := by
        rw [this, List.length_take, List.length_drop, List.take_eq_take_iff, List.length_drop]; omega
      rw [h2, ← this]
    rw [← hfl, contents_write hp hi hap hb _ _ hck]
    have hle : ws[i].1 ≤ (contents pages lay dev0 o).length := by
      rw [contents_length hi]
      have := (writeCheck_none.1 hck).2
      omega
    rw [List.append_assoc, List.drop_left' (by rw [List.length_take]; omega), List.take_left' rfl]
  constructor
  · intro i h
    refine ⟨fun hp' => ?_, fun r hr' => (hfin i h r hr').1⟩
    have := inv i _ (hat i h)
    rw [hp'] at this
    exact this
  · intro hall hcover
    apply List.ext_getElem?
    intro x
    by_cases hlt : x < o.size
    · obtain ⟨w, hw, h1, h2⟩ := hcover x hlt
      obtain ⟨i, hil, rfl⟩ := List.getElem_of_mem hw
      obtain ⟨r, hr'⟩ := hall i hil
      have hs := (hfin i hil r hr').2
      have hpw := hpart _ hw
      have e1 : ((contents pages lay c.dev o).drop ws[i].1)[x - ws[i].1]? = (contents pages lay c.dev o)[x]? := by
        rw [List.getElem?_drop]; congr 1; omega
      rw [← e1, ← List.getElem?_take_of_lt (i := x - ws[i].1) (j := ws[i].2.flatten.length) (by omega), hs, hpw.2.2.2]
      have hlen : ws[i].2.flatten.length ≤ 2 ^ pages.lpage := by
        rw [hpw.2.2.2, List.length_take]; omega
      rw [List.getElem?_take_of_lt (by omega), List.getElem?_drop]
      congr 1; omega
    · rw [List.getElem?_eq_none (by rw [contents_length hi]; omega), List.getElem?_eq_none (by omega)]

/-- **C21.** A write (either store: any `block`, any layout function) is refused before anything is
written, with the documented error, unless the offset is a multiple of the large page size and the
length reaches exactly the next part boundary or the end of the object; and then it is never refused
for its range. -/
theorem C21_accepted_exactly_at_part_boundaries (layout : Pages → Nat → Option ObjectLayout)
    (block : List Byte → List Byte) (pages : Pages) (o : Obj) (dev : Mem) (offset len : Nat)
    (stream : List (Except Unit (List Byte))) (fuel : Nat) :
    (¬ 2 ^ pages.lpage ∣ offset →
      opWrite layout block pages o dev offset len stream fuel = .ret (.error .unalignedWrite, dev)) ∧
    (2 ^ pages.lpage ∣ offset → len ≤ 2 ^ pages.lpage → o.size < offset + len →
      opWrite layout block pages o dev offset len stream fuel = .ret (.error .rangeOutOfBounds, dev)) ∧
    (2 ^ pages.lpage ∣ offset → (2 ^ pages.lpage < len ∨
        offset + len ≤ o.size ∧ offset + len ≠ offset + 2 ^ pages.lpage ∧ offset + len ≠ o.size) →
      opWrite layout block pages o dev offset len stream fuel = .ret (.error .inexactWriteLength, dev)) ∧
    (2 ^ pages.lpage ∣ offset → offset + len = min (offset + 2 ^ pages.lpage) o.size →
      ∀ e dev', opWrite layout block pages o dev offset len stream fuel = .ret (.error e, dev') →
        e = .dataStreamError ∨ e = .dataStreamLengthMismatch) := by
  have hm : isMultipleOfPow2 offset pages.lpage = true ↔ 2 ^ pages.lpage ∣ offset := by
    have h2 := modPow2_eq offset pages.lpage
    simp only [isMultipleOfPow2, beq_iff_eq]
    unfold modPow2 at h2
    rw [h2]
    exact (Nat.dvd_iff_mod_eq_zero).symm
  have step_err : ∀ (targets : List (Nat × Nat)) (s : WState) r d, wstep block len targets s = .done r d →
      ∀ e, r = .error e → e = .dataStreamError ∨ e = .dataStreamLengthMismatch := by
    intro targets s r d h e he
    have hpr : ∀ s : WState, wproceed block len targets s = .done r d → e = .dataStreamError ∨ e = .dataStreamLengthMismatch := by
      intro s h
      unfold wproceed at h
      split at h
      · injection h with h1 h2
        rw [he] at h1
        injection h1 with h1
        exact Or.inr h1.symm
      · split at h
        · simp at h
        · split at h <;> simp at h
    unfold wstep at h
    split at h
    · injection h with h1 h2
      rw [he] at h1
      injection h1 with h1
      exact Or.inl h1.symm
    · exact hpr _ h
    · split at h
      · injection h with h1 h2
        rw [he] at h1
        split at h1
        · injection h1 with h1
          exact Or.inr h1.symm
        · simp at h1
      · exact hpr _ h
  refine ⟨fun h => ?_, fun h h1 h2 => ?_, fun h h1 => ?_, fun h h1 e dev' hr => ?_⟩
  · have : writeCheck pages o.size offset len = some .unalignedWrite := by
      unfold writeCheck; rw [if_pos (by rw [hm]; exact h)]
    simp only [opWrite, this]
  · have : writeCheck pages o.size offset len = some .rangeOutOfBounds := by
      unfold writeCheck
      rw [if_neg (by rw [hm]; simpa using h), if_neg (by omega), if_pos (by omega)]
    simp only [opWrite, this]
  · have : writeCheck pages o.size offset len = some .inexactWriteLength := by
      unfold writeCheck
      rw [if_neg (by rw [hm]; simpa using h)]
      rcases h1 with h1 | h1
      · rw [if_pos (by omega)]
      · by_cases hgt : len > 2 ^ pages.lpage
        · rw [if_pos hgt]
        · rw [if_neg hgt, if_neg (by omega), if_pos (by omega)]
    simp only [opWrite, this]
  · have : writeCheck pages o.size offset len = none := writeCheck_none.2 ⟨h, h1⟩
    simp only [opWrite, this] at hr
    split at hr
    · simp at hr
    · rename_i lay _
      have : ∀ fuel (s : WState), wrun block len (writeTargets pages lay o offset) fuel s = .ret (.error e, dev') →
          e = .dataStreamError ∨ e = .dataStreamLengthMismatch := by
        intro fuel
        induction fuel with
        | zero => intro s h; simp [wrun] at h
        | succ fuel ih =>
          intro s h
          unfold wrun at h
          split at h
          · exact ih _ h
          · rename_i r d hst
            injection h with h
            injection h with h3 h4
            exact step_err _ s r d hst e h3
          · simp at h
      exact this _ _ hr

/-- accepted and refused part writes for `exObj`: whole large page; the 5000-byte tail; a short write;
an unaligned one -/
example : writeCheck ⟨9, 24⟩ exObj.size 0 (2 ^ 24) = none ∧ writeCheck ⟨9, 24⟩ exObj.size (2 ^ 24) 5000 = none ∧
    writeCheck ⟨9, 24⟩ exObj.size 0 512 = some .inexactWriteLength ∧
    writeCheck ⟨9, 24⟩ exObj.size 512 512 = some .unalignedWrite ∧
    writeCheck ⟨9, 24⟩ exObj.size (2 ^ 24) 5001 = some .rangeOutOfBounds := by decide

/-- Specification: the bodies `cs` (a list of non-empty chunks) sent for an accepted part write. -/
structure PartBody (pages : Pages) (o : Obj) (offset len : Nat) (cs : List (List Byte)) : Prop where
  aligned : 2 ^ pages.lpage ∣ offset
  exact : offset + len = min (offset + 2 ^ pages.lpage) o.size
  nonempty : ∀ c ∈ cs, c ≠ []

/-- **C22 (partial).** For every split of the body into non-empty chunks: if the body has exactly the
declared length the write terminates successfully and stores the same bytes however the body was
split; if the body is longer, or the stream fails, the write terminates with the matching error.
Missing: bodies shorter than declared (see `C22_violated_short_body_never_ends`) and empty chunks (see
`C22_violated_empty_chunk_panics`). -/
theorem C22_chunking_irrelevant_partial (pages : Pages) (hp : PagesOk pages) (o : Obj) (lay : ObjectLayout)
    (layout : Pages → Nat → Option ObjectLayout) (hl : layout pages o.size = some lay)
    (hlay : calcObjectLayout pages o.size = some lay)
    (block : List Byte → List Byte) (dev : Mem) (offset len : Nat) :
    (∀ cs cs', PartBody pages o offset len cs → PartBody pages o offset len cs' →
      cs.flatten = cs'.flatten → cs.flatten.length = len →
      ∃ dev', (∃ n, ∀ fuel, n ≤ fuel → opWrite layout block pages o dev offset len (cs.map .ok) fuel = .ret (.ok (), dev')) ∧
        ∃ n, ∀ fuel, n ≤ fuel → opWrite layout block pages o dev offset len (cs'.map .ok) fuel = .ret (.ok (), dev')) ∧
    (∀ cs, PartBody pages o offset len cs → len < cs.flatten.length →
      ∀ fuel, cs.length < fuel → ∃ dev', opWrite layout block pages o dev offset len (cs.map .ok) fuel =
        .ret (.error .dataStreamLengthMismatch, dev')) ∧
    (∀ cs rest, PartBody pages o offset len cs → cs.flatten.length ≤ len →
      ∀ fuel, cs.length < fuel → ∃ dev', opWrite layout block pages o dev offset len (cs.map .ok ++ .error () :: rest) fuel =
        .ret (.error .dataStreamError, dev')) := by
  obtain ⟨es, hi⟩ := layInfo_of hp hlay
  have one : ∀ cs, PartBody pages o offset len cs → cs.flatten.length = len →
      ∃ n, ∀ fuel, n ≤ fuel → opWrite layout block pages o dev offset len (cs.map .ok) fuel =
        .ret (.ok (), dev.writeAll (pieces block (writeTargets pages lay o offset) cs.flatten)) := by
    intro cs h hlen
    have hc := writeCheck_none.2 ⟨h.aligned, h.exact⟩
    obtain ⟨hfit, hsum, _⟩ := hi.targets hp offset len hc
    refine ⟨cs.length + (writeTargets pages lay o offset).length + 1, fun fuel hf => ?_⟩
    have := wrun_ok (block := block) (len := len) (targets := writeTargets pages lay o offset) fuel cs
      { stream := cs.map .ok, dev := dev } rfl (by simp only; omega) h.nonempty hfit.pos (by simp [hsum])
      (by simp only [List.length_nil]; omega)
    unfold opWrite
    rw [hc]
    simp only [hl]
    rw [this]
    simp
  refine ⟨fun cs cs' h h' heq hlen => ?_, fun cs h hlen fuel hf => ?_, fun cs rest h hlen fuel hf => ?_⟩
  · exact ⟨_, one cs h hlen, heq ▸ one cs' h' (heq ▸ hlen)⟩
  · have hc := writeCheck_none.2 ⟨h.aligned, h.exact⟩
    obtain ⟨hfit, hsum, _⟩ := hi.targets hp offset len hc
    obtain ⟨d, hd⟩ := wrun_over (block := block) (len := len) (targets := writeTargets pages lay o offset) fuel cs
      { stream := cs.map .ok, dev := dev } rfl hf h.nonempty (by simp [hsum]) (by simp)
      (by simp only [List.length_nil]; omega)
    refine ⟨d, ?_⟩
    unfold opWrite
    rw [hc]
    simp only [hl]
    rw [hd]
  · have hc := writeCheck_none.2 ⟨h.aligned, h.exact⟩
    obtain ⟨hfit, hsum, _⟩ := hi.targets hp offset len hc
    obtain ⟨d, hd⟩ := wrun_err (block := block) (len := len) (targets := writeTargets pages lay o offset) fuel cs rest
      { stream := cs.map .ok ++ .error () :: rest, dev := dev } rfl hf h.nonempty (by simp [hsum])
      (by simp only [List.length_nil]; omega)
    refine ⟨d, ?_⟩
    unfold opWrite
    rw [hc]
    simp only [hl]
    rw [hd]

/-- **C22 is violated by short bodies.** For every write of a whole large page, every non-empty body
shorter than declared (in whatever chunks) leaves the write looping forever: it neither succeeds nor
reports a length mismatch. (The loop re-examines an exhausted stream with a partly filled buffer.) -/
theorem C22_violated_short_body_never_ends (pages : Pages) (hp : PagesOk pages) (o : Obj) (lay : ObjectLayout)
    (layout : Pages → Nat → Option ObjectLayout) (hl : layout pages o.size = some lay)
    (hlay : calcObjectLayout pages o.size = some lay)
    (block : List Byte → List Byte) (dev : Mem) (offset : Nat) (hal : 2 ^ pages.lpage ∣ offset)
    (hin : offset + 2 ^ pages.lpage ≤ o.size) (cs : List (List Byte)) (hne : ∀ c ∈ cs, c ≠ [])
    (h0 : 0 < cs.flatten.length) (hlt : cs.flatten.length < 2 ^ pages.lpage) (fuel : Nat) :
    opWrite layout block pages o dev offset (2 ^ pages.lpage) (cs.map .ok) fuel = .running := by
  obtain ⟨es, hi⟩ := layInfo_of hp hlay
  have hpos := Nat.two_pow_pos pages.lpage
  have hc : writeCheck pages o.size offset (2 ^ pages.lpage) = none := writeCheck_none.2 ⟨hal, by omega⟩
  have hidx : divPow2 offset pages.lpage < lay.lpageCount := by
    rw [divPow2_eq, hi.count]
    obtain ⟨k, rfl⟩ := hal
    rw [Nat.mul_div_cancel_left _ hpos]
    refine Nat.lt_of_succ_le ((Nat.le_div_iff_mul_le hpos).2 ?_)
    rw [Nat.succ_mul, Nat.mul_comm k]; exact hin
  have htg : writeTargets pages lay o offset = [(2 ^ pages.lpage, o.lpageOff (divPow2 offset pages.lpage))] := by
    unfold writeTargets; simp only [hidx, if_true]
  unfold opWrite
  rw [hc]
  simp only [hl, htg]
  refine wrun_diverges fuel cs _ rfl hne (by simp [amtSum]) (by simpa using hlt) ?_
  rintro ⟨p, q, h1, h2⟩
  simp only [List.drop_zero] at h1
  cases p with
  | nil => simp only [amtSum, List.map_nil, List.sum_nil, List.length_nil, Nat.zero_add] at h2; omega
  | cons t p =>
    simp only [List.cons_append, List.cons.injEq] at h1
    obtain ⟨rfl, h1⟩ := h1
    have : p = [] := by
      cases p with
      | nil => rfl
      | cons _ _ => simp at h1
    subst this
    simp only [amtSum, List.map_cons, List.map_nil, List.sum_cons, List.sum_nil, List.length_nil, Nat.zero_add] at h2
    omega

/-- **C22 is violated by empty chunks.** For every write of a whole large page, a body of exactly the
declared bytes followed by an empty chunk crashes the write (index out of bounds), although every
byte was received. -/
theorem C22_violated_empty_chunk_panics (pages : Pages) (hp : PagesOk pages) (o : Obj) (lay : ObjectLayout)
    (layout : Pages → Nat → Option ObjectLayout) (hl : layout pages o.size = some lay)
    (hlay : calcObjectLayout pages o.size = some lay)
    (block : List Byte → List Byte) (dev : Mem) (offset : Nat) (hal : 2 ^ pages.lpage ∣ offset)
    (hin : offset + 2 ^ pages.lpage ≤ o.size) (body : List Byte) (hlen : body.length = 2 ^ pages.lpage)
    (fuel : Nat) (hf : 2 ≤ fuel) :
    opWrite layout block pages o dev offset (2 ^ pages.lpage) [.ok body, .ok []] fuel = .panic := by
  obtain ⟨es, hi⟩ := layInfo_of hp hlay
  have hpos := Nat.two_pow_pos pages.lpage
  have hc : writeCheck pages o.size offset (2 ^ pages.lpage) = none := writeCheck_none.2 ⟨hal, by omega⟩
  have hidx : divPow2 offset pages.lpage < lay.lpageCount := by
    rw [divPow2_eq, hi.count]
    obtain ⟨k, rfl⟩ := hal
    rw [Nat.mul_div_cancel_left _ hpos]
    refine Nat.lt_of_succ_le ((Nat.le_div_iff_mul_le hpos).2 ?_)
    rw [Nat.succ_mul, Nat.mul_comm k]; exact hin
  have htg : writeTargets pages lay o offset = [(2 ^ pages.lpage, o.lpageOff (divPow2 offset pages.lpage))] := by
    unfold writeTargets; simp only [hidx, if_true]
  obtain ⟨f, rfl⟩ : ∃ f, fuel = f + 2 := ⟨fuel - 2, by omega⟩
  unfold opWrite
  rw [hc]
  simp only [hl, htg]
  simp [wrun, wstep, wproceed, hlen]

/-- **C23.** However far a write gets (any number `n` of loop iterations, so also if it fails, is
interrupted or never ends), every byte outside the pages of the addressed part keeps its value. Both
stores: `block` is lite's or direct's page image. -/
theorem C23_writes_stay_in_part (pages : Pages) (hp : PagesOk pages) (o : Obj) (lay : ObjectLayout)
    (hlay : calcObjectLayout pages o.size = some lay) (block : List Byte → List Byte)
    (hb : BlockOk pages.spage block) (offset len : Nat) (hal : 2 ^ pages.lpage ∣ offset)
    (hex : offset + len = min (offset + 2 ^ pages.lpage) o.size)
    (stream : List (Except Unit (List Byte))) (dev : Mem) (n : Nat) (x : Nat)
    (hx : ¬ ∃ p ∈ partPages pages lay o offset, InPage p x) :
    devAfter block len (writeTargets pages lay o offset) n { stream := stream, dev := dev } x = dev x := by
  obtain ⟨es, hi⟩ := layInfo_of hp hlay
  obtain ⟨hfit, _, _, _, _, _, _, _, hsp⟩ := hi.targets hp offset len (writeCheck_none.2 ⟨hal, hex⟩)
  refine devAfter_frame n _ x (fun t ht d hd => ?_)
  obtain ⟨e, he, hle⟩ := hfit.page t ht
  have h1 := hb.len d e (hsp _ he) (by omega)
  refine Decidable.byContradiction (fun hc => hx ⟨_, he, ?_⟩)
  unfold InPage
  simp only
  omega

/-- … and in particular the final device of a terminating write. -/
theorem C23_final_device (layout : Pages → Nat → Option ObjectLayout) (pages : Pages) (hp : PagesOk pages) (o : Obj)
    (lay : ObjectLayout) (hl : layout pages o.size = some lay) (hlay : calcObjectLayout pages o.size = some lay)
    (block : List Byte → List Byte) (hb : BlockOk pages.spage block) (offset len : Nat)
    (stream : List (Except Unit (List Byte))) (dev dev' : Mem) (fuel : Nat) (r : Except OpError Unit)
    (h : opWrite layout block pages o dev offset len stream fuel = .ret (r, dev')) (x : Nat)
    (hx : ¬ ∃ p ∈ partPages pages lay o offset, InPage p x) : dev' x = dev x := by
  unfold opWrite at h
  cases hc : writeCheck pages o.size offset len with
  | some e =>
    rw [hc] at h
    injection h with h
    injection h with _ h
    rw [h]
  | none =>
    rw [hc] at h
    simp only [hl] at h
    obtain ⟨h1, h2⟩ := writeCheck_none.1 hc
    rw [← wrun_devAfter h]
    exact C23_writes_stay_in_part pages hp o lay hlay block hb offset len h1 h2 stream dev _ x hx

/-- both stores' page images satisfy what C20 and C23 require of `block` -/
theorem C23_blocks_ok (pages : Pages) (junk : Nat → Byte) :
    BlockOk pages.spage blockLite ∧ BlockOk pages.spage (blockDirect pages junk) :=
  ⟨blockLite_ok _, blockDirect_ok _ _⟩

/-! ### C31 -/

/-- **C31.** A read of `len` bytes at any `offset` returns exactly those bytes; the device range it
reads starts and ends at multiples of the small page size; and if the bytes asked for lie inside a page
(`pageOff`, size `2^e`, itself aligned to and at least as big as a small page) so does the range. -/
theorem C31_unaligned_read_exact (pages : Pages) (dev : Mem) (offset len : Nat) :
    unalignedRead pages dev offset len = dev.read offset len ∧
    2 ^ pages.spage ∣ (unalignedRange pages offset len).1 ∧ 2 ^ pages.spage ∣ (unalignedRange pages offset len).2 ∧
    ∀ pageOff e, pages.spage ≤ e → 2 ^ pages.spage ∣ pageOff → pageOff ≤ offset →
      offset + len ≤ pageOff + 2 ^ e →
      pageOff ≤ (unalignedRange pages offset len).1 ∧ (unalignedRange pages offset len).2 ≤ pageOff + 2 ^ e := by
  refine ⟨unalignedRead_eq pages dev offset len, ?_, ?_, ?_⟩
  · exact floorPow2_dvd _ _
  · unfold unalignedRange
    simp only
    rcases Nat.le_total (ceilPow2 (offset + len) pages.spage) (2 ^ pages.spage) with h | h
    · rw [Nat.max_eq_right h]; exact Nat.dvd_refl _
    · rw [Nat.max_eq_left h]; exact ceilPow2_dvd _ _
  · intro pageOff e he hd h1 h2
    have hpos := Nat.two_pow_pos pages.spage
    have hde : 2 ^ pages.spage ∣ 2 ^ e := Nat.pow_dvd_pow 2 he
    unfold unalignedRange
    simp only
    constructor
    · obtain ⟨k, rfl⟩ := hd
      rw [floorPow2_eq]
      have : k ≤ offset / 2 ^ pages.spage := (Nat.le_div_iff_mul_le hpos).2 (by rw [Nat.mul_comm]; exact h1)
      have := Nat.mul_le_mul_right (2 ^ pages.spage) this
      rw [Nat.mul_comm k] at this; exact this
    · have hle : 2 ^ pages.spage ≤ 2 ^ e := Nat.pow_le_pow_right (by decide) he
      have := ceilPow2_le_of_dvd (Nat.dvd_add hd hde) h2
      omega

example : unalignedRange ⟨9, 24⟩ 1000 100 = (512, 1536) := by decide

end Props
end Blobd
