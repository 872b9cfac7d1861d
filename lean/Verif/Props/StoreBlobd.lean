import Verif.Props.StoreAdapters
import Verif.Props.ReadWrite
/-!
# C60 and C61 for the store interface over the direct and lite stores

An object is given by its size and the device offsets of its pages (`RW.Obj`); `contents` is what the pages hold
(Spec/ReadWrite.lean), `bytesOf` a range of it.
-/
set_option autoImplicit false
namespace Blobd
namespace Props
open RW Adapter List

/-- **C60 (direct).** Every range inside the object, empty ones included: the stream ends and is exactly those bytes, in
pieces no longer than the buffer. Every other range panics. -/
theorem C60_direct_read_exact (pages : Pages) (hp : PagesOk pages) (o : RW.Obj) (dev : Mem) (lay : ObjectLayout)
    (hlay : calcObjectLayoutDirect pages o.size = some lay) (bufSize : Nat) (hb : 0 < bufSize) (start : Nat) (stop : Option Nat)
    (fuel : Nat) (hf : o.size < fuel) :
    if start ≤ stop.getD o.size ∧ stop.getD o.size ≤ o.size then
      ∃ cs, directRead pages o dev bufSize start stop fuel = .ret cs ∧
        cs.flatten = bytesOf (contents pages lay dev o) start (stop.getD o.size) ∧ ∀ c ∈ cs, c ≠ [] ∧ c.length ≤ bufSize
    else directRead pages o dev bufSize start stop fuel = .panic := by
  split
  · rename_i h
    obtain ⟨cs, e, f, g⟩ := C18_direct_read_exact pages hp o dev lay hlay bufSize start _ hb stop rfl h.1 h.2 fuel (by omega)
    exact ⟨cs, by simp only [directRead, e], f, g⟩
  · rename_i h
    have : opReadDirect pages o dev bufSize start stop fuel = .ret (.error .rangeOutOfBounds) := by
      unfold opReadDirect
      rw [hlay]
      simp only
      rw [if_pos (by omega)]
    simp only [directRead, this]

/-- **C60 (lite, non-empty ranges).** -/
theorem C60_lite_read_exact_partial (pages : Pages) (hp : PagesOk pages) (o : RW.Obj) (dev : Mem) (lay : ObjectLayout)
    (hlay : calcObjectLayout pages o.size = some lay) (start : Nat) (stop : Option Nat) (fuel : Nat) (hf : o.size < fuel) :
    if start < stop.getD o.size ∧ stop.getD o.size ≤ o.size then
      ∃ cs, liteRead pages o dev start stop fuel = .ret cs ∧
        cs.flatten = bytesOf (contents pages lay dev o) start (stop.getD o.size)
    else liteRead pages o dev start stop fuel = .panic := by
  split
  · rename_i h
    obtain ⟨cs, e, f, g⟩ := C18_lite_read_exact pages hp o dev lay hlay start _ stop rfl h.1 h.2 fuel (by omega)
    exact ⟨cs, by simp only [liteRead, e], f⟩
  · rename_i h
    have : opReadLite pages o dev start stop fuel = .ret (.error .rangeOutOfBounds) := by
      unfold opReadLite
      simp only
      rw [if_pos (by omega)]
    simp only [liteRead, this]

/-- **C60 is violated (lite).** Reading an empty object as a whole, or any empty range, panics in the caller's task. -/
theorem C60_violated_lite_empty (pages : Pages) (o : RW.Obj) (dev : Mem) (fuel : Nat) :
    (o.size = 0 → liteRead pages o dev 0 none fuel = .panic) ∧ ∀ a, liteRead pages o dev a (some a) fuel = .panic := by
  refine ⟨fun h => ?_, fun a => ?_⟩
  · simp [liteRead, opReadLite, h]
  · simp [liteRead, opReadLite]

/-- the writes of an upload, one after another; between them anything outside the object's pages (`mine`) may change -/
def UploadDone (mine : Nat → Prop) (write : Mem → Nat → List Byte → Nat → Run Mem) : Mem → List (Nat × List Byte) → Mem → Prop
  | dev, [], dev' => ∀ x, mine x → dev' x = dev x
  | dev, w :: ws, dev' => ∃ pre mid, (∀ x, mine x → pre x = dev x) ∧
      (∃ n, ∀ fuel, n ≤ fuel → write pre w.1 w.2 fuel = .ret mid) ∧ UploadDone mine write mid ws dev'

theorem unwrapWrite_ret {r : Run (Except OpError Unit × Mem)} {m : Mem} (h : unwrapWrite r = .ret m) : r = .ret (.ok (), m) := by
  unfold unwrapWrite at h
  split at h <;> simp_all

theorem upload_writes {mine : Nat → Prop}
    {w : Mem → Nat → Nat → List (Except Unit (List Byte)) → Nat → Run (Except OpError Unit × Mem)} :
    ∀ (ws : List (Nat × List Byte)) (dev dev' : Mem),
      UploadDone mine (fun m off d fuel => unwrapWrite (w m off d.length [.ok d] fuel)) dev ws dev' →
      WritesDone mine w dev (ws.map (fun x => (x.1, [x.2]))) dev' := by
  intro ws
  induction ws with
  | nil => intro dev dev' h; exact h
  | cons x ws ih =>
    intro dev dev' ⟨pre, mid, h1, ⟨n, h2⟩, h3⟩
    refine ⟨pre, mid, h1, ⟨n, fun fuel hf => ?_⟩, ih mid dev' h3⟩
    have := unwrapWrite_ret (h2 fuel hf)
    simpa using this

theorem chunk_isPart (pages : Pages) (data : List Byte) (w : Nat × List Byte)
    (hw : w ∈ chunks data.length (blobdChunk pages) data) : IsPart pages data (w.1, [w.2]) ∧ w.2 ≠ [] := by
  have hL : blobdChunk pages = 2 ^ pages.lpage := by simp [blobdChunk, Nat.shiftLeft_eq]
  rw [hL] at hw
  obtain ⟨i, hi, rfl⟩ := mem_map.1 hw
  have hpos : 0 < 2 ^ pages.lpage := Nat.two_pow_pos _
  have hlt : i * 2 ^ pages.lpage < data.length := by
    have h1 : i < (data.length + 2 ^ pages.lpage - 1) / 2 ^ pages.lpage := by simpa using hi
    have h2 := (Nat.le_div_iff_mul_le hpos).1 (Nat.succ_le_of_lt h1)
    rw [Nat.succ_mul] at h2
    omega
  have hne : (data.drop (i * 2 ^ pages.lpage)).take (min (data.length - i * 2 ^ pages.lpage) (2 ^ pages.lpage)) ≠ [] := by
    rw [Ne, ← length_eq_zero_iff, length_take, length_drop]
    omega
  refine ⟨⟨⟨i, Nat.mul_comm _ _⟩, by simp only; omega, ?_, ?_⟩, hne⟩
  · simp only [mem_singleton]
    rintro c rfl
    exact hne
  · simp only [flatten_cons, flatten_nil, append_nil]
    rw [take_eq_take_iff, length_drop]
    omega

theorem store_chunk_cover (pages : Pages) (data : List Byte) (ws : List (Nat × List Byte))
    (hw : ws ~ chunks data.length (blobdChunk pages) data) (i : Nat) (hi : i < data.length) :
    ∃ w ∈ ws.map (fun x => (x.1, [x.2])), w.1 ≤ i ∧ i < w.1 + w.2.flatten.length := by
  have hL : blobdChunk pages = 2 ^ pages.lpage := by simp [blobdChunk, Nat.shiftLeft_eq]
  have hpos : 0 < 2 ^ pages.lpage := Nat.two_pow_pos _
  have hm := Nat.div_add_mod i (2 ^ pages.lpage)
  have hr := Nat.mod_lt i hpos
  have hc : i / 2 ^ pages.lpage * 2 ^ pages.lpage = 2 ^ pages.lpage * (i / 2 ^ pages.lpage) := Nat.mul_comm _ _
  refine ⟨_, mem_map.2 ⟨(i / 2 ^ pages.lpage * 2 ^ pages.lpage, (data.drop (i / 2 ^ pages.lpage * 2 ^ pages.lpage)).take
    (min (data.length - i / 2 ^ pages.lpage * 2 ^ pages.lpage) (2 ^ pages.lpage))), ?_, rfl⟩, ?_, ?_⟩
  · rw [hw.mem_iff, hL]
    refine mem_map.2 ⟨i / 2 ^ pages.lpage, ?_, rfl⟩
    rw [mem_range, Nat.lt_iff_add_one_le, Nat.le_div_iff_mul_le hpos, Nat.add_mul, Nat.one_mul]
    omega
  · simp only; omega
  · simp only [flatten_cons, flatten_nil, append_nil, length_take, length_drop]
    omega

/-- **C61 (direct, contents).** The pieces of `data` written in any order through the interface, with anything happening
outside the object's pages in between: the object holds exactly `data`, and every ranged read returns its bytes. -/
theorem C61_direct_upload_exact (pages : Pages) (hp : PagesOk pages) (junk : Nat → Byte) (o : RW.Obj) (lay : ObjectLayout)
    (hlay : calcObjectLayoutDirect pages o.size = some lay) (hap : (objPages pages lay o).Pairwise PagesApart)
    (data : List Byte) (hd : data.length = o.size) (ws : List (Nat × List Byte))
    (hw : ws ~ chunks data.length (blobdChunk pages) data) (dev dev' : Mem)
    (hdone : UploadDone (InPages (objPages pages lay o)) (directWrite pages junk o) dev ws dev') :
    contents pages lay dev' o = data ∧
    ∀ bufSize start stop fuel, 0 < bufSize → start ≤ stop → stop ≤ data.length → data.length < fuel →
      ∃ cs, directRead pages o dev' bufSize start (some stop) fuel = .ret cs ∧ cs.flatten = bytesOf data start stop := by
  have hc := C20_direct_write_then_read pages hp o lay hlay hap junk data hd _ dev dev'
    (fun w hwm => by
      obtain ⟨x, hx, rfl⟩ := mem_map.1 hwm
      exact (chunk_isPart pages data x (hw.mem_iff.1 hx)).1)
    (fun i hi => store_chunk_cover pages data ws hw i (by omega)) (upload_writes ws dev dev' hdone)
  refine ⟨hc.1, fun bufSize start stop fuel hb h1 h2 hf => ?_⟩
  have := C60_direct_read_exact pages hp o dev' lay hlay bufSize hb start (some stop) fuel (by omega)
  rw [if_pos ⟨h1, by simpa [hd] using h2⟩, hc.1] at this
  obtain ⟨cs, e, f, _⟩ := this
  exact ⟨cs, e, f⟩

/-- **C61 (lite, contents).** -/
theorem C61_lite_upload_exact (pages : Pages) (hp : PagesOk pages) (o : RW.Obj) (lay : ObjectLayout)
    (hlay : calcObjectLayout pages o.size = some lay) (hap : (objPages pages lay o).Pairwise PagesApart)
    (data : List Byte) (hd : data.length = o.size) (ws : List (Nat × List Byte))
    (hw : ws ~ chunks data.length (blobdChunk pages) data) (dev dev' : Mem)
    (hdone : UploadDone (InPages (objPages pages lay o)) (liteWrite pages o) dev ws dev') :
    contents pages lay dev' o = data ∧
    ∀ start stop fuel, start < stop → stop ≤ data.length → data.length < fuel →
      ∃ cs, liteRead pages o dev' start (some stop) fuel = .ret cs ∧ cs.flatten = bytesOf data start stop := by
  have hc := C20_lite_write_then_read pages hp o lay hlay hap data hd _ dev dev'
    (fun w hwm => by
      obtain ⟨x, hx, rfl⟩ := mem_map.1 hwm
      exact (chunk_isPart pages data x (hw.mem_iff.1 hx)).1)
    (fun i hi => store_chunk_cover pages data ws hw i (by omega)) (upload_writes ws dev dev' hdone)
  refine ⟨hc.1, fun start stop fuel h1 h2 hf => ?_⟩
  have := C60_lite_read_exact_partial pages hp o dev' lay hlay start (some stop) fuel (by omega)
  rw [if_pos ⟨h1, by simpa [hd] using h2⟩, hc.1] at this
  obtain ⟨cs, e, f⟩ := this
  exact ⟨cs, e, f⟩

/-- The premise of the two theorems above can always be met: no write of an upload panics or hangs, in any order. -/
theorem C61_blobd_upload_succeeds (layout : Pages → Nat → Option ObjectLayout) (block : List Byte → List Byte) (pages : Pages)
    (hp : PagesOk pages) (o : RW.Obj) (lay : ObjectLayout) (hl : layout pages o.size = some lay)
    (hlay : calcObjectLayout pages o.size = some lay) (data : List Byte) (hd : data.length = o.size) (mine : Nat → Prop) :
    ∀ (ws : List (Nat × List Byte)), (∀ w ∈ ws, w ∈ chunks data.length (blobdChunk pages) data) → ∀ dev,
      ∃ dev', UploadDone mine (fun m off d fuel => unwrapWrite (opWrite layout block pages o m off d.length [.ok d] fuel)) dev ws dev' := by
  obtain ⟨es, hi⟩ := layInfo_of hp hlay
  intro ws
  induction ws with
  | nil => exact fun _ dev => ⟨dev, fun _ _ => rfl⟩
  | cons w ws ih =>
    intro hw dev
    obtain ⟨n, hn⟩ := part_write (layout := layout) (block := block) hp hl hi hd (chunk_isPart pages data w (hw w (by simp))).1 dev
    obtain ⟨dev', h'⟩ := ih (fun x hx => hw x (by simp [hx])) (dev.writeAll (pieces block (writeTargets pages lay o w.1) w.2))
    refine ⟨dev', dev, _, fun _ _ => rfl, ⟨n, fun fuel hf => ?_⟩, h'⟩
    have := hn fuel hf
    simp only [flatten_cons, flatten_nil, append_nil, map_cons, map_nil] at this
    simp only [this, unwrapWrite]

/-! ### KV -/

/-- run the writes in the given order -/
def kvWrites (key : List Byte) : Files → List (Nat × List Byte) → Option Files
  | db, [] => some db
  | db, w :: ws => (kvWrite db key w.1 w.2).bind (fun db => kvWrites key db ws)

theorem kv_one_piece (data : List Byte) (hd : data ≠ []) (h64 : data.length < 2 ^ 64) :
    chunks data.length kvChunk data = [(0, data)] := by
  have hpos : 0 < data.length := length_pos_iff.2 hd
  have h1 : (data.length + kvChunk - 1) / kvChunk = 1 := Nat.div_eq_of_lt_le (by unfold kvChunk; omega) (by unfold kvChunk; omega)
  have h2 : min data.length kvChunk = data.length := by unfold kvChunk; omega
  simp [chunks, h1, range_succ, h2]

/-- **C61 (KV, contents).** A non-empty object of at most 16 MiB is uploaded by exactly one write and is then stored exactly;
no other key is touched. -/
theorem C61_kv_upload_exact_partial (db : Files) (key data : List Byte) (hd : data ≠ []) (hs : data.length ≤ 2 ^ 24) :
    ∃ db', kvWrites key (kvCreate db key) (chunks data.length kvChunk data) = some db' ∧
      kvCommit db' key key = some data ∧ ∀ k, k ≠ key → kvCommit db' key k = db k := by
  rw [kv_one_piece data hd (by omega)]
  refine ⟨fun k => if k = key then some data else db k, ?_, by simp [kvCommit], fun k hk => by simp [kvCommit, hk]⟩
  have : data.length ≤ Kv.objectSizeMax := hs
  simp [kvWrites, kvWrite, kvCreate, this]

/-- **C61 is violated (KV).** The new object is visible as soon as it is written, before the commit; -/
theorem C61_violated_kv_visible_before_commit (db : Files) (key data : List Byte) (hd : data ≠ []) (hs : data.length ≤ 2 ^ 24) :
    ∃ db', kvWrites key (kvCreate db key) (chunks data.length kvChunk data) = some db' ∧ db' key = some data := by
  obtain ⟨db', h1, h2, _⟩ := C61_kv_upload_exact_partial db key data hd hs
  exact ⟨db', h1, h2⟩

/-- … an empty object never appears: nothing is written and whatever was there before stays (also for RocksDB, whose
upload is the same); … -/
theorem C61_violated_kv_empty (db : Files) (key : List Byte) :
    ∃ db', kvWrites key (kvCreate db key) (chunks 0 kvChunk []) = some db' ∧ kvCommit db' key key = db key :=
  ⟨db, by simp [chunks, kvWrites, kvCreate, kvChunk], rfl⟩

/-- … and an object over 16 MiB, which every other backend takes, panics in the caller. -/
theorem C61_violated_kv_large (db : Files) (key data : List Byte) (hs : 2 ^ 24 < data.length) (h64 : data.length < 2 ^ 64) :
    kvWrites key (kvCreate db key) (chunks data.length kvChunk data) = none := by
  have hd : data ≠ [] := by rintro rfl; simp at hs
  have : ¬ data.length ≤ Kv.objectSizeMax := Nat.not_le.2 hs
  rw [kv_one_piece data hd h64]
  simp [kvWrites, kvWrite, this]

/-- pieces that are all at offset 0 are one piece -/
theorem chunks_at_zero (chunk : Nat) (hc : 0 < chunk) (data : List Byte) (hd : data ≠ [])
    (h : ∀ w ∈ chunks data.length chunk data, w.1 = 0) : chunks data.length chunk data = [(0, data)] := by
  have hpos : 0 < data.length := length_pos_iff.2 hd
  have hle : data.length ≤ chunk := by
    refine Nat.le_of_not_lt (fun hlt => ?_)
    have hm : 1 < (data.length + chunk - 1) / chunk := by
      rw [Nat.lt_iff_add_one_le, Nat.le_div_iff_mul_le hc]
      omega
    have := h (1 * chunk, (data.drop (1 * chunk)).take (min (data.length - 1 * chunk) chunk))
      (by unfold chunks; exact mem_map.2 ⟨1, mem_range.2 hm, rfl⟩)
    simp only at this
    omega
  have h1 : (data.length + chunk - 1) / chunk = 1 := Nat.div_eq_of_lt_le (by omega) (by omega)
  simp [chunks, h1, range_succ, hle]

/-- **C61 (KV), pieces.** Whatever the size of the pieces a caller cuts the object into: if none of its writes panics, the whole object
is stored. No upload silently keeps only a piece. -/
theorem C61_kv_no_piece_lost (db db' : Files) (key : List Byte) (chunk : Nat) (hc : 0 < chunk) (data : List Byte) (hd : data ≠ [])
    (h : kvWrites key (kvCreate db key) (chunks data.length chunk data) = some db') : kvCommit db' key key = some data := by
  have hz : ∀ (ws : List (Nat × List Byte)) (d d' : Files), kvWrites key d ws = some d' → ∀ w ∈ ws, w.1 = 0 := by
    intro ws
    induction ws with
    | nil => intro d d' _ w hw; cases hw
    | cons x ws ih =>
      intro d d' h w hw
      simp only [kvWrites, Option.bind_eq_some_iff] at h
      obtain ⟨d1, h1, h2⟩ := h
      rcases mem_cons.1 hw with rfl | hw
      · unfold kvWrite at h1
        split at h1
        · rename_i hk; exact hk.1
        · cases h1
      · exact ih d1 d' h2 w hw
  rw [chunks_at_zero chunk hc data hd (hz _ _ _ h)] at h
  simp only [kvWrites, Option.bind_eq_some_iff] at h
  obtain ⟨d1, h1, h2⟩ := h
  unfold kvWrite at h1
  split at h1
  · cases h1; cases h2; simp [kvCommit]
  · cases h1

/-- run the writes in the given order -/
def rocksWrites (key : List Byte) : Files → List (Nat × List Byte) → Option Files
  | db, [] => some db
  | db, w :: ws => (rocksWrite db key w.1 w.2).bind (fun db => rocksWrites key db ws)

/-- **C61 (RocksDB), pieces.** The same. -/
theorem C61_rocksdb_no_piece_lost (db db' : Files) (key : List Byte) (chunk : Nat) (hc : 0 < chunk) (data : List Byte) (hd : data ≠ [])
    (h : rocksWrites key (rocksCreate db key) (chunks data.length chunk data) = some db') : rocksCommit db' key key = some data := by
  have hz : ∀ (ws : List (Nat × List Byte)) (d d' : Files), rocksWrites key d ws = some d' → ∀ w ∈ ws, w.1 = 0 := by
    intro ws
    induction ws with
    | nil => intro d d' _ w hw; cases hw
    | cons x ws ih =>
      intro d d' h w hw
      simp only [rocksWrites, Option.bind_eq_some_iff] at h
      obtain ⟨d1, h1, h2⟩ := h
      rcases mem_cons.1 hw with rfl | hw
      · unfold rocksWrite at h1
        split at h1
        · assumption
        · cases h1
      · exact ih d1 d' h2 w hw
  rw [chunks_at_zero chunk hc data hd (hz _ _ _ h)] at h
  simp only [rocksWrites, Option.bind_eq_some_iff] at h
  obtain ⟨d1, h1, h2⟩ := h
  unfold rocksWrite at h1
  split at h1
  · cases h1; cases h2; simp [rocksCommit]
  · cases h1

/-- pieces of 4 bytes: one is stored, two panic -/
example : (∃ db', kvWrites [7] (kvCreate (fun _ => none) [7]) (chunks 3 4 [1, 2, 3]) = some db' ∧ kvCommit db' [7] [7] = some [1, 2, 3]) ∧
    kvWrites [7] (kvCreate (fun _ => none) [7]) (chunks 5 4 [1, 2, 3, 4, 5]) = none ∧
    rocksWrites [7] (rocksCreate (fun _ => none) [7]) (chunks 5 4 [1, 2, 3, 4, 5]) = none := by
  refine ⟨⟨_, rfl, by decide⟩, rfl, rfl⟩

/-- an 11-byte object in pages of 8 and 4 bytes -/
def sbObj : RW.Obj := ⟨11, fun _ => 8, fun _ => 100⟩
/-- its layout -/
def sbLay : ObjectLayout := (calcObjectLayout ⟨2, 3⟩ 11).getD ⟨0, ⟨0, 0⟩⟩

/-- two pieces, the second first, through the direct store's interface; then bytes 6..10 -/
example : ∃ dev', UploadDone (InPages (objPages ⟨2, 3⟩ sbLay sbObj)) (directWrite ⟨2, 3⟩ (fun _ => 9) sbObj) (fun _ => 0)
      [(8, [9, 10, 11]), (0, [1, 2, 3, 4, 5, 6, 7, 8])] dev' ∧
    ∃ cs, directRead ⟨2, 3⟩ sbObj dev' 4 6 (some 10) 20 = .ret cs ∧ cs.flatten = [7, 8, 9, 10] := by
  have hp : PagesOk ⟨2, 3⟩ := ⟨by decide, by decide, by decide⟩
  obtain ⟨dev', h⟩ := C61_blobd_upload_succeeds calcObjectLayoutDirect (blockDirect ⟨2, 3⟩ fun _ => 9) ⟨2, 3⟩ hp sbObj sbLay
    (by decide) (by decide) [1, 2, 3, 4, 5, 6, 7, 8, 9, 10, 11] rfl (InPages (objPages ⟨2, 3⟩ sbLay sbObj))
    [(8, [9, 10, 11]), (0, [1, 2, 3, 4, 5, 6, 7, 8])] (by decide) (fun _ => 0)
  refine ⟨dev', h, ?_⟩
  have := (C61_direct_upload_exact ⟨2, 3⟩ hp (fun _ => 9) sbObj sbLay (by decide) (by unfold PagesApart; decide)
    [1, 2, 3, 4, 5, 6, 7, 8, 9, 10, 11] rfl _ (by decide) _ dev' h).2 4 6 10 20 (by decide) (by decide) (by decide) (by decide)
  exact this

end Props
end Blobd
