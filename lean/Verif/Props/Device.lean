import Verif.Proofs.DeviceAreas
/-!
# C74: device accesses transfer exactly the addressed bytes or fail

Terms from `Spec/Device.lean`: `Untouched oth a` (no other user of the device changes byte `a` meanwhile), `over b s d`
(the bytes `b` with `d` put at `s`), `Does` and `DiskRun` (calls on a disk of its own), `History` (calls through several
windows of one device).
-/
set_option autoImplicit false
namespace Blobd.Props
open Blobd.Dev

/-- **Reads.** Whatever the system does, a read that is answered returns as many bytes as asked for, and each is the byte of the
device at that place: no short result, no left-over buffer contents. (Bytes that somebody else changes during the read are
not promised.) -/
theorem C74_read_exact {K : Kernel} (hK : K.Sound) {oth : File → File → Prop} {k : Kind} {f g : File} {off len : Nat}
    {d : List Byte} (h : Read K oth k f off len (.ok d) g) : d.length = len ∧
      ∀ i < len, Untouched oth (off + i) → d[i]? = some (f.bytes (off + i)) := read_ok hK h

/-- **Reads change nothing**, answered or not. -/
theorem C74_read_changes_nothing {K : Kernel} {oth : File → File → Prop} {k : Kind} {f g : File} {off len : Nat}
    {r : Res (List Byte)} (h : Read K oth k f off len r g) {a : Nat} (hu : Untouched oth a) : g.bytes a = f.bytes a :=
  read_same h hu

/-- **Writes.** A write that is answered has replaced exactly its range; one that fails has replaced no byte outside its range, and
in the range each byte is the old or the new one. -/
theorem C74_write_exact {K : Kernel} (hK : K.Sound) {oth : File → File → Prop} {k : Kind} {f g : File} {off : Nat}
    {data : List Byte} {r : Res Unit} (h : Write K oth k f off data r g) {a : Nat} (hu : Untouched oth a) :
    (r = .ok () → g.bytes a = over f.bytes off data a) ∧ (g.bytes a = f.bytes a ∨ g.bytes a = over f.bytes off data a) :=
  write_spec hK h hu

/-- **Windows are separate disks.** Calls through windows of a device that do not overlap, in any order: the calls through each window
are those of a disk of its own, of the window's size, with the window's first contents. `2 ^ 64`: see
`C74_violated_wrap`. -/
theorem C74_windows_apart {K : Kernel} (hK : K.Sound) {oth : File → File → Prop} {k : Kind} {ws : Nat → Win}
    (hw : ∀ i, (ws i).Made ∧ ws i ≠ .raw) {size : Nat}
    (hd : ∀ i j, i ≠ j → (ws i).start + (ws i).len size ≤ (ws j).start ∨ (ws j).start + (ws j).len size ≤ (ws i).start)
    (hu : ∀ i, ∀ a < (ws i).len size, Untouched oth ((ws i).start + a)) {f g : File} {l : List (Nat × Op × Ans)}
    (h : History K oth k ws f l g) (hs : ∀ c ∈ l, c.2.1.Small) (i : Nat) :
    DiskRun ((ws i).len size) (fun a => f.bytes ((ws i).start + a))
      ((l.filter fun c => c.1 == i).map fun c => c.2) (fun a => g.bytes ((ws i).start + a)) :=
  history_run hK hw hd hu h hs i

/-- **Accesses that fit are answered** by a healthy system: inside the device and (for the file and io_uring stores) no longer than
one system call transfers. -/
theorem C74_answered_partial {K : Kernel} (hK : K.Healthy) {oth : File → File → Prop} (hs : SameSize oth) {k : Kind}
    {f g : File} :
    (∀ {off len : Nat} {r : Res (List Byte)}, Read K oth k f off len r g → off + len ≤ f.size →
      (k = .dsync ∨ len ≤ lenMax) → ∃ d, r = .ok d) ∧
    (∀ {off : Nat} {data : List Byte} {r : Res Unit}, Write K oth k f off data r g → off + data.length ≤ f.size →
      (k = .dsync ∨ data.length ≤ lenMax) → r = .ok ()) :=
  ⟨fun h hb hl => read_answered hK hs h hb hl, fun h hb hl => write_answered hK hs h hb hl⟩

/-- What is missing in `C74_answered_partial`: a longer access through the file or io_uring store fails on every system. -/
theorem C74_violated_too_long {K : Kernel} (hK : K.Sound) {oth : File → File → Prop} {k : Kind} (hk : k ≠ .dsync) {f g : File} :
    (∀ {off len : Nat} {r : Res (List Byte)}, lenMax < len → Read K oth k f off len r g → r = .panic) ∧
    (∀ {off : Nat} {data : List Byte} {r : Res Unit}, lenMax < data.length → Write K oth k f off data r g → r = .panic) :=
  ⟨fun hl h => read_too_long hK hk hl h, fun hl h => write_too_long hK hk hl h⟩

/-- **Formatting a partition of the direct store** overwrites its tuple area with zeros and touches nothing else. -/
theorem C74_direct_format {K : Kernel} (hK : K.Sound) {oth : File → File → Prop} {k : Kind} {p : Part}
    (hp : p.offset + p.len < 2 ^ 64) {area : Nat} (ha : area < 2 ^ 64) {f g : File}
    (h : DirectFormat K oth k p area f (.ok ()) g) {a : Nat} (hu : Untouched oth a) :
    g.bytes a = if p.offset ≤ a ∧ a < p.offset + area then 0 else f.bytes a := by
  rcases h with ⟨_, h, _⟩ | ⟨b, hb, h⟩
  · cases h
  · have e : b = ⟨p, 0, area⟩ := by
      unfold Part.bounded at hb
      split at hb
      · injection hb with hb; exact hb.symm
      · cases hb
    subst e
    have := zeroes_pieces hK (w := .bounded ⟨p, 0, area⟩) ⟨hp, hb, by simpa using ha⟩ ha (by omega) hu 0 h
    exact this

/-- and succeeds on a healthy system, however large the area -/
theorem C74_direct_format_answered {K : Kernel} (hK : K.Healthy) {oth : File → File → Prop} (hs : SameSize oth) {k : Kind}
    {p : Part} (hp : p.offset + p.len < 2 ^ 64) {area : Nat} (ha : area ≤ p.len) {f g : File}
    (hf : p.offset + p.len ≤ f.size) {r : Res Unit} (h : DirectFormat K oth k p area f r g) : r = .ok () := by
  have e : p.bounded 0 area = some ⟨p, 0, area⟩ := by
    unfold Part.bounded
    rw [if_pos (by rw [wadd, Nat.mod_eq_of_lt (by omega)]; omega)]
  rcases h with ⟨h, _⟩ | ⟨b, hb, h⟩
  · rw [e] at h; cases h
  · rw [e] at hb; injection hb with hb; subst hb
    exact zeroes_answered hK hs (w := .bounded ⟨p, 0, area⟩) ⟨hp, e, by simp only; omega⟩ (by omega)
      (Or.inr (by decide)) (by simp [Win.len]) (by simp only [Win.start]; omega) 0 rfl h

/-- **Opening a partition of the direct store** reads its tuple area, if that is at most `lenMax` (2 GiB − 4 KiB) bytes long. -/
theorem C74_direct_load_partial {K : Kernel} (hK : K.Healthy) {oth : File → File → Prop} (hs : SameSize oth) {k : Kind}
    {p : Part} (hp : p.offset + p.len < 2 ^ 64) {area : Nat} (ha : area ≤ p.len) (hl : area ≤ lenMax) {f g : File}
    (hf : p.offset + p.len ≤ f.size) (hu : ∀ a < area, Untouched oth (p.offset + a)) {r : Res (List Byte)}
    (h : DirectLoad K oth k p area f r g) : r = .ok (f.slice p.offset area) := by
  obtain ⟨d, rfl⟩ := wread_answered hK hs (w := .part p) hp h (by omega) (by simp only [Win.len]; omega)
    (by simp only [Win.start]; omega) (Or.inr hl)
  obtain ⟨h1, h2⟩ := wread_ok (healthy_sound hK) (w := .part p) hp h (by omega)
  simp only [Win.start, Nat.add_zero] at h2
  rw [list_of_get (b := fun i => f.bytes (p.offset + i)) h1 fun i hi => h2 i hi (hu i hi)]
  rfl

/-- The documentation recommends a large tuple area (libblobd-direct/src/lib.rs:94). **Violated:** a partition whose tuple area exceeds
`lenMax` can never be opened (or exported), on any system: the area is read by one call. -/
theorem C74_violated_direct_big_area {K : Kernel} (hK : K.Sound) {oth : File → File → Prop} {k : Kind} (hk : k ≠ .dsync)
    {p : Part} {pages : Pages} {reserved : Nat} (h : lenMax < Direct.tupleArea reserved pages) {f g : File}
    {r : Res (List Byte)} (hl : DirectLoad K oth k p (Direct.tupleArea reserved pages) f r g) : r = .panic := by
  cases hl with
  | refused => rfl
  | goes _ hr => exact read_too_long hK hk h hr

/-- a healthy Linux -/
def linux : Kernel := fun f off len a => a = .n (min len (min lenMax (f.size - off)))

/-- nobody else uses the device -/
def alone : File → File → Prop := fun _ _ => False

theorem linux_healthy : linux.Healthy := fun _ _ _ _ h => h

theorem alone_same : SameSize alone := fun _ _ h => h.elim

theorem alone_untouched (a : Nat) : Untouched alone a := fun _ _ h => h.elim

theorem linux_write {k : Kind} (hk : k ≠ .dsync) {w : Win} {f : File} {off a : Nat} {data : List Byte}
    (ha : w.at? off data.length = some a) (hb : a + data.length ≤ f.size) (hl : data.length ≤ lenMax) :
    WWrite linux alone k w f off data (.ok ()) (f.put a data data.length) := by
  have hk2 : linux f a data.length (.n data.length) := by
    show Answer.n _ = Answer.n _
    rw [show min data.length (min lenMax (f.size - a)) = data.length from by omega]
  exact .goes ha (.one hk .none (.ok hk2 rfl) .none)

theorem linux_read {k : Kind} (hk : k ≠ .dsync) {w : Win} {f : File} {off len a : Nat}
    (ha : w.at? off len = some a) (hb : a + len ≤ f.size) (hl : len ≤ lenMax) :
    WRead linux alone k w f off len (.ok (f.slice a len)) f := by
  have hk2 : linux f a len (.n len) := by
    show Answer.n _ = Answer.n _
    rw [show min len (min lenMax (f.size - a)) = len from by omega]
  have := OneRead.ok (junk := List.replicate len 0) hk2 rfl
  rw [List.drop_eq_nil_of_le (by simp), List.append_nil] at this
  exact .goes ha (.one hk (by simp) .none this .none)

theorem linux_zeroes {k : Kind} (hk : k ≠ .dsync) {w : Win} (hw : w.Made) {len step size : Nat} (hlen : len < 2 ^ 64)
    (hl : step ≤ lenMax) (hin : len ≤ w.len size) (hb : w.start + len ≤ size) (off : Nat) : ∀ {f : File}, f.size = size →
    ∃ g, Zeroes linux alone k w f (pieces len step off) (.ok ()) g ∧ g.size = size := by
  induction off using pieces.induct len step with
  | case1 off hc ih =>
    intro f hf
    have h1 := linux_write hk (w := w) (f := f) (off := off) (data := List.replicate (min (len - off) step) 0)
      (at_in hw (size := size) (by simp only [List.length_replicate]; omega)
        (Or.inr (by simp only [List.length_replicate]; omega)))
      (by simp only [List.length_replicate]; omega) (by simp only [List.length_replicate]; omega)
    obtain ⟨g, hg, hs⟩ := ih (f := f.put (w.start + off) (List.replicate (min (len - off) step) 0)
      (List.replicate (min (len - off) step) (0 : Byte)).length) hf
    refine ⟨g, ?_, hs⟩
    rw [pieces, dif_pos hc]
    exact .more h1 hg
  | case2 off hc =>
    intro f hf
    exact ⟨f, by rw [pieces, dif_neg hc]; exact .done, hf⟩

/-- A witness: 2 GiB reserved on a device of 8 GiB. Formatting succeeds; opening panics, every time. -/
theorem C74_violated_direct_big_area_witness : ∃ f g : File, f.size = 2 ^ 33 ∧
    DirectFormat linux alone .uring ⟨0, 2 ^ 33⟩ (Direct.tupleArea (2 ^ 31) ⟨12, 24⟩) f (.ok ()) g ∧
    ∀ r g', DirectLoad linux alone .uring ⟨0, 2 ^ 33⟩ (Direct.tupleArea (2 ^ 31) ⟨12, 24⟩) g r g' → r = .panic := by
  have e : Direct.tupleArea (2 ^ 31) ⟨12, 24⟩ = 2 ^ 31 := by decide
  rw [e]
  have hb : Part.bounded ⟨0, 2 ^ 33⟩ 0 (2 ^ 31) = some ⟨⟨0, 2 ^ 33⟩, 0, 2 ^ 31⟩ := by decide
  obtain ⟨g, hg, _⟩ := linux_zeroes (k := .uring) (by decide) (w := .bounded ⟨⟨0, 2 ^ 33⟩, 0, 2 ^ 31⟩)
    (len := 2 ^ 31) (step := 1024 * 1024 * 1024) (size := 2 ^ 33) ⟨by decide, hb, by decide⟩ (by decide) (by decide)
    (by decide) (by decide) 0 (f := ⟨2 ^ 33, fun _ => 1⟩) rfl
  refine ⟨⟨2 ^ 33, fun _ => 1⟩, g, rfl, Or.inr ⟨_, hb, hg⟩, fun r g' h => ?_⟩
  exact C74_violated_direct_big_area (healthy_sound linux_healthy) (k := .uring) (by decide) (pages := ⟨12, 24⟩)
    (reserved := 2 ^ 31) (by rw [e]; decide) (by rw [e]; exact h)

/-- **Formatting and opening a KV store**: with small pages of at most 4 KiB the bundle area is zeroed, and read back whole, in pieces
one call can transfer. -/
theorem C74_kv_areas_partial {K : Kernel} (hK : K.Healthy) {oth : File → File → Prop} (hs : SameSize oth) {k : Kind}
    {spage area : Nat} (hsp : spage ≤ 12) (ha : area < 2 ^ 64) {f g : File} (hf : area ≤ f.size)
    (hu : ∀ a < area, Untouched oth a) :
    (∀ {r : Res Unit}, KvFormat K oth k spage area f r g → r = .ok () ∧
      ∀ a, Untouched oth a → g.bytes a = if a < area then 0 else f.bytes a) ∧
    (∀ {r : Res (List Byte)}, KvLoad K oth k spage area f r g → r = .ok (f.slice 0 area)) := by
  have hbuf := kvBuf_small hsp
  have hpos : 0 < lenMax := by decide
  constructor
  · intro r h
    unfold KvFormat at h
    rw [hbuf] at h
    have hr := zeroes_answered hK hs (w := .raw) trivial ha (Or.inr (Nat.le_refl _)) (size := f.size) hf
      (by simp only [Win.start]; omega) 0 rfl h
    subst hr
    refine ⟨rfl, fun a hua => ?_⟩
    have := zeroes_pieces (healthy_sound hK) (w := .raw) trivial ha hpos hua 0 h
    simpa [Win.start] using this
  · intro r h
    unfold KvLoad at h
    rw [hbuf] at h
    obtain ⟨d, rfl⟩ := loads_answered hK hs (w := .raw) trivial ha (Or.inr (Nat.le_refl _)) (size := f.size) hf
      (by simp only [Win.start]; omega) 0 rfl h
    obtain ⟨h1, h2⟩ := loads_pieces (healthy_sound hK) (w := .raw) trivial ha hpos
      (by intro a h; simpa [Win.start] using hu a h) 0 h
    simp only [Win.start, Nat.zero_add, Nat.sub_zero] at h1 h2
    rw [list_of_get (b := fun i => f.bytes i) h1 h2]
    simp [File.slice]

/-- **Violated:** with small pages of 8 KiB or more (up to 16 MiB are accepted, libblobd-kv/src/lib.rs:110-111) the pieces are rounded up
to 2 GiB, more than one call transfers: a bundle area of 2 GiB or more can be neither formatted nor loaded. -/
theorem C74_violated_kv_big_pages {K : Kernel} (hK : K.Sound) {oth : File → File → Prop} {k : Kind} (hk : k ≠ .dsync)
    {spage area : Nat} (h1 : 13 ≤ spage) (h2 : spage ≤ 24) (ha : 2 ^ 31 ≤ area) {f g : File} :
    (∀ {r : Res Unit}, KvFormat K oth k spage area f r g → r = .panic) ∧
    (∀ {r : Res (List Byte)}, KvLoad K oth k spage area f r g → r = .panic) := by
  have hbuf := kvBuf_big h1 h2
  have hmax : lenMax < min (area - 0) (2 ^ 31) := by rw [Nat.sub_zero, Nat.min_eq_right ha]; decide
  constructor
  · intro r h
    unfold KvFormat at h
    rw [hbuf, pieces, dif_pos ⟨by omega, by omega⟩] at h
    cases h with
    | more h1 _ =>
      cases h1 with
      | goes _ hw => cases write_too_long hK hk (by simp only [List.length_replicate]; exact hmax) hw
    | fails => rfl
  · intro r h
    unfold KvLoad at h
    rw [hbuf, pieces, dif_pos ⟨by omega, by omega⟩] at h
    cases h with
    | more h1 _ =>
      cases h1 with
      | goes _ hw => cases read_too_long hK hk hmax hw
    | later => rfl
    | fails => rfl

/-- **Violated without the 64-bit condition of `C74_windows_apart`:** the bounds checks add with wrap-around (release builds), so a range
starting near 2^64 passes and lands before the partition. No caller in the code does this. -/
theorem C74_violated_wrap : ∃ f g : File,
    WWrite linux alone .file (.part ⟨4096, 4096⟩) f (2 ^ 64 - 512) (List.replicate 512 1) (.ok ()) g ∧
    f.bytes 3584 = 0 ∧ g.bytes 3584 = 1 := by
  have hl : (List.replicate 512 (1 : Byte)).length = 512 := List.length_replicate
  have hw := linux_write (k := .file) (by decide) (w := .part ⟨4096, 4096⟩) (f := ⟨8192, fun _ => 0⟩) (off := 2 ^ 64 - 512)
    (a := 3584) (data := List.replicate 512 1) (by rw [hl]; decide) (by rw [hl]; decide) (by rw [hl]; decide)
  refine ⟨_, _, hw, rfl, ?_⟩
  rw [put_over]
  unfold over
  rw [hl, if_pos (by decide), List.getD_eq_getElem?_getD, List.getElem?_replicate]
  rfl

/-- two windows of one device, the second a part of a partition -/
def exWins : Nat → Win
  | 0 => .part ⟨0, 4096⟩
  | 1 => .bounded ⟨⟨4096, 8192⟩, 4096, 4096⟩
  | _ => .part ⟨12288, 0⟩

/-- `C74_windows_apart` applies: both windows are written at the same offset, and each read gives back its own window's byte. -/
theorem C74_windows_case : (∀ i, (exWins i).Made ∧ exWins i ≠ .raw) ∧
    (∀ i j, i ≠ j → (exWins i).start + (exWins i).len 0 ≤ (exWins j).start ∨
      (exWins j).start + (exWins j).len 0 ≤ (exWins i).start) ∧
    ∃ f g : File, History linux alone .file exWins f
      [(0, .write 512 [7], .done), (1, .write 512 [8], .done), (0, .read 512 1, .bytes [7]), (1, .read 512 1, .bytes [8])] g := by
  refine ⟨?_, ?_, ⟨12288, fun _ => 0⟩, _, .cons (.write (linux_write (a := 512) ?_ ?_ ?_ ?_))
    (.cons (.write (linux_write (a := 8704) ?_ ?_ ?_ ?_)) (.cons (.read (g := _) (linux_read (a := 512) ?_ ?_ ?_ ?_))
      (.cons (.read (linux_read (a := 8704) ?_ ?_ ?_ ?_)) .nil)))⟩
  · intro i
    match i with
    | 0 => exact ⟨by show _ < _; decide, by simp [exWins]⟩
    | 1 => exact ⟨⟨by decide, by decide, by decide⟩, by simp [exWins]⟩
    | n + 2 => exact ⟨by show _ < _; decide, by simp [exWins]⟩
  · intro i j hij
    match i, j with
    | 0, 0 => exact absurd rfl hij
    | 0, 1 => decide
    | 1, 0 => decide
    | 1, 1 => exact absurd rfl hij
    | 0, n + 2 => exact Or.inl (by show 0 + 4096 ≤ 12288; omega)
    | 1, n + 2 => exact Or.inl (by show 4096 + 4096 + 4096 ≤ 12288; omega)
    | n + 2, 0 => exact Or.inr (by show 0 + 4096 ≤ 12288; omega)
    | n + 2, 1 => exact Or.inr (by show 4096 + 4096 + 4096 ≤ 12288; omega)
    | n + 2, m + 2 => exact Or.inl (by show 12288 + 0 ≤ 12288; omega)
  all_goals decide

/-! ## The device of lite's tests -/

/-- **The in-memory device is a flat memory**: a read returns the contents and does not change them, a write replaces exactly its
range. -/
theorem C74_mock_flat {m : Mock} (h : m.Made) (start : Nat) :
    (∀ len, (m.read start len).1 = (List.range len).map (fun i => m.flat (start + i)) ∧
      ∀ a, (m.read start len).2.flat a = m.flat a) ∧
    (∀ data a, (m.write start data).flat a = over m.flat start data a) := by
  have hok := made_ok h
  refine ⟨fun len => ?_, fun data a => (writeFrom_spec _ _ _ _ hok (by omega)).2 a⟩
  obtain ⟨_, h2, h3⟩ := readFrom_spec (start + len) m start hok
  rw [Nat.add_sub_cancel_left] at h3
  exact ⟨h3, h2⟩

/-- **Devices that compare equal have the same contents.** -/
theorem C74_mock_eq {m m' : Mock} (h : m.Eq m') (a : Nat) : m.flat a = m'.flat a := by
  unfold Mock.flat
  rw [h (a / 4096)]

/-- **Violated the other way:** reading makes a page, so a device differs from one with the same contents that was not read. (The
comment at libblobd-lite/src/device/mock.rs:20 recommends comparing devices.) -/
theorem C74_violated_mock_eq : (∀ a, (Mock.new.read 0 1).2.flat a = Mock.new.flat a) ∧ ¬ (Mock.new.read 0 1).2.Eq Mock.new := by
  refine ⟨((C74_mock_flat .new 0).1 1).2, fun h => ?_⟩
  have h0 := h 0
  have : ((Mock.new.read 0 1).2.pages 0).isSome := by
    unfold Mock.read
    rw [Mock.readFrom, dif_pos (by omega)]
    simp only
    rw [Mock.readFrom, dif_neg (by omega)]
    simp [Mock.set]
  rw [h0] at this
  simp [Mock.new] at this

end Blobd.Props
