/-!
# A byte-addressed device

The block device (or file) is a total function from offsets to bytes. `write` stores a list of bytes
at an offset; `read` returns `len` bytes. Models `IDevice::read_at` / `write_at`
(libblobd-lite/src/device/mod.rs) and `BackingStore::read_at` / `write_at`
(libblobd-direct/src/backing_store/mod.rs); bounds are not part of this type.
-/
namespace Blobd

abbrev Byte := UInt8
abbrev Mem := Nat → Byte

namespace Mem

def write (m : Mem) (off : Nat) (d : List Byte) : Mem :=
  fun x => if off ≤ x then (d[x - off]?).getD (m x) else m x

def read (m : Mem) (off len : Nat) : List Byte := (List.range len).map (fun i => m (off + i))

/-- Perform writes one after another, in list order. -/
def writeAll (m : Mem) (ws : List (Nat × List Byte)) : Mem :=
  ws.foldl (fun m w => m.write w.1 w.2) m

theorem write_in {m : Mem} {off : Nat} {d : List Byte} {x : Nat} (h1 : off ≤ x)
    (h2 : x < off + d.length) : m.write off d x = d[x - off]'(by omega) := by
  have : x - off < d.length := by omega
  simp [write, h1, this]

theorem write_out {m : Mem} {off : Nat} {d : List Byte} {x : Nat}
    (h : x < off ∨ off + d.length ≤ x) : m.write off d x = m x := by
  unfold write
  split
  · have : d.length ≤ x - off := by omega
    simp [this]
  · rfl

@[simp] theorem write_nil (m : Mem) (off : Nat) : m.write off [] = m := by
  funext x; exact write_out (by simp; omega)

@[simp] theorem length_read (m : Mem) (off len : Nat) : (m.read off len).length = len := by
  simp [read]

theorem getElem_read (m : Mem) (off len i : Nat) (h : i < len) :
    (m.read off len)[i]'(by simpa using h) = m (off + i) := by simp [read]

@[simp] theorem read_zero (m : Mem) (off : Nat) : m.read off 0 = [] := rfl

theorem read_add (m : Mem) (off a b : Nat) :
    m.read off (a + b) = m.read off a ++ m.read (off + a) b := by
  apply List.ext_getElem
  · simp
  · intro i h1 h2
    simp at h1
    rw [getElem_read _ _ _ _ h1, List.getElem_append]
    split
    · rename_i h; simp at h; rw [getElem_read _ _ _ _ h]
    · rename_i h
      simp at h
      simp only [length_read]
      rw [getElem_read _ _ _ _ (by omega)]
      congr 1; omega

theorem read_congr {m m' : Mem} {off len : Nat} (h : ∀ x, off ≤ x → x < off + len → m x = m' x) :
    m.read off len = m'.read off len := by
  unfold read
  apply List.map_congr_left
  intro i hi
  simp at hi
  exact h _ (by omega) (by omega)

theorem read_write_same (m : Mem) (off : Nat) (d : List Byte) :
    (m.write off d).read off d.length = d := by
  apply List.ext_getElem
  · simp
  · intro i h1 h2
    simp at h1
    rw [getElem_read _ _ _ _ h1, write_in (by omega) (by omega)]
    simp

theorem read_write_disj (m : Mem) (off off' len : Nat) (d : List Byte)
    (h : off' + len ≤ off ∨ off + d.length ≤ off') :
    (m.write off d).read off' len = m.read off' len := by
  apply read_congr
  intro x h1 h2
  exact write_out (by omega)

theorem read_drop (m : Mem) (off len k : Nat) :
    (m.read off len).drop k = m.read (off + k) (len - k) := by
  apply List.ext_getElem
  · simp
  · intro i h1 h2
    simp at h1
    rw [List.getElem_drop, getElem_read _ _ _ _ (by omega), getElem_read _ _ _ _ (by omega)]
    congr 1; omega

theorem read_take (m : Mem) (off len k : Nat) (h : k ≤ len) :
    (m.read off len).take k = m.read off k := by
  apply List.ext_getElem
  · simp; omega
  · intro i h1 h2
    simp at h1
    rw [List.getElem_take, getElem_read _ _ _ _ (by omega), getElem_read _ _ _ _ (by omega)]

theorem writeAll_append (m : Mem) (a b : List (Nat × List Byte)) :
    m.writeAll (a ++ b) = (m.writeAll a).writeAll b := by simp [writeAll]

theorem writeAll_cons (m : Mem) (w : Nat × List Byte) (ws : List (Nat × List Byte)) :
    m.writeAll (w :: ws) = (m.write w.1 w.2).writeAll ws := rfl

/-- bytes outside every write are untouched -/
theorem writeAll_out {m : Mem} {ws : List (Nat × List Byte)} {x : Nat}
    (h : ∀ w ∈ ws, x < w.1 ∨ w.1 + w.2.length ≤ x) : m.writeAll ws x = m x := by
  induction ws generalizing m with
  | nil => rfl
  | cons w ws ih =>
    rw [writeAll_cons, ih (fun w' hw => h w' (by simp [hw])), write_out (h w (by simp))]

/-- two writes share no byte -/
def Apart (a b : Nat × List Byte) : Prop := a.1 + a.2.length ≤ b.1 ∨ b.1 + b.2.length ≤ a.1

theorem Apart.symm {a b : Nat × List Byte} (h : Apart a b) : Apart b a := Or.symm h

theorem read_writeAll_disj {m : Mem} {ws : List (Nat × List Byte)} {off len : Nat}
    (h : ∀ w ∈ ws, off + len ≤ w.1 ∨ w.1 + w.2.length ≤ off) :
    (m.writeAll ws).read off len = m.read off len := by
  apply read_congr
  intro x h1 h2
  apply writeAll_out
  intro w hw
  have := h w hw
  omega

/-- after performing pairwise disjoint writes each of them can be read back -/
theorem read_writeAll_mem {ws : List (Nat × List Byte)} (h : ws.Pairwise Apart) (m : Mem)
    (w : Nat × List Byte) (hw : w ∈ ws) : (m.writeAll ws).read w.1 w.2.length = w.2 := by
  induction ws generalizing m with
  | nil => cases hw
  | cons a ws ih =>
    rw [List.pairwise_cons] at h
    rw [writeAll_cons]
    rcases List.mem_cons.1 hw with rfl | hw
    · rw [read_writeAll_disj, read_write_same]
      intro b hb
      exact h.1 b hb
    · exact ih h.2 _ hw

/-- reading inside a block that was written -/
theorem read_write_sub (m : Mem) (d : Nat) (l : List Byte) (o n : Nat) (h : o + n ≤ l.length) :
    (m.write d l).read (d + o) n = (l.drop o).take n := by
  apply List.ext_getElem
  · simp; omega
  · intro i h1 h2
    simp at h1
    rw [getElem_read _ _ _ _ h1, write_in (by omega) (by omega)]
    simp only [List.getElem_take, List.getElem_drop]
    congr 1; omega

theorem read_write_block (m z : Mem) (d t o n : Nat) (h : o + n ≤ t) :
    (m.write d (z.read 0 t)).read (d + o) n = z.read o n := by
  rw [read_write_sub _ _ _ _ _ (by simpa using h), read_drop, read_take _ _ _ _ (by omega), Nat.zero_add]

end Mem
end Blobd
