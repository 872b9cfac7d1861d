import Verif.Proofs.Layout
/-!
# Properties C01, C02: object layout and the tail-page descriptor
-/
namespace Blobd
namespace Props

/-- Specification: `m` is `v` rounded up to a multiple of `u`. -/
def IsRoundUp (m u v : Nat) : Prop := u ∣ m ∧ v ≤ m ∧ m < v + u

/-- **C01.** For every object size and every page configuration with `spage ≤ lpage < 32` and at
most 24 page sizes, `calc_object_layout` does not panic; the total capacity of the pages is the
object size rounded up to the small page size; tail pages have sizes between the small and large
page size and are strictly decreasing; and large pages carry all whole large pages of the object. -/
theorem C01_layout_exact (pages : Pages) (size : Nat) (hsl : pages.spage ≤ pages.lpage)
    (hl : pages.lpage < 32) (h24 : pages.lpage < pages.spage + 24) :
    ∃ lay, calcObjectLayout pages size = some lay ∧
      IsRoundUp (lay.lpageCount * 2 ^ pages.lpage + (lay.tailPageSizes.toList.map (2 ^ ·)).sum)
        (2 ^ pages.spage) size ∧
      (∀ e ∈ lay.tailPageSizes.toList, pages.spage ≤ e ∧ e ≤ pages.lpage) ∧
      lay.tailPageSizes.toList.Pairwise (· > ·) ∧
      lay.lpageCount = size / 2 ^ pages.lpage := by
  obtain ⟨t, e, r⟩ := calcObjectLayout_eq pages size hsl hl h24
  refine ⟨_, e, ?_⟩
  have h64 := tailRem_lt64 pages size hsl (by omega)
  have hle := tailRem_le pages hsl size
  simp only [r.toList, binExps_sum _ _ h64]
  have hd := Nat.div_add_mod size (2 ^ pages.lpage)
  have hc1 := le_ceilPow2 (size % 2 ^ pages.lpage) pages.spage
  have hc2 := ceilPow2_lt (size % 2 ^ pages.lpage) pages.spage
  rw [Nat.mul_comm] at hd
  refine ⟨⟨?_, ?_, ?_⟩, ?_, binExps_sorted _ _, trivial⟩
  · exact Nat.dvd_add (Nat.dvd_trans (Nat.pow_dvd_pow 2 hsl) (Nat.dvd_mul_left _ _))
      (ceilPow2_dvd _ _)
  · unfold tailRem; omega
  · unfold tailRem; omega
  · intro e he
    have := binExps_bounds 64 _ pages.spage (ceilPow2_dvd _ _) e he
    exact ⟨this.1, (Nat.pow_le_pow_iff_right (a := 2) (by decide)).1 (Nat.le_trans this.2 hle)⟩

/-- hypotheses met by the default configuration (512-byte small pages, 16 MiB large pages) -/
example : (⟨9, 24⟩ : Pages).spage ≤ (⟨9, 24⟩ : Pages).lpage ∧ (⟨9, 24⟩ : Pages).lpage < 32 ∧
    (⟨9, 24⟩ : Pages).lpage < (⟨9, 24⟩ : Pages).spage + 24 := by decide

/-- a concrete layout: 16 MiB + 5000 bytes takes one large page, then 4096 + 1024 -/
example : (calcObjectLayout ⟨9, 24⟩ (2 ^ 24 + 5000)).map
    (fun l => (l.lpageCount, l.tailPageSizes.toList)) = some (1, [12, 10]) := by decide

/-- Two objects laid out with the same configuration have the same layout only if they round up to
the same number of small pages (the layout determines the capacity). -/
theorem C01_layout_injective (pages : Pages) (a b : Nat) (hsl : pages.spage ≤ pages.lpage)
    (hl : pages.lpage < 32) (h24 : pages.lpage < pages.spage + 24)
    (h : calcObjectLayout pages a = calcObjectLayout pages b) :
    ∃ m, IsRoundUp m (2 ^ pages.spage) a ∧ IsRoundUp m (2 ^ pages.spage) b := by
  obtain ⟨la, ea, ra, _⟩ := C01_layout_exact pages a hsl hl h24
  obtain ⟨lb, eb, rb, _⟩ := C01_layout_exact pages b hsl hl h24
  rw [ea, eb] at h
  injection h with h
  subst h
  exact ⟨_, ra, rb⟩

example : calcObjectLayout ⟨9, 24⟩ 5000 = calcObjectLayout ⟨9, 24⟩ 5001 := by decide

/-- The layout comment (libblobd-lite/src/allocator/layout.rs:10) claims page sizes up to 2^32. With `lpage_size_pow2 = 32` the
claim C01 is FALSE: every object whose size modulo 2^32 exceeds `2^32 - spage` makes
`calc_object_layout` panic, since a tail page exponent of 32 does not fit in 5 bits. -/
theorem C01_lpage32_panics (s size : Nat) (hs : s ≤ 32)
    (h : 2 ^ 32 - 2 ^ s < size % 2 ^ 32) : calcObjectLayout ⟨s, 32⟩ size = none := by
  have hmod := Nat.mod_lt size (Nat.two_pow_pos 32)
  have hc := le_ceilPow2 (size % 2 ^ 32) s
  have hle : ceilPow2 (size % 2 ^ 32) s ≤ 2 ^ 32 :=
    ceilPow2_le_of_dvd (Nat.pow_dvd_pow 2 hs) (by omega)
  have hr : ceilPow2 (size % 2 ^ 32) s = 2 ^ 32 := by
    obtain ⟨k, hk⟩ := ceilPow2_dvd (size % 2 ^ 32) s
    have e32 : (2 : Nat) ^ 32 = 2 ^ s * 2 ^ (32 - s) := by rw [← Nat.pow_add]; congr 1; omega
    rw [hk] at hc hle ⊢
    have h1 : 2 ^ s * (2 ^ (32 - s) - 1) < 2 ^ s * k := by
      rw [Nat.mul_sub, ← e32]; omega
    have h2 := Nat.lt_of_mul_lt_mul_left h1
    have h3 : k ≤ 2 ^ (32 - s) := by
      rw [e32] at hle; exact Nat.le_of_mul_le_mul_left hle (Nat.two_pow_pos s)
    have h4 : k = 2 ^ (32 - s) := by omega
    rw [h4, ← e32]
  unfold calcObjectLayout
  simp only [divModPow2_eq, hr]
  rfl

example : (2 : Nat) ^ 32 - 2 ^ 9 < (2 ^ 32 - 1) % 2 ^ 32 := by decide

/-- Push a list of exponents onto an empty descriptor (what the layout code does). -/
def pushAll (xs : List Nat) : Option TailPageSizes :=
  xs.foldlM (fun t x => t.push x) TailPageSizes.new

theorem pushAll_rep (xs : List Nat) (hb : ∀ x ∈ xs, x < 32) (hl : xs.length ≤ 24) :
    ∃ t, pushAll xs = some t ∧ TailPageSizes.Rep t xs := by
  have key : ∀ (ys : List Nat) (t : TailPageSizes) (l : List Nat), TailPageSizes.Rep t l →
      (∀ x ∈ ys, x < 32) → l.length + ys.length ≤ 24 →
      ∃ t', ys.foldlM (fun t x => t.push x) t = some t' ∧ TailPageSizes.Rep t' (l ++ ys) := by
    intro ys
    induction ys with
    | nil => intro t l r _ _; exact ⟨t, rfl, by simpa using r⟩
    | cons y ys ih =>
      intro t l r hb hl
      simp at hl
      obtain ⟨t1, e1, r1⟩ := r.push y (hb y (by simp)) (by omega)
      obtain ⟨t', e', r'⟩ := ih t1 (l ++ [y]) r1 (fun x hx => hb x (by simp [hx])) (by simp; omega)
      exact ⟨t', by simp [e1, e'], by simpa using r'⟩
  simpa [pushAll] using key xs _ [] TailPageSizes.rep_new hb (by simpa using hl)

/-- **C02.** Pushing any sequence of at most 24 exponents below 32 succeeds, and then length,
indexed reads (in and out of bounds) and iteration are exactly those of the pushed list. -/
theorem C02_descriptor_is_list (xs : List Nat) (hb : ∀ x ∈ xs, x < 32) (hl : xs.length ≤ 24) :
    ∃ t, pushAll xs = some t ∧ t.len = xs.length ∧ (∀ i, t.get i = xs[i]?) ∧
      t.toList = xs ∧ t.toIter = xs.zipIdx.map (fun p => (p.2, p.1)) := by
  obtain ⟨t, e, r⟩ := pushAll_rep xs hb hl
  exact ⟨t, e, r.len, r.get, r.toList, r.toIter⟩

example : (∀ x ∈ [31, 8, 0, 17, 23, 9, 10, 11, 12, 13, 14, 15, 16, 30], x < 32) ∧
    [31, 8, 0, 17, 23, 9, 10, 11, 12, 13, 14, 15, 16, 30].length ≤ 24 := by decide

/-- **C02, limits.** The descriptor refuses (panics on) exactly what it cannot hold: a 25th entry or
an exponent of 32 or more; it never silently truncates. -/
theorem C02_descriptor_limits (xs : List Nat) (hb : ∀ x ∈ xs, x < 32) (hl : xs.length ≤ 24)
    (y : Nat) : pushAll (xs ++ [y]) = none ↔ (xs.length = 24 ∨ 32 ≤ y) := by
  obtain ⟨t, e, r⟩ := pushAll_rep xs hb hl
  have hfold : pushAll (xs ++ [y]) = t.push y := by
    simp only [pushAll, List.foldlM_append]
    show (pushAll xs >>= fun t => [y].foldlM (fun t x => t.push x) t) = t.push y
    rw [e]
    cases h : t.push y <;> simp [h]
  rw [hfold]
  constructor
  · intro h
    apply Classical.byContradiction
    intro hc
    obtain ⟨t', e', _⟩ := r.push y (by omega) (by omega)
    rw [e'] at h; cases h
  · rintro (h | h)
    · exact r.push_full y h
    · exact r.push_big y h

example : pushAll (List.replicate 24 31 ++ [5]) = none := by decide

end Props
end Blobd
