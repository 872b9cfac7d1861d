import Verif.Model.Layout
import Verif.Proofs.Util
/-! Helper lemmas: packed descriptor and layout. -/
namespace Blobd
namespace TailPageSizes

theorem tb31 (j : Nat) : Nat.testBit 31 j = decide (j < 5) := by
  rw [show (31 : Nat) = 2 ^ 5 - 1 from rfl, Nat.testBit_two_pow_sub_one]

theorem tb15 (j : Nat) : Nat.testBit 15 j = decide (j < 4) := by
  rw [show (15 : Nat) = 2 ^ 4 - 1 from rfl, Nat.testBit_two_pow_sub_one]

theorem bit31 (i : Nat) : (31#64).getLsbD i = decide (i < 5) := by
  have : (31#64) = BitVec.ofNat 64 (2 ^ 5 - 1) := rfl
  rw [this, BitVec.getLsbD_ofNat, Nat.testBit_two_pow_sub_one]
  by_cases h : i < 5 <;> simp [h]; omega

theorem bit15 (i : Nat) : (15#64).getLsbD i = decide (i < 4) := by
  have : (15#64) = BitVec.ofNat 64 (2 ^ 4 - 1) := rfl
  rw [this, BitVec.getLsbD_ofNat, Nat.testBit_two_pow_sub_one]
  by_cases h : i < 4 <;> simp [h]; omega

/-- five-bit field at entry `i` -/
def fld (s : BitVec 64) (i : Nat) : Nat := ((s &&& (31#64 <<< (i * 5))) >>> (i * 5)).toNat

theorem testBit_fld (s : BitVec 64) (i j : Nat) (hi : i < 12) :
    (fld s i).testBit j = (decide (j < 5) && s.getLsbD (i * 5 + j)) := by
  unfold fld
  rw [← BitVec.getLsbD, BitVec.getLsbD_ushiftRight, BitVec.getLsbD_and, BitVec.getLsbD_shiftLeft,
    bit31]
  by_cases hj : j < 5
  · have h1 : i * 5 + j < 64 := by omega
    simp [hj, h1]
  · simp [hj]

theorem testBit_len (s : BitVec 64) (j : Nat) :
    (shardGetLen s).testBit j = (decide (j < 4) && s.getLsbD (60 + j)) := by
  unfold shardGetLen
  rw [← BitVec.getLsbD, BitVec.getLsbD_ushiftRight, BitVec.getLsbD_and, BitVec.getLsbD_shiftLeft,
    bit15]
  by_cases hj : j < 4
  · have h1 : 60 + j < 64 := by omega
    simp [hj, h1]
  · simp [hj]

theorem testBit_ge_of_lt {v k j : Nat} (h : v < 2 ^ k) (hj : k ≤ j) : v.testBit j = false :=
  Nat.testBit_lt_two_pow (Nat.lt_of_lt_of_le h (Nat.pow_le_pow_right (by decide) hj))

theorem getLsbD_set (s : BitVec 64) (i v b : Nat) (hv : v < 32) (hi : i < 12) :
    ((s &&& ~~~(31#64 <<< (i * 5))) ||| (BitVec.ofNat 64 v <<< (i * 5))).getLsbD b =
      if i * 5 ≤ b ∧ b < i * 5 + 5 then v.testBit (b - i * 5) else s.getLsbD b := by
  simp only [BitVec.getLsbD_or, BitVec.getLsbD_and, BitVec.getLsbD_not, BitVec.getLsbD_shiftLeft,
    BitVec.getLsbD_ofNat, tb31]
  by_cases hb : b < 64
  · by_cases h1 : i * 5 ≤ b
    · by_cases h2 : b < i * 5 + 5
      · have e1 : b - i * 5 < 5 := by omega
        have e2 : b - i * 5 < 64 := by omega
        have e3 : ¬ b < i * 5 := by omega
        simp [hb, h1, h2, e1, e2, e3]
      · have e1 : ¬ b - i * 5 < 5 := by omega
        have e3 : v.testBit (b - i * 5) = false := testBit_ge_of_lt (k := 5) hv (by omega)
        simp [hb, h2, e1, e3]
    · have e3 : b < i * 5 := by omega
      have e4 : ¬ i * 5 ≤ b := by omega
      simp [hb, e3, e4]
  · have e : ¬ (i * 5 ≤ b ∧ b < i * 5 + 5) := by omega
    have e5 : s.getLsbD b = false := BitVec.getLsbD_of_ge s b (by omega)
    simp [hb, e, e5]

theorem getLsbD_setLen (s : BitVec 64) (v b : Nat) (hv : v < 16) :
    ((s &&& ~~~(15#64 <<< 60)) ||| (BitVec.ofNat 64 v <<< 60)).getLsbD b =
      if 60 ≤ b ∧ b < 64 then v.testBit (b - 60) else s.getLsbD b := by
  simp only [BitVec.getLsbD_or, BitVec.getLsbD_and, BitVec.getLsbD_not, BitVec.getLsbD_shiftLeft,
    BitVec.getLsbD_ofNat, tb15]
  by_cases hb : b < 64
  · by_cases h1 : 60 ≤ b
    · have e1 : b - 60 < 4 := by omega
      have e2 : b - 60 < 64 := by omega
      have e3 : ¬ b < 60 := by omega
      simp [hb, h1, e1, e2, e3]
    · have e3 : b < 60 := by omega
      have e4 : ¬ 60 ≤ b := by omega
      simp [hb, e3, e4]
  · have e : ¬ (60 ≤ b ∧ b < 64) := by omega
    have e5 : s.getLsbD b = false := BitVec.getLsbD_of_ge s b (by omega)
    simp [hb, e5]

theorem shardGet_eq (s : BitVec 64) (i : Nat) (hi : i < 12) : shardGet s i = some (fld s i) := by
  simp [shardGet, hi, fld]

/-- combined effect of `shard_set` + `shard_set_len` -/
theorem set_step (s : BitVec 64) (i v : Nat) (hi : i < 12) (hv : v < 32) :
    ∃ s', (shardSet s i v).bind (fun a => shardSetLen a (i + 1)) = some s' ∧
      shardGetLen s' = i + 1 ∧ fld s' i = v ∧ ∀ j, j < 12 → j ≠ i → fld s' j = fld s j := by
  have e : (shardSet s i v).bind (fun a => shardSetLen a (i + 1)) =
      some ((((s &&& ~~~(31#64 <<< (i * 5))) ||| (BitVec.ofNat 64 v <<< (i * 5))) &&&
        ~~~(15#64 <<< 60)) ||| (BitVec.ofNat 64 (i + 1) <<< 60)) := by
    rw [shardSet, if_pos (by simpa using hv)]
    show shardSetLen _ (i + 1) = _
    rw [shardSetLen, if_pos (by omega)]
  refine ⟨_, e, ?_, ?_, ?_⟩
  · apply Nat.eq_of_testBit_eq
    intro j
    rw [testBit_len, getLsbD_setLen _ _ _ (by omega)]
    by_cases hj : j < 4
    · simp [hj, show 60 + j < 64 by omega]
    · simp [hj]
      exact testBit_ge_of_lt (k := 4) (by omega : i + 1 < 2 ^ 4) (by omega)
  · apply Nat.eq_of_testBit_eq
    intro j
    rw [testBit_fld _ _ _ hi, getLsbD_setLen _ _ _ (by omega)]
    by_cases hj : j < 5
    · rw [if_neg (by omega), getLsbD_set _ _ _ _ hv hi]
      simp [hj]
    · simp [hj]
      exact testBit_ge_of_lt (k := 5) hv (by omega)
  · intro k hk hne
    apply Nat.eq_of_testBit_eq
    intro j
    rw [testBit_fld _ _ _ hk, testBit_fld _ _ _ hk, getLsbD_setLen _ _ _ (by omega)]
    by_cases hj : j < 5
    · rw [if_neg (by omega), getLsbD_set _ _ _ _ hv hi, if_neg (by omega)]
    · simp [hj]

/-- The descriptor `t` represents the list `l`. -/
structure Rep (t : TailPageSizes) (l : List Nat) : Prop where
  hlen : l.length ≤ 24
  len0 : shardGetLen t.s0 = min l.length 12
  len1 : shardGetLen t.s1 = l.length - 12
  get0 : ∀ i, i < 12 → (h : i < l.length) → fld t.s0 i = l[i]
  get1 : ∀ i, 12 ≤ i → (h : i < l.length) → fld t.s1 (i - 12) = l[i]

theorem rep_new : Rep new [] := by
  constructor <;> simp [new, shardGetLen]

theorem Rep.len {t l} (h : Rep t l) : t.len = l.length := by
  unfold TailPageSizes.len; rw [h.len0, h.len1]; omega

theorem Rep.push {t l} (h : Rep t l) (v : Nat) (hv : v < 32) (hl : l.length < 24) :
    ∃ t', t.push v = some t' ∧ Rep t' (l ++ [v]) := by
  unfold TailPageSizes.push
  rw [h.len]
  by_cases h12 : l.length < 12
  · obtain ⟨s', e, el, ev, eo⟩ := set_step t.s0 l.length v h12 hv
    refine ⟨{ t with s0 := s' }, ?_, ?_⟩
    · simp only [h12, if_true]
      cases ha : shardSet t.s0 l.length v with
      | none => rw [ha] at e; simp at e
      | some a => rw [ha] at e; simp at e; simp [e]
    · constructor
      · simp; omega
      · simp [el]; omega
      · have := h.len1; simp [this]; omega
      · intro i hi hil
        by_cases hne : i = l.length
        · subst hne; simp [ev]
        · have : i < l.length := by simp at hil; omega
          simp [List.getElem_append, this, eo i hi hne, h.get0 i hi this]
      · intro i hi hil
        simp at hil; omega
  · have hk : l.length - 12 < 12 := by omega
    obtain ⟨s', e, el, ev, eo⟩ := set_step t.s1 (l.length - 12) v hk hv
    refine ⟨{ t with s1 := s' }, ?_, ?_⟩
    · simp only [h12, if_false]
      cases ha : shardSet t.s1 (l.length - 12) v with
      | none => rw [ha] at e; simp at e
      | some a => rw [ha] at e; simp at e; simp [e]
    · constructor
      · simp; omega
      · have := h.len0; simp [this]; omega
      · simp [el]; omega
      · intro i hi hil
        have : i < l.length := by omega
        simp [List.getElem_append, this, h.get0 i hi this]
      · intro i hi hil
        by_cases hne : i = l.length
        · subst hne; simp [ev]
        · have h3 : i < l.length := by simp at hil; omega
          have := eo (i - 12) (by omega) (by omega)
          simp [List.getElem_append, h3, this, h.get1 i hi h3]

theorem Rep.push_full {t l} (h : Rep t l) (v : Nat) (hl : l.length = 24) : t.push v = none := by
  unfold TailPageSizes.push
  rw [h.len, hl]
  simp only [shardSetLen]
  cases shardSet t.s1 (24 - 12) v <;> simp

theorem Rep.push_big {t l} (h : Rep t l) (v : Nat) (hv : 32 ≤ v) : t.push v = none := by
  unfold TailPageSizes.push
  rw [h.len]
  simp [shardSet, show ¬ v < 32 by omega]

theorem Rep.get {t l} (h : Rep t l) (i : Nat) : t.get i = l[i]? := by
  unfold TailPageSizes.get
  rw [h.len]
  by_cases hi : i < l.length
  · rw [if_neg (by omega)]
    have := h.hlen
    by_cases h12 : i < 12
    · rw [if_pos h12, shardGet_eq _ _ h12, h.get0 i h12 hi]; simp [hi]
    · rw [if_neg h12, shardGet_eq _ _ (by omega), h.get1 i (by omega) hi]; simp [hi]
  · rw [if_pos (by omega)]; simp; omega

theorem Rep.iterFrom {t l} (h : Rep t l) (fuel i : Nat) (hf : l.length ≤ i + fuel) :
    t.iterFrom fuel i = ((l.drop i).zipIdx i).map Prod.swap := by
  induction fuel generalizing i with
  | zero => simp [TailPageSizes.iterFrom, List.drop_eq_nil_of_le (by omega : l.length ≤ i)]
  | succ f ih =>
    unfold TailPageSizes.iterFrom
    rw [h.get]
    by_cases hi : i < l.length
    · have hd : l.drop i = l[i] :: l.drop (i + 1) := (List.drop_eq_getElem_cons hi)
      rw [hd, List.getElem?_eq_getElem hi, List.zipIdx_cons, List.map_cons, ← ih (i + 1) (by omega)]
      rfl
    · simp [List.drop_eq_nil_of_le (by omega : l.length ≤ i), show l.length ≤ i by omega]

theorem Rep.toIter {t l} (h : Rep t l) : t.toIter = l.zipIdx.map Prod.swap := by
  have := h.iterFrom 31 0 (by have := h.hlen; omega)
  simpa [TailPageSizes.toIter] using this

theorem Rep.toList {t l} (h : Rep t l) : t.toList = l := by
  unfold TailPageSizes.toList
  rw [h.toIter, List.map_map]
  exact List.zipIdx_map_fst 0 l

end TailPageSizes

/-! ## the layout loop -/

theorem clear_top (rem : Nat) (h0 : rem ≠ 0) (h64 : rem < 2 ^ 64) :
    rem &&& ((2 ^ 64 - 1) ^^^ (1 <<< Nat.log2 rem)) = rem - 2 ^ Nat.log2 rem := by
  have hlt := Nat.lt_log2_self (n := rem)
  have hle := Nat.log2_self_le h0
  have hp : Nat.log2 rem < 64 := (Nat.log2_lt h0).2 h64
  have e : rem - 2 ^ Nat.log2 rem = rem % 2 ^ Nat.log2 rem := by
    rw [Nat.pow_succ] at hlt
    rw [Nat.mod_eq_sub_mod hle, Nat.mod_eq_of_lt (by omega)]
  rw [e]
  apply Nat.eq_of_testBit_eq
  intro i
  rw [Nat.testBit_and, Nat.testBit_xor, Nat.testBit_mod_two_pow, Nat.testBit_two_pow_sub_one,
    Nat.one_shiftLeft, Nat.testBit_two_pow]
  rcases Nat.lt_trichotomy i (Nat.log2 rem) with h | h | h
  · simp [h, show i < 64 by omega, show ¬ rem.log2 = i by omega]
  · subst h; simp [hp]
  · have : rem.testBit i = false := TailPageSizes.testBit_ge_of_lt hlt h
    simp [this]

/-- Exponents of the binary expansion of `rem`, highest first. -/
def binExps : Nat → Nat → List Nat
  | 0, _ => []
  | fuel + 1, rem => if rem = 0 then [] else Nat.log2 rem :: binExps fuel (rem - 2 ^ Nat.log2 rem)

theorem binExps_sum (fuel rem : Nat) (h : rem < 2 ^ fuel) :
    ((binExps fuel rem).map (2 ^ ·)).sum = rem := by
  induction fuel generalizing rem with
  | zero => simp at h; simp [binExps, h]
  | succ f ih =>
    unfold binExps
    split
    · simp; omega
    · rename_i h0
      have hlt := Nat.lt_log2_self (n := rem)
      have hle := Nat.log2_self_le h0
      have hb : Nat.log2 rem < f + 1 := (Nat.log2_lt h0).2 h
      have : rem - 2 ^ Nat.log2 rem < 2 ^ f := by
        have := Nat.pow_le_pow_right (n := 2) (by decide) (show Nat.log2 rem ≤ f by omega)
        rw [Nat.pow_succ] at hlt
        omega
      simp [ih _ this]; omega

theorem binExps_bounds (fuel rem s : Nat) (hs : 2 ^ s ∣ rem) :
    ∀ e ∈ binExps fuel rem, s ≤ e ∧ 2 ^ e ≤ rem := by
  induction fuel generalizing rem with
  | zero => simp [binExps]
  | succ f ih =>
    unfold binExps
    split
    · simp
    · rename_i h0
      have hle := Nat.log2_self_le h0
      have hsl : s ≤ Nat.log2 rem := (Nat.le_log2 h0).2 (Nat.le_of_dvd (by omega) hs)
      have hs' : 2 ^ s ∣ rem - 2 ^ Nat.log2 rem := Nat.dvd_sub hs (Nat.pow_dvd_pow 2 hsl)
      intro e he
      simp only [List.mem_cons] at he
      rcases he with rfl | he
      · exact ⟨hsl, hle⟩
      · have := ih _ hs' e he
        exact ⟨this.1, Nat.le_trans this.2 (Nat.sub_le _ _)⟩

theorem binExps_sorted (fuel rem : Nat) : (binExps fuel rem).Pairwise (· > ·) := by
  induction fuel generalizing rem with
  | zero => simp [binExps]
  | succ f ih =>
    unfold binExps
    split
    · simp
    · rename_i h0
      have hlt := Nat.lt_log2_self (n := rem)
      refine List.pairwise_cons.2 ⟨?_, ih _⟩
      intro e he
      have := (binExps_bounds f (rem - 2 ^ Nat.log2 rem) 0 (by simp) e he).2
      rw [Nat.pow_succ] at hlt
      have h2 : 2 ^ e < 2 ^ Nat.log2 rem := by omega
      exact (Nat.pow_lt_pow_iff_right (by decide)).1 h2

theorem layoutLoop_eq (fuel rem : Nat) (t : TailPageSizes) (l : List Nat)
    (hr : TailPageSizes.Rep t l) (h64 : rem < 2 ^ 32)
    (hl : l.length + (binExps fuel rem).length ≤ 24) :
    ∃ t', layoutLoop fuel rem t = some t' ∧ TailPageSizes.Rep t' (l ++ binExps fuel rem) := by
  induction fuel generalizing rem t l with
  | zero => exact ⟨t, rfl, by simpa [binExps] using hr⟩
  | succ f ih =>
    unfold layoutLoop
    by_cases h0 : rem = 0
    · exact ⟨t, by simp [h0], by simpa [binExps, h0] using hr⟩
    · have hb : Nat.log2 rem < 32 := (Nat.log2_lt h0).2 h64
      have hbin : binExps (f + 1) rem = Nat.log2 rem :: binExps f (rem - 2 ^ Nat.log2 rem) := by
        simp [binExps, h0]
      rw [hbin] at hl ⊢
      simp at hl
      obtain ⟨t1, e1, r1⟩ := hr.push _ hb (by omega)
      rw [if_neg h0]
      simp only [e1]
      rw [clear_top _ h0 (by omega)]
      obtain ⟨t', e', r'⟩ := ih (rem - 2 ^ Nat.log2 rem) t1 (l ++ [Nat.log2 rem]) r1
        (Nat.lt_of_le_of_lt (Nat.sub_le _ _) h64) (by simp; omega)
      exact ⟨t', e', by simpa using r'⟩

/-- a strictly decreasing list of naturals within `[s, l)` has at most `l - s` elements -/
theorem length_le_of_pairwise_gt {xs : List Nat} {s l : Nat} (hp : xs.Pairwise (· > ·))
    (hb : ∀ e ∈ xs, s ≤ e ∧ e < l) : xs.length ≤ l - s := by
  induction xs generalizing l with
  | nil => simp
  | cons x xs ih =>
    have h1 := List.pairwise_cons.1 hp
    have hx := hb x (by simp)
    have := ih (l := x) h1.2 (fun e he => ⟨(hb e (by simp [he])).1, h1.1 e he⟩)
    simp; omega

/-- tail size after rounding: the remainder the layout loop starts from -/
def tailRem (pages : Pages) (size : Nat) : Nat := ceilPow2 (size % 2 ^ pages.lpage) pages.spage

theorem tailRem_le (pages : Pages) (hsl : pages.spage ≤ pages.lpage) (size : Nat) :
    tailRem pages size ≤ 2 ^ pages.lpage :=
  ceilPow2_le_of_dvd (Nat.pow_dvd_pow 2 hsl) (Nat.le_of_lt (Nat.mod_lt _ (Nat.two_pow_pos _)))

theorem binExps_tail_lt (pages : Pages) (hsl : pages.spage ≤ pages.lpage) (size : Nat) :
    (binExps 64 (tailRem pages size)).length ≤ pages.lpage + 1 - pages.spage := by
  apply length_le_of_pairwise_gt (binExps_sorted _ _)
  intro e he
  have := binExps_bounds 64 _ pages.spage (ceilPow2_dvd _ _) e he
  refine ⟨this.1, ?_⟩
  have h2 := Nat.le_trans this.2 (tailRem_le pages hsl size)
  have := (Nat.pow_le_pow_iff_right (a := 2) (by decide)).1 h2
  omega

/-- Exact result of `calc_object_layout`. -/
theorem calcObjectLayout_eq (pages : Pages) (size : Nat) (hsl : pages.spage ≤ pages.lpage)
    (hl : pages.lpage < 32) (h24 : pages.lpage < pages.spage + 24) :
    ∃ t, calcObjectLayout pages size = some ⟨size / 2 ^ pages.lpage, t⟩ ∧
      TailPageSizes.Rep t (binExps 64 (tailRem pages size)) := by
  have hrem := tailRem_le pages hsl size
  have hp : 2 ^ pages.lpage ≤ 2 ^ 31 := Nat.pow_le_pow_right (by decide) (by omega)
  have hcnt := binExps_tail_lt pages hsl size
  obtain ⟨t, e, r⟩ := layoutLoop_eq 64 (tailRem pages size) TailPageSizes.new []
    TailPageSizes.rep_new (by omega) (by simp; omega)
  refine ⟨t, ?_, by simpa using r⟩
  unfold calcObjectLayout
  simp only [divModPow2_eq]
  unfold tailRem at e
  rw [e]

theorem tailRem_lt64 (pages : Pages) (size : Nat) (hsl : pages.spage ≤ pages.lpage)
    (hl : pages.lpage < 64) : tailRem pages size < 2 ^ 64 := by
  have hrem := tailRem_le pages hsl size
  have hp : 2 ^ pages.lpage ≤ 2 ^ 63 := Nat.pow_le_pow_right (by decide) (by omega)
  omega

end Blobd
