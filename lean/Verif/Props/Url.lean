import Verif.Model.Url
/-!
# C50: the key given to the client is the key the server uses
-/
namespace Blobd
namespace Props

open Http
open MP (Bytes)

theorem hexVal_hexDigit {n : Nat} (h : n < 16) : hexVal (hexDigit n) = some n :=
  (by decide : ∀ n, n < 16 → hexVal (hexDigit n) = some n) n h

theorem pctDecode_cons {b : Byte} (h : b ≠ 37) (r : Bytes) : pctDecode (b :: r) = b :: pctDecode r := by
  match r with
  | [] => simp [pctDecode]
  | [x] => simp [pctDecode]
  | x :: y :: r => rw [pctDecode, if_neg h]

theorem pctDecode_pct (b : Byte) (r : Bytes) :
    pctDecode (37 :: hexDigit (b.toNat / 16) :: hexDigit (b.toNat % 16) :: r) = b :: pctDecode r := by
  have hb := b.toNat_lt
  rw [pctDecode, if_pos rfl, hexVal_hexDigit (by omega), hexVal_hexDigit (by omega)]
  simp only [List.cons.injEq, and_true]
  apply UInt8.toNat_inj.1
  rw [UInt8.toNat_ofNat']; omega

theorem pctDecode_enc (set : Byte → Bool) (l : Bytes) (h : 37 ∉ l) : pctDecode (pctEnc set l) = l := by
  induction l with
  | nil => simp [pctEnc, pctDecode]
  | cons b l ih =>
    simp only [List.mem_cons, not_or] at h
    simp only [pctEnc, List.flatMap_cons] at ih ⊢
    split
    · simp only [List.cons_append, List.nil_append]
      rw [pctDecode_pct, ih h.2]
    · simp only [List.cons_append, List.nil_append]
      rw [pctDecode_cons (Ne.symm h.1), ih h.2]

theorem hexDigit_small (n : Nat) (h : n < 16) : setPath (hexDigit n) = false :=
  (by decide : ∀ n, n < 16 → setPath (hexDigit n) = false) n h

/-- encoding for the URL after encoding the controls is encoding the union -/
theorem pctEnc_twice (l : Bytes) : pctEnc setPath (pctEnc setControls l) = pctEnc setPath l := by
  induction l with
  | nil => rfl
  | cons b l ih =>
    have hb := b.toNat_lt
    simp only [pctEnc, List.flatMap_cons, List.flatMap_append] at ih ⊢
    rw [ih]
    congr 1
    by_cases hc : setControls b = true
    · have hp : setPath b = true := by simp [setPath, hc]
      have h1 := hexDigit_small (b.toNat / 16) (by omega)
      have h2 := hexDigit_small (b.toNat % 16) (by omega)
      have h3 : setPath 37 = false := by decide
      simp [hc, hp, h1, h2, h3]
    · simp [hc]

theorem splitSlash_ne (l : Bytes) : splitSlash l ≠ [] := by
  cases l with
  | nil => simp [splitSlash]
  | cons c r => unfold splitSlash; split; · simp
                · split <;> simp

/-- segments of the encoding are encodings of the segments -/
theorem splitSlash_enc (l : Bytes) : splitSlash (pctEnc setControls l) = (splitSlash l).map (pctEnc setControls) := by
  induction l with
  | nil => simp [pctEnc, splitSlash]
  | cons b l ih =>
    have hb := b.toNat_lt
    have hcons : pctEnc setControls (b :: l) =
        (if setControls b then [37, hexDigit (b.toNat / 16), hexDigit (b.toNat % 16)] else [b]) ++ pctEnc setControls l := rfl
    rw [hcons]
    by_cases hs : b = 47
    · subst hs
      rw [if_neg (by decide)]
      simp only [List.cons_append, List.nil_append, splitSlash, if_true, ih, List.map_cons]
      rfl
    · have hpre : ∀ (p : Bytes), 47 ∉ p → splitSlash (p ++ pctEnc setControls l) =
          match splitSlash (pctEnc setControls l) with
          | [] => [p]
          | x :: xs => (p ++ x) :: xs := by
        intro p hp
        induction p with
        | nil =>
          have := splitSlash_ne (pctEnc setControls l)
          cases hsp : splitSlash (pctEnc setControls l) with
          | nil => exact absurd hsp this
          | cons x xs => simp [hsp]
        | cons c p ihp =>
          simp only [List.mem_cons, not_or] at hp
          simp only [List.cons_append, splitSlash, if_neg (Ne.symm hp.1), ihp hp.2]
          cases hsp : splitSlash (pctEnc setControls l) <;> simp
      have hnot : 47 ∉ (if setControls b then [37, hexDigit (b.toNat / 16), hexDigit (b.toNat % 16)] else [b]) := by
        have hd : ∀ n, n < 16 → hexDigit n ≠ 47 := by decide
        split
        · simp only [List.mem_cons, List.not_mem_nil, or_false, not_or]
          exact ⟨by decide, (hd _ (by omega)).symm, (hd _ (by omega)).symm⟩
        · simpa using Ne.symm hs
      rw [hpre _ hnot, ih]
      simp only [splitSlash, if_neg hs]
      have := splitSlash_ne l
      cases hsp : splitSlash l with
      | nil => exact absurd hsp this
      | cons x xs => simp [pctEnc]

theorem joinSlash_splitSlash (l : Bytes) : joinSlash (splitSlash l) = l := by
  induction l with
  | nil => rfl
  | cons c r ih =>
    have hne := splitSlash_ne r
    unfold splitSlash
    split
    · rename_i hc
      cases hsp : splitSlash r with
      | nil => exact absurd hsp hne
      | cons x xs => rw [hsp] at ih; simp [joinSlash, ih, hc]
    · cases hsp : splitSlash r with
      | nil => exact absurd hsp hne
      | cons x xs =>
        rw [hsp] at ih
        cases xs with
        | nil => simp [joinSlash] at ih ⊢; exact ih
        | cons y ys => simp [joinSlash] at ih ⊢; exact ih

theorem joinSlash_map_enc (xs : List Bytes) : joinSlash (xs.map (pctEnc setPath)) = pctEnc setPath (joinSlash xs) := by
  induction xs with
  | nil => rfl
  | cons x xs ih =>
    cases xs with
    | nil => simp [joinSlash]
    | cons y ys =>
      simp only [List.map_cons, joinSlash] at ih ⊢
      rw [ih]
      have : setPath 47 = false := by decide
      simp [pctEnc, this]

theorem byte_forall {P : Byte → Prop} (h : ∀ n, n < 256 → P (UInt8.ofNat n)) (b : Byte) : P b := by
  have := h b.toNat b.toNat_lt
  simpa using this

theorem lower_37 (a : Byte) : lower a = 37 → a = 37 := by
  revert a; apply byte_forall; decide +kernel
theorem lower_50 (a : Byte) : lower a = 50 → a = 50 := by
  revert a; apply byte_forall; decide +kernel
theorem lower_46 (a : Byte) : lower a = 46 → a = 46 := by
  revert a; apply byte_forall; decide +kernel
theorem lower_101 (a : Byte) : lower a = 101 → a = 101 ∨ a = 69 := by
  revert a; apply byte_forall; decide +kernel

/-- a segment that the URL parser takes for a dot segment decodes to one -/
theorem isDot_decode (s : Bytes) (h : isDot s = true) : pctDecode s = [46] := by
  simp only [isDot, Bool.or_eq_true, beq_iff_eq] at h
  rcases h with rfl | h
  · simp [pctDecode]
  · simp only [List.map_eq_cons_iff, List.map_eq_nil_iff] at h
    obtain ⟨a, r, rfl, h1, b, r2, rfl, h2, c, r3, rfl, h3, rfl⟩ := h
    obtain rfl := lower_37 a h1
    obtain rfl := lower_50 b h2
    rcases lower_101 c h3 with rfl | rfl <;> simp [pctDecode, hexVal]

theorem isDotDot_decode (s : Bytes) (h : isDotDot s = true) : pctDecode s = [46, 46] := by
  simp only [isDotDot, Bool.or_eq_true, beq_iff_eq] at h
  rcases h with ((rfl | h) | h) | h
  · simp [pctDecode]
  · simp only [List.map_eq_cons_iff, List.map_eq_nil_iff] at h
    obtain ⟨d, _, rfl, h0, a, _, rfl, h1, b, _, rfl, h2, c, _, rfl, h3, rfl⟩ := h
    obtain rfl := lower_46 d h0
    obtain rfl := lower_37 a h1
    obtain rfl := lower_50 b h2
    rcases lower_101 c h3 with rfl | rfl <;> simp [pctDecode, hexVal]
  · simp only [List.map_eq_cons_iff, List.map_eq_nil_iff] at h
    obtain ⟨a, _, rfl, h1, b, _, rfl, h2, c, _, rfl, h3, d, _, rfl, h0, rfl⟩ := h
    obtain rfl := lower_46 d h0
    obtain rfl := lower_37 a h1
    obtain rfl := lower_50 b h2
    rcases lower_101 c h3 with rfl | rfl <;> simp [pctDecode, hexVal]
  · simp only [List.map_eq_cons_iff, List.map_eq_nil_iff] at h
    obtain ⟨a, _, rfl, h1, b, _, rfl, h2, c, _, rfl, h3, a', _, rfl, h4, b', _, rfl, h5, c', _, rfl, h6, rfl⟩ := h
    obtain rfl := lower_37 a h1
    obtain rfl := lower_50 b h2
    obtain rfl := lower_37 a' h4
    obtain rfl := lower_50 b' h5
    rcases lower_101 c h3 with rfl | rfl <;> rcases lower_101 c' h6 with rfl | rfl <;> simp [pctDecode, hexVal]

theorem pathSegs_plain (segs : List Bytes) (h : ∀ s ∈ segs, isDot (pctEnc setPath s) = false ∧ isDotDot (pctEnc setPath s) = false) :
    ∀ acc, pathSegs acc segs = acc.reverse ++ segs.map (pctEnc setPath) := by
  induction segs with
  | nil => intro acc; simp [pathSegs]
  | cons s segs ih =>
    intro acc
    obtain ⟨h1, h2⟩ := h s (by simp)
    simp only [pathSegs, h1, h2]
    rw [if_neg (by simp), if_neg (by simp), ih (fun s hs => h s (by simp [hs]))]
    simp

theorem mem_pctEnc {b : Byte} {l : Bytes} (h : b ∈ pctEnc setControls l) :
    (b ∈ l ∧ setControls b = false) ∨ b = 37 ∨ ∃ n, n < 16 ∧ b = hexDigit n := by
  simp only [pctEnc, List.mem_flatMap] at h
  obtain ⟨x, hx, hb⟩ := h
  have hx' := x.toNat_lt
  split at hb
  · simp at hb
    rcases hb with rfl | rfl | rfl
    · exact Or.inr (Or.inl rfl)
    · exact Or.inr (Or.inr ⟨_, by omega, rfl⟩)
    · exact Or.inr (Or.inr ⟨_, by omega, rfl⟩)
  · rename_i hs
    simp at hb; subst hb
    exact Or.inl ⟨hx, by simpa using hs⟩

theorem mem_splitSlash_sub {l s : Bytes} (h : s ∈ splitSlash l) : ∀ b ∈ s, b ∈ l := by
  induction l generalizing s with
  | nil => simp [splitSlash] at h; subst h; simp
  | cons c r ih =>
    unfold splitSlash at h
    split at h
    · simp at h
      rcases h with rfl | h
      · simp
      · intro b hb; exact List.mem_cons_of_mem _ (ih h b hb)
    · cases hsp : splitSlash r with
      | nil => rw [hsp] at h; simp at h; subst h; simp
      | cons x xs =>
        rw [hsp] at h
        simp at h
        rcases h with rfl | h
        · intro b hb
          simp at hb
          rcases hb with rfl | hb
          · simp
          · exact List.mem_cons_of_mem _ (ih (by rw [hsp]; simp) b hb)
        · intro b hb
          exact List.mem_cons_of_mem _ (ih (by rw [hsp]; simp [h]) b hb)

/-- **C50 (what holds).** For every key without `%`, `?`, `#` or `\`, without a `.` or `..` segment and not
ending in a space — any other bytes, including controls, spaces inside, quotes, slashes and non-ASCII text
— the server uses exactly the key given to the client. -/
theorem C50_key_survives_partial (key : Bytes) (h1 : 37 ∉ key) (h2 : 63 ∉ key) (h3 : 35 ∉ key) (h4 : 92 ∉ key)
    (hdot : ∀ s ∈ splitSlash key, s ≠ [46] ∧ s ≠ [46, 46]) (hsp : key.getLast? ≠ some 32) :
    serverKey key = some key := by
  have hex : ∀ n, n < 16 → hexDigit n ≠ 63 ∧ hexDigit n ≠ 35 ∧ hexDigit n ≠ 92 ∧ ¬ (hexDigit n).toNat ≤ 32 := by decide
  have hmem : ∀ b ∈ clientPath key, b ≠ 63 ∧ b ≠ 35 ∧ b ≠ 92 := by
    intro b hb
    simp only [clientPath, List.mem_cons] at hb
    rcases hb with rfl | hb
    · decide
    · rcases mem_pctEnc hb with ⟨hb, _⟩ | rfl | ⟨n, hn, rfl⟩
      · exact ⟨fun h => h2 (h ▸ hb), fun h => h3 (h ▸ hb), fun h => h4 (h ▸ hb)⟩
      · decide
      · exact ⟨(hex n hn).1, (hex n hn).2.1, (hex n hn).2.2.1⟩
  -- the last byte of the path is not a space
  have hlast : ∀ b, (clientPath key).getLast? = some b → ¬ b.toNat ≤ 32 := by
    intro b hb
    rcases List.eq_nil_or_concat key with rfl | ⟨l, x, rfl⟩
    · simp [clientPath, pctEnc] at hb; subst hb; decide
    · simp only [List.concat_eq_append] at hb hsp h1
      have hx' := x.toNat_lt
      simp only [clientPath, pctEnc, List.flatMap_append, List.flatMap_cons, List.flatMap_nil, List.append_nil] at hb
      by_cases hs : setControls x = true
      · simp only [hs, if_true] at hb
        rw [List.getLast?_cons, List.getLast?_append] at hb
        simp at hb
        subst hb
        exact (hex _ (by omega)).2.2.2
      · simp only [hs] at hb
        rw [List.getLast?_cons, List.getLast?_append] at hb
        simp at hb
        subst hb
        have hne : x ≠ 32 := by
          intro he; apply hsp; simp [he]
        simp [setControls] at hs
        intro hle
        apply hne
        apply UInt8.toNat_inj.1
        show x.toNat = 32
        omega
  have htrim : (((clientPath key).reverse.dropWhile (fun b => decide (b.toNat ≤ 32))).reverse) = clientPath key := by
    cases hr : (clientPath key).reverse with
    | nil => simp [clientPath] at hr
    | cons b r =>
      have : (clientPath key).getLast? = some b := by
        rw [← List.head?_reverse, hr]; rfl
      have := hlast b this
      rw [List.dropWhile_cons_of_neg (by simpa using this), ← hr, List.reverse_reverse]
  have htw : (clientPath key).takeWhile (fun b => decide (b ≠ 63 ∧ b ≠ 35)) = clientPath key := by
    have : ∀ (l : Bytes), (∀ b ∈ l, b ≠ 63 ∧ b ≠ 35 ∧ b ≠ 92) → l.takeWhile (fun b => decide (b ≠ 63 ∧ b ≠ 35)) = l := by
      intro l
      induction l with
      | nil => simp
      | cons b l ih =>
        intro hl
        have hb := hl b (by simp)
        rw [List.takeWhile_cons_of_pos (by simp [hb.1, hb.2.1]), ih (fun x hx => hl x (by simp [hx]))]
    exact this _ hmem
  have hmap : (clientPath key).map (fun b => if b = 92 then 47 else b) = clientPath key := by
    conv => rhs; rw [← List.map_id (clientPath key)]
    apply List.map_congr_left
    intro b hb
    simp [(hmem b hb).2.2]
  unfold serverKey urlPath
  simp only [htrim, htw, hmap]
  have hdrop : (clientPath key).drop 1 = pctEnc setControls key := rfl
  rw [hdrop, splitSlash_enc, pathSegs_plain]
  · simp only [List.reverse_nil, List.nil_append, List.map_map, parseKey]
    have : (splitSlash key).map (pctEnc setPath ∘ pctEnc setControls) = (splitSlash key).map (pctEnc setPath) := by
      apply List.map_congr_left
      intro s _
      exact pctEnc_twice s
    rw [this, joinSlash_map_enc, joinSlash_splitSlash, pctDecode_enc _ _ h1]
  · intro s hs
    simp only [List.mem_map] at hs
    obtain ⟨t, ht, rfl⟩ := hs
    rw [pctEnc_twice]
    have hd : pctDecode (pctEnc setPath t) = t := pctDecode_enc _ _ (fun h => h1 (mem_splitSlash_sub ht _ h))
    obtain ⟨n1, n2⟩ := hdot t ht
    constructor
    · cases h : isDot (pctEnc setPath t) with
      | false => rfl
      | true => exact absurd (hd.symm.trans (isDot_decode _ h)) n1
    · cases h : isDotDot (pctEnc setPath t) with
      | false => rfl
      | true => exact absurd (hd.symm.trans (isDotDot_decode _ h)) n2

/-- `c` is a hex digit, of either case, of value `v` -/
def Hex (c : Byte) (v : Nat) : Prop :=
  v < 10 ∧ c.toNat = 48 + v ∨ 10 ≤ v ∧ v < 16 ∧ (c.toNat = 55 + v ∨ c.toNat = 87 + v)

/-- `text` is a way to write `key` in a path: each byte as it is (except `%`) or as `%` and its two hex digits -/
inductive Spelled : Bytes → Bytes → Prop
  | nil : Spelled [] []
  | plain {b : Byte} {t k : Bytes} : b ≠ 37 → Spelled t k → Spelled (b :: t) (b :: k)
  | pct {b x y : Byte} {t k : Bytes} : Hex x (b.toNat / 16) → Hex y (b.toNat % 16) → Spelled t k → Spelled (37 :: x :: y :: t) (b :: k)

theorem hexVal_iff (c : Byte) (v : Nat) : hexVal c = some v ↔ Hex c v := by
  unfold hexVal Hex
  have := c.toNat_lt
  simp only
  constructor
  · intro h
    split at h
    · simp at h; omega
    · split at h
      · simp at h; omega
      · split at h
        · simp at h; omega
        · cases h
  · intro h
    split
    · simp; omega
    · split
      · simp; omega
      · split
        · simp; omega
        · omega

/-- The server takes every way of writing a key in the path for that key, with hex digits of either case, and whichever
bytes are escaped. -/
theorem C50_any_spelling {text key : Bytes} (h : Spelled text key) : parseKey (47 :: text) = some key := by
  show some (pctDecode text) = some key
  congr 1
  induction h with
  | nil => simp [pctDecode]
  | plain hb _ ih => rw [pctDecode_cons hb, ih]
  | @pct b x y t k hx hy _ ih =>
    have hb := b.toNat_lt
    rw [pctDecode, if_pos rfl, (hexVal_iff x _).2 hx, (hexVal_iff y _).2 hy]
    simp only [List.cons.injEq, ih, and_true]
    apply UInt8.toNat_inj.1
    rw [UInt8.toNat_ofNat']; omega

/-- A `%` that is not followed by two hex digits stands for itself. -/
theorem C50_stray_percent (text : Bytes) (h : ∀ x y t, text = x :: y :: t → (∀ v, ¬ Hex x v) ∨ (∀ v, ¬ Hex y v)) {key : Bytes}
    (hk : parseKey (47 :: text) = some key) : parseKey (47 :: 37 :: text) = some (37 :: key) := by
  simp only [parseKey, Option.some.injEq] at hk ⊢
  subst hk
  match text with
  | [] => simp [pctDecode]
  | [x] => simp [pctDecode]
  | x :: y :: t =>
    rw [pctDecode, if_pos rfl]
    have hn : ∀ c, (∀ v, ¬ Hex c v) → hexVal c = none := by
      intro c hc
      cases he : hexVal c with
      | none => rfl
      | some v => exact absurd ((hexVal_iff c v).1 he) (hc v)
    rcases h x y t rfl with h | h
    · rw [hn _ h]
    · rw [hn _ h]
      cases hexVal x <;> rfl

/-- "aü/" written with lower-case and upper-case digits; and a stray percent -/
example : Spelled [97, 37, 99, 51, 37, 66, 67, 37, 50, 102] [97, 0xc3, 0xbc, 47] ∧ parseKey [47, 37, 103, 49] = some [37, 103, 49] :=
  ⟨.plain (by decide) (.pct (.inr (by decide)) (.inl (by decide)) (.pct (.inr (by decide)) (.inr (by decide)) (.pct (.inl (by decide)) (.inr (by decide)) .nil))),
   by simp [parseKey, pctDecode, hexVal]⟩

/-- **C50 is false of the code in general**: the client does not encode `%`, `?`, `#` or `\`, does not
protect dot segments, and a trailing space is trimmed: the keys "a%41", "a?b", "a#b", "a\b", "a/../b" and
"a " reach the server as "aA", "a", "a", "a/b", "b" and "a". Two different keys become one object. -/
theorem C50_violated :
    serverKey [97, 37, 52, 49] = some [97, 65] ∧ serverKey [97, 63, 98] = some [97] ∧
    serverKey [97, 35, 98] = some [97] ∧ serverKey [97, 92, 98] = some [97, 47, 98] ∧
    serverKey [97, 47, 46, 46, 47, 98] = some [98] ∧ serverKey [97, 32] = some [97] := by
  refine ⟨?_, ?_, ?_, ?_, ?_, ?_⟩ <;>
    simp [serverKey, urlPath, clientPath, pctEnc, setControls, setPath, splitSlash, pathSegs, isDot, isDotDot, lower,
      joinSlash, parseKey, pctDecode, hexVal]

/-- a key meeting the premises: "dir/ü \"x\"" with a control byte and a slash -/
example : serverKey [100, 105, 114, 47, 0xc3, 0xbc, 32, 34, 120, 1] = some [100, 105, 114, 47, 0xc3, 0xbc, 32, 34, 120, 1] :=
  C50_key_survives_partial _ (by decide) (by decide) (by decide) (by decide) (by decide) (by decide)

end Props
end Blobd
