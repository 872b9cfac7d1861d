import Verif.Spec.RustClient
import Verif.Props.JsClient
set_option autoImplicit false
/-!
# The Rust client: exactly which keys reach the server unchanged (C50)
-/
namespace Blobd
namespace Props

open Http
open MP (Bytes takeN)

/-! ### Percent decoding -/

def TwoHex (r : Bytes) : Prop := ∃ x y r', r = x :: y :: r' ∧ hexVal x ≠ none ∧ hexVal y ≠ none

theorem pctDecode_pct_not {r : Bytes} (h : ¬ TwoHex r) : pctDecode (37 :: r) = 37 :: pctDecode r := by
  match r with
  | [] => simp [pctDecode]
  | [x] => simp [pctDecode]
  | x :: y :: r =>
    rw [pctDecode, if_pos rfl]
    cases hx : hexVal x with
    | none => rfl
    | some v =>
      cases hy : hexVal y with
      | none => rfl
      | some w => exact absurd ⟨x, y, r, rfl, by simp [hx], by simp [hy]⟩ h

theorem hex_plain (b : Byte) : hexVal b ≠ none → setPath b = false ∧ b ≠ 37 ∧ b ≠ 47 := by
  revert b; apply byte_forall; decide +kernel

theorem pctEnc_cons (set : Byte → Bool) (b : Byte) (l : Bytes) :
    pctEnc set (b :: l) = (if set b then [37, hexDigit (b.toNat / 16), hexDigit (b.toNat % 16)] else [b]) ++ pctEnc set l := rfl

theorem twoHex_enc {r : Bytes} (h : TwoHex (pctEnc setPath r)) : TwoHex r := by
  obtain ⟨x, y, r', he, hx, hy⟩ := h
  match r with
  | [] => simp [pctEnc] at he
  | b :: r =>
    rw [pctEnc_cons] at he
    split at he
    · simp at he; exact absurd he.1.symm (hex_plain x hx).2.1
    · simp at he
      obtain ⟨rfl, he⟩ := he
      match r with
      | [] => simp [pctEnc] at he
      | c :: r =>
        rw [pctEnc_cons] at he
        split at he
        · simp at he; exact absurd he.1.symm (hex_plain y hy).2.1
        · simp at he
          obtain ⟨rfl, he⟩ := he
          exact ⟨b, c, r, rfl, hx, hy⟩

theorem pctDecode_pathEnc (n : Nat) : ∀ s : Bytes, s.length ≤ n → pctDecode (pctEnc setPath s) = pctDecode s := by
  induction n with
  | zero => intro s hs; have : s = [] := by simpa using hs
            subst this; rfl
  | succ n ih =>
    intro s hs
    match s with
    | [] => rfl
    | b :: r =>
      simp only [List.length_cons] at hs
      rw [pctEnc_cons]
      by_cases hb : b = 37
      · subst hb
        rw [if_neg (by decide)]
        by_cases h2 : TwoHex r
        · obtain ⟨x, y, r', rfl, hx, hy⟩ := h2
          rw [pctEnc_cons, pctEnc_cons, (hex_plain x hx).1, (hex_plain y hy).1]
          simp only [Bool.false_eq_true, if_false, List.cons_append, List.nil_append]
          rw [pctDecode, pctDecode, if_pos rfl, if_pos rfl, ih r' (by simp at hs; omega)]
          obtain ⟨v, hv⟩ := Option.ne_none_iff_exists'.1 hx
          obtain ⟨w, hw⟩ := Option.ne_none_iff_exists'.1 hy
          simp only [hv, hw]
        · simp only [List.cons_append, List.nil_append]
          rw [pctDecode_pct_not h2, pctDecode_pct_not (fun h => h2 (twoHex_enc h)), ih r (by omega)]
      · rw [pctDecode_cons hb]
        split
        · simp only [List.cons_append, List.nil_append]
          rw [pctDecode_pct, ih r (by omega)]
        · simp only [List.cons_append, List.nil_append]
          rw [pctDecode_cons hb, ih r (by omega)]

/-- what the first byte of a decoded text came from -/
theorem pctDecode_inv {s : Bytes} {b : Byte} {t : Bytes} (h : pctDecode s = b :: t) :
    (∃ s', s = b :: s' ∧ pctDecode s' = t) ∨
    ∃ x y s' v w, s = 37 :: x :: y :: s' ∧ hexVal x = some v ∧ hexVal y = some w ∧ b = UInt8.ofNat (16 * v + w) ∧ pctDecode s' = t := by
  match s with
  | [] => simp [pctDecode] at h
  | c :: r =>
    by_cases hc : c = 37
    · subst hc
      by_cases h2 : TwoHex r
      · obtain ⟨x, y, r', rfl, hx, hy⟩ := h2
        obtain ⟨v, hv⟩ := Option.ne_none_iff_exists'.1 hx
        obtain ⟨w, hw⟩ := Option.ne_none_iff_exists'.1 hy
        rw [pctDecode, if_pos rfl] at h
        simp only [hv, hw, List.cons.injEq] at h
        exact Or.inr ⟨x, y, r', v, w, rfl, hv, hw, h.1.symm, h.2⟩
      · rw [pctDecode_pct_not h2] at h
        simp at h
        exact Or.inl ⟨r, by rw [h.1], h.2⟩
    · rw [pctDecode_cons hc] at h
      simp at h
      exact Or.inl ⟨r, by rw [h.1], h.2⟩

theorem pctDecode_nil_inv {s : Bytes} (h : pctDecode s = []) : s = [] := by
  match s with
  | [] => rfl
  | [a] => simp [pctDecode] at h
  | [a, b] => simp [pctDecode] at h
  | a :: b :: c :: r =>
    rw [pctDecode] at h
    split at h
    · split at h <;> simp at h
    · simp at h

theorem hex_dot : ∀ n, n < 256 → ∀ m, m < 256 → ∀ v ∈ hexVal (UInt8.ofNat n), ∀ w ∈ hexVal (UInt8.ofNat m),
    UInt8.ofNat (16 * v + w) = 46 → lower (UInt8.ofNat n) = 50 ∧ lower (UInt8.ofNat m) = 101 := by
  have hv : ∀ n, n < 256 → (hexVal (UInt8.ofNat n) = some 2 → lower (UInt8.ofNat n) = 50) ∧
      (hexVal (UInt8.ofNat n) = some 14 → lower (UInt8.ofNat n) = 101) ∧ ∀ v ∈ hexVal (UInt8.ofNat n), v < 16 := by decide +kernel
  intro n hn m hm v hv' w hw' h
  have h1 := (hv n hn).2.2 v hv'
  have h2 := (hv m hm).2.2 w hw'
  have h3 : (16 * v + w) % 256 = 46 := by
    have := congrArg UInt8.toNat h
    rwa [UInt8.toNat_ofNat'] at this
  have e1 : v = 2 := by omega
  have e2 : w = 14 := by omega
  subst e1; subst e2
  exact ⟨(hv n hn).1 hv', (hv m hm).2.1 hw'⟩

theorem hex_dot' (x y : Byte) {v w : Nat} (hv : hexVal x = some v) (hw : hexVal y = some w)
    (h : (46 : Byte) = UInt8.ofNat (16 * v + w)) : lower x = 50 ∧ lower y = 101 := by
  have := hex_dot x.toNat x.toNat_lt y.toNat y.toNat_lt v (by simpa using hv) w (by simpa using hw) h.symm
  simpa using this

theorem isDot_iff (s : Bytes) : isDot s = true ↔ pctDecode s = [46] := by
  refine ⟨isDot_decode s, fun h => ?_⟩
  rcases pctDecode_inv h with ⟨s', rfl, h'⟩ | ⟨x, y, s', v, w, rfl, hx, hy, hb, h'⟩
  · have := pctDecode_nil_inv h'; subst this; decide
  · have := pctDecode_nil_inv h'; subst this
    have := hex_dot' x y hx hy hb
    simp [isDot, this.1, this.2]; decide

theorem isDotDot_iff (s : Bytes) : isDotDot s = true ↔ pctDecode s = [46, 46] := by
  refine ⟨isDotDot_decode s, fun h => ?_⟩
  have l46 : lower 46 = 46 := by decide
  have l37 : lower 37 = 37 := by decide
  rcases pctDecode_inv h with ⟨s', rfl, h'⟩ | ⟨x, y, s', v, w, rfl, hx, hy, hb, h'⟩
  · rcases pctDecode_inv h' with ⟨s2, rfl, h2⟩ | ⟨x, y, s2, v, w, rfl, hx, hy, hb, h2⟩
    · have := pctDecode_nil_inv h2; subst this; decide
    · have := pctDecode_nil_inv h2; subst this
      have := hex_dot' x y hx hy hb
      simp [isDotDot, this.1, this.2, l46, l37]
  · have hd := hex_dot' x y hx hy hb
    rcases pctDecode_inv h' with ⟨s2, rfl, h2⟩ | ⟨x2, y2, s2, v2, w2, rfl, hx2, hy2, hb2, h2⟩
    · have := pctDecode_nil_inv h2; subst this
      simp [isDotDot, hd.1, hd.2, l46, l37]
    · have := pctDecode_nil_inv h2; subst this
      have := hex_dot' x2 y2 hx2 hy2 hb2
      simp [isDotDot, this.1, this.2, hd.1, hd.2, l37]

theorem pctDecode_length (n : Nat) : ∀ s : Bytes, s.length ≤ n → (pctDecode s).length ≤ s.length ∧
    ((pctDecode s).length = s.length → pctDecode s = s) := by
  induction n with
  | zero => intro s hs; have : s = [] := by simpa using hs
            subst this; simp [pctDecode]
  | succ n ih =>
    intro s hs
    cases hd : pctDecode s with
    | nil => have := pctDecode_nil_inv hd; subst this; simp
    | cons b t =>
      rcases pctDecode_inv hd with ⟨s', rfl, h'⟩ | ⟨x, y, s', v, w, rfl, hx, hy, hb, h'⟩
      · simp only [List.length_cons] at hs
        have := ih s' (by omega)
        rw [h'] at this
        simp only [List.length_cons]
        exact ⟨by omega, fun h => by rw [this.2 (by omega)]⟩
      · simp only [List.length_cons] at hs
        have := ih s' (by omega)
        rw [h'] at this
        simp only [List.length_cons]
        exact ⟨by omega, fun h => by omega⟩

theorem pctDecode_length_le (s : Bytes) : (pctDecode s).length ≤ s.length := (pctDecode_length _ s (Nat.le_refl _)).1

theorem pctDecode_eq_iff (s : Bytes) : pctDecode s = s ↔ ¬ hasEscape s := by
  constructor
  · rintro h ⟨a, x, y, b, rfl, hx, hy⟩
    -- decoding is length-decreasing at the escape
    have key : ∀ a : Bytes, (pctDecode (a ++ 37 :: x :: y :: b)).length < (a ++ 37 :: x :: y :: b).length := by
      intro a
      generalize hn : a.length = n
      induction n using Nat.strongRecOn generalizing a with
      | _ n ih =>
        match a with
        | [] =>
          obtain ⟨v, hv⟩ := Option.ne_none_iff_exists'.1 hx
          obtain ⟨w, hw⟩ := Option.ne_none_iff_exists'.1 hy
          simp only [List.nil_append]
          rw [pctDecode, if_pos rfl]
          have := pctDecode_length_le b
          simp only [hv, hw, List.length_cons]; omega
        | c :: a =>
          simp only [List.cons_append]
          cases hd : pctDecode (c :: (a ++ 37 :: x :: y :: b)) with
          | nil => simp
          | cons d t =>
            rcases pctDecode_inv hd with ⟨s', he, h'⟩ | ⟨x', y', s', v, w, he, _, _, _, h'⟩
            · simp only [List.cons.injEq] at he
              rw [← he.2] at h'
              have := ih a.length (by simp at hn; omega) a rfl
              rw [h'] at this
              simp only [List.length_cons] at this ⊢
              omega
            · have h1 := pctDecode_length_le s'
              rw [he, ← h']
              simp only [List.length_cons]
              omega
    have := key a
    rw [h] at this
    omega
  · intro h
    generalize hn : s.length = n
    induction n using Nat.strongRecOn generalizing s with
    | _ n ih =>
      match s with
      | [] => simp [pctDecode]
      | c :: r =>
        have hr : ¬ hasEscape r := by
          rintro ⟨a, x, y, b, rfl, h2⟩
          exact h ⟨c :: a, x, y, b, rfl, h2⟩
        have hi := ih r.length (by simp at hn; omega) r hr rfl
        by_cases hc : c = 37
        · subst hc
          rw [pctDecode_pct_not, hi]
          rintro ⟨x, y, r', rfl, h2⟩
          exact h ⟨[], x, y, r', rfl, h2⟩
        · rw [pctDecode_cons hc, hi]

theorem pctDecode_append_slash (n : Nat) (b : Bytes) : ∀ a : Bytes, a.length ≤ n →
    pctDecode (a ++ 47 :: b) = pctDecode a ++ 47 :: pctDecode b := by
  induction n with
  | zero =>
    intro a ha
    have : a = [] := by simpa using ha
    subst this
    rw [List.nil_append, pctDecode_cons (by decide)]; simp [pctDecode]
  | succ n ih =>
    intro a ha
    match a with
    | [] => rw [List.nil_append, pctDecode_cons (by decide)]; simp [pctDecode]
    | c :: r =>
      simp only [List.length_cons] at ha
      by_cases hc : c = 37
      · subst hc
        by_cases h2 : TwoHex r
        · obtain ⟨x, y, r', rfl, hx, hy⟩ := h2
          obtain ⟨v, hv⟩ := Option.ne_none_iff_exists'.1 hx
          obtain ⟨w, hw⟩ := Option.ne_none_iff_exists'.1 hy
          simp only [List.cons_append]
          rw [pctDecode, pctDecode, if_pos rfl, if_pos rfl, ih r' (by simp at ha; omega)]
          simp only [hv, hw, List.cons_append]
        · have h3 : ¬ TwoHex (r ++ 47 :: b) := by
            rintro ⟨x, y, r', he, hx, hy⟩
            match r with
            | [] => simp at he; exact (hex_plain x hx).2.2 he.1.symm
            | [z] => simp at he; exact (hex_plain y hy).2.2 he.2.1.symm
            | z :: u :: r =>
              simp at he
              obtain ⟨rfl, rfl, _⟩ := he
              exact h2 ⟨z, u, r, rfl, hx, hy⟩
          rw [List.cons_append, pctDecode_pct_not h2, pctDecode_pct_not h3, ih r (by omega), List.cons_append]
      · rw [List.cons_append, pctDecode_cons hc, pctDecode_cons hc, ih r (by omega), List.cons_append]

theorem pctDecode_joinSlash (segs : List Bytes) : pctDecode (joinSlash segs) = joinSlash (segs.map pctDecode) := by
  induction segs with
  | nil => simp [joinSlash, pctDecode]
  | cons x xs ih =>
    cases xs with
    | nil => simp [joinSlash]
    | cons y ys =>
      simp only [joinSlash, List.map_cons] at ih ⊢
      rw [pctDecode_append_slash _ _ x (Nat.le_refl _), ih]

/-! ### The path of the URL -/

theorem trim_enc (key : Bytes) :
    (((clientPath key).reverse.dropWhile (fun b => decide (b.toNat ≤ 32))).reverse) =
      47 :: pctEnc setControls ((key.reverse.dropWhile (fun b => decide (b = 32))).reverse) := by
  have happ : ∀ (a b : Bytes), pctEnc setControls (a ++ b) = pctEnc setControls a ++ pctEnc setControls b := by
    intro a b; simp [pctEnc]
  have hkey : ∀ r : Bytes, (((47 :: pctEnc setControls r.reverse).reverse.dropWhile (fun b => decide (b.toNat ≤ 32))).reverse) =
      47 :: pctEnc setControls ((r.dropWhile (fun b => decide (b = 32))).reverse) := by
    intro r
    induction r with
    | nil => simp [pctEnc]
    | cons b r ih =>
      rw [show (b :: r).reverse = r.reverse ++ [b] from List.reverse_cons, happ, ← List.cons_append, List.reverse_append]
      by_cases hb : b = 32
      · subst hb
        have : (pctEnc setControls [32]).reverse = [32] := by decide
        rw [this, List.cons_append, List.nil_append, List.dropWhile_cons_of_pos (by decide), ih, List.dropWhile_cons_of_pos (by decide)]
      · have hlast : ∃ c r', (pctEnc setControls [b]).reverse = c :: r' ∧ ¬ c.toNat ≤ 32 := by
          have hx : ∀ n, n < 16 → ¬ (hexDigit n).toNat ≤ 32 := by decide
          have hbl := b.toNat_lt
          simp only [pctEnc, List.flatMap_cons, List.flatMap_nil, List.append_nil]
          split
          · exact ⟨_, _, rfl, hx _ (by omega)⟩
          · rename_i hs
            refine ⟨_, _, rfl, ?_⟩
            simp [setControls] at hs
            intro hle
            exact hb (UInt8.toNat_inj.1 (show b.toNat = 32 by omega))
        obtain ⟨c, r', he, hc⟩ := hlast
        rw [List.dropWhile_cons_of_neg (by simpa using hb), show (b :: r).reverse = r.reverse ++ [b] from List.reverse_cons, happ, he,
          List.cons_append, List.dropWhile_cons_of_neg (by simpa using hc), ← List.cons_append, ← he, ← List.reverse_append,
          List.reverse_reverse, List.cons_append]
  have := hkey key.reverse
  rwa [List.reverse_reverse] at this

theorem takeWhile_enc (l : Bytes) : (pctEnc setControls l).takeWhile (fun b => decide (b ≠ 63 ∧ b ≠ 35)) =
    pctEnc setControls (l.takeWhile (fun b => decide (b ≠ 63 ∧ b ≠ 35))) := by
  induction l with
  | nil => rfl
  | cons b l ih =>
    have hbl := b.toNat_lt
    have hx : ∀ n, n < 16 → decide (hexDigit n ≠ 63 ∧ hexDigit n ≠ 35) = true := by decide
    by_cases hb : b ≠ 63 ∧ b ≠ 35
    · rw [List.takeWhile_cons_of_pos (by simpa using hb), pctEnc_cons, pctEnc_cons, ← ih]
      split
      · simp only [List.cons_append, List.nil_append]
        have hx1 := hx (b.toNat / 16) (by omega)
        have hx2 := hx (b.toNat % 16) (by omega)
        rw [List.takeWhile_cons, List.takeWhile_cons, List.takeWhile_cons, if_pos (by decide), if_pos hx1, if_pos hx2]
      · simp only [List.cons_append, List.nil_append]
        rw [List.takeWhile_cons_of_pos (by simpa using hb)]
    · rw [List.takeWhile_cons_of_neg (by simpa using hb), pctEnc_cons]
      have : setControls b = false := by
        have : b = 63 ∨ b = 35 := by
          by_cases h : b = 63
          · exact Or.inl h
          · exact Or.inr (by by_contra h2; exact hb ⟨h, h2⟩)
        rcases this with rfl | rfl <;> decide
      rw [this]
      simp only [Bool.false_eq_true, if_false, List.cons_append, List.nil_append]
      rw [List.takeWhile_cons_of_neg (by simpa using hb)]
      rfl

theorem backslash_enc (l : Bytes) : (pctEnc setControls l).map (fun b => if b = 92 then 47 else b) =
    pctEnc setControls (l.map (fun b => if b = 92 then 47 else b)) := by
  induction l with
  | nil => rfl
  | cons b l ih =>
    have hbl := b.toNat_lt
    have hx : ∀ n, n < 16 → (if hexDigit n = 92 then (47 : Byte) else hexDigit n) = hexDigit n := by decide
    rw [List.map_cons, pctEnc_cons, pctEnc_cons, List.map_append, ih]
    congr 1
    by_cases hb : b = 92
    · subst hb; decide
    · rw [if_neg hb]
      split
      · simp only [List.map_cons, List.map_nil]
        rw [hx _ (by omega), hx _ (by omega), if_neg (by decide)]
      · simp [hb]

theorem pathSegs_decode (segs : List Bytes) : ∀ acc : List Bytes,
    (pathSegs acc (segs.map (pctEnc setControls))).map pctDecode = resolveDots (acc.map pctDecode) (segs.map pctDecode) := by
  induction segs with
  | nil => intro acc; simp [pathSegs, resolveDots]
  | cons s segs ih =>
    intro acc
    have hdec : pctDecode (pctEnc setPath s) = pctDecode s := pctDecode_pathEnc _ s (Nat.le_refl _)
    have hdd := isDotDot_iff (pctEnc setPath s)
    have hd := isDot_iff (pctEnc setPath s)
    rw [hdec] at hdd hd
    simp only [List.map_cons, pathSegs, pctEnc_twice, resolveDots, hdd, hd]
    have hnil : pctDecode [] = [] := by simp [pctDecode]
    by_cases h1 : pctDecode s = [46, 46]
    · rw [if_pos h1, if_pos h1]
      cases segs with
      | nil => simpa [hnil] using ih ([] :: acc.drop 1)
      | cons t ts => simpa using ih (acc.drop 1)
    · rw [if_neg h1, if_neg h1]
      by_cases h2 : pctDecode s = [46]
      · rw [if_pos h2, if_pos h2]
        cases segs with
        | nil => simpa [hnil] using ih ([] :: acc)
        | cons t ts => simpa using ih acc
      · rw [if_neg h2, if_neg h2]
        simpa [hdec] using ih (pctEnc setPath s :: acc)

/-- **C50 for the Rust client, exactly.** For every key: the server uses the path part of the key (no trailing spaces,
cut at `?` or `#`, `/` for every backslash), its segments percent-decoded and then its `.` and `..` segments resolved. -/
theorem C50_rust_exact (key : Bytes) :
    serverKey key = some (joinSlash (resolveDots [] ((splitSlash (pathPart key)).map pctDecode))) := by
  unfold serverKey urlPath
  simp only [trim_enc]
  rw [List.takeWhile_cons_of_pos (by decide), takeWhile_enc, List.map_cons, backslash_enc, if_neg (by decide)]
  simp only [List.drop_succ_cons, List.drop_zero, parseKey, Option.some.injEq]
  change pctDecode (joinSlash (pathSegs [] (splitSlash (pctEnc setControls (pathPart key))))) = _
  rw [splitSlash_enc, pctDecode_joinSlash, pathSegs_decode, List.map_nil]

theorem takeWhile_full {p : Byte → Bool} (l : Bytes) (h : l.length ≤ (l.takeWhile p).length) : ∀ b ∈ l, p b = true := by
  induction l with
  | nil => simp
  | cons b l ih =>
    by_cases hb : p b = true
    · rw [List.takeWhile_cons_of_pos hb] at h
      simp only [List.length_cons] at h
      intro x hx
      simp only [List.mem_cons] at hx
      rcases hx with rfl | hx
      · exact hb
      · exact ih (by omega) x hx
    · rw [List.takeWhile_cons_of_neg hb] at h
      simp at h

theorem takeWhile_id {p : Byte → Bool} (l : Bytes) (h : ∀ b ∈ l, p b = true) : l.takeWhile p = l := by
  induction l with
  | nil => rfl
  | cons b l ih => rw [List.takeWhile_cons_of_pos (h b (by simp)), ih (fun x hx => h x (by simp [hx]))]

theorem dropWhile_length_le {p : Byte → Bool} (l : Bytes) : (l.dropWhile p).length ≤ l.length := by
  induction l with
  | nil => simp
  | cons b l ih =>
    by_cases hb : p b = true
    · rw [List.dropWhile_cons_of_pos hb]; simp only [List.length_cons]; omega
    · rw [List.dropWhile_cons_of_neg hb]; exact Nat.le_refl _

/-- the path part is the whole key exactly when nothing is cut and there is no backslash -/
theorem pathPart_length (key : Bytes) : (pathPart key).length ≤ key.length ∧
    ((pathPart key).length = key.length → key.getLast? ≠ some 32 ∧ 63 ∉ key ∧ 35 ∉ key ∧
      pathPart key = key.map (fun b => if b = 92 then 47 else b)) := by
  unfold pathPart
  rw [List.length_map]
  have h1 : ((key.reverse.dropWhile (fun b => decide (b = 32))).reverse).length ≤ key.length := by
    rw [List.length_reverse]; refine Nat.le_trans (dropWhile_length_le _) (by simp)
  generalize ht : (key.reverse.dropWhile (fun b => decide (b = 32))).reverse = t at h1
  have h2 : (t.takeWhile (fun b => decide (b ≠ 63 ∧ b ≠ 35))).length ≤ t.length := by
    clear ht h1
    induction t with
    | nil => simp
    | cons b l ih =>
      rw [List.takeWhile_cons]
      split
      · simp only [List.length_cons]; omega
      · simp
  refine ⟨by omega, fun h => ?_⟩
  have hlast : key.getLast? ≠ some 32 := by
    intro hl
    have : t.length < key.length := by
      have : key.reverse.head? = some 32 := by rw [List.head?_reverse]; exact hl
      cases hr : key.reverse with
      | nil => rw [hr] at this; simp at this
      | cons b r =>
        rw [hr] at this ht
        simp at this; subst this
        have hlen : key.length = r.length + 1 := by rw [← List.length_reverse, hr]; simp
        rw [← ht, List.length_reverse, List.dropWhile_cons_of_pos (by decide), hlen]
        have := dropWhile_length_le (p := fun b => decide (b = 32)) r
        omega
    omega
  have htk : t = key := by
    rw [← ht]
    cases hr : key.reverse with
    | nil => have : key = [] := by simpa using hr
             subst this; rfl
    | cons b r =>
      have hb : b ≠ 32 := by
        rintro rfl
        apply hlast
        rw [← List.head?_reverse, hr]; rfl
      rw [List.dropWhile_cons_of_neg (by simpa using hb), ← hr, List.reverse_reverse]
  subst htk
  have hall := takeWhile_full (p := fun b => decide (b ≠ 63 ∧ b ≠ 35)) t (by omega)
  refine ⟨hlast, ?_, ?_, ?_⟩
  · intro hm; simpa using hall _ hm
  · intro hm; simpa using hall _ hm
  · rw [takeWhile_id _ hall]

theorem segWeight_map_le (l : List Bytes) : segWeight (l.map pctDecode) ≤ segWeight l := by
  induction l with
  | nil => simp
  | cons x xs ih =>
    have := pctDecode_length_le x
    rw [List.map_cons, segWeight_cons, segWeight_cons]; omega

theorem decode_segs (segs : List Bytes) (h : segWeight (segs.map pctDecode) = segWeight segs) : segs.map pctDecode = segs := by
  induction segs with
  | nil => rfl
  | cons x xs ih =>
    have h1 := pctDecode_length _ x (Nat.le_refl _)
    have h2 := segWeight_map_le xs
    rw [List.map_cons, segWeight_cons, segWeight_cons] at h
    rw [List.map_cons, ih (by omega), h1.2 (by omega)]

/-- **C50 for the Rust client: exactly which keys survive.** The server uses the key given to the client if and only if
the key does not end in a space, has no `?`, `#` or backslash, no `.` or `..` segment and no `%` followed by two
hexadecimal digits. -/
theorem C50_rust_survives_iff (key : Bytes) :
    serverKey key = some key ↔ key.getLast? ≠ some 32 ∧ 63 ∉ key ∧ 35 ∉ key ∧ 92 ∉ key ∧
      (∀ s ∈ splitSlash key, s ≠ [46] ∧ s ≠ [46, 46]) ∧ ¬ hasEscape key := by
  rw [C50_rust_exact, Option.some.injEq]
  have hp := pathPart_length key
  constructor
  · intro h
    have hne : (splitSlash (pathPart key)).map pctDecode ≠ [] := by simpa using splitSlash_ne _
    have hw := resolveDots_weight ((splitSlash (pathPart key)).map pctDecode) []
    have h1 := joinSlash_length _ (hw.2.2.1 hne)
    have h2 := segWeight_map_le (splitSlash (pathPart key))
    have h3 := joinSlash_length _ (splitSlash_ne (pathPart key))
    rw [joinSlash_splitSlash] at h3
    rw [h] at h1
    have hw1 := hw.1
    rw [segWeight_nil] at hw1
    obtain ⟨a1, a2, a3, a4⟩ := hp.2 (by omega)
    have hds := decode_segs (splitSlash (pathPart key)) (by omega)
    rw [hds] at h hw
    have hnd : ∀ s ∈ splitSlash (pathPart key), s ≠ [46] ∧ s ≠ [46, 46] := by
      intro s hs
      by_cases hd : s = [46] ∨ s = [46, 46]
      · have := hw.2.1 ⟨s, hs, hd⟩
        rw [segWeight_nil] at this
        rw [hds] at h1
        omega
      · simpa using hd
    rw [resolveDots_plain _ hnd, List.reverse_nil, List.nil_append, joinSlash_splitSlash] at h
    have hnb : 92 ∉ key := by
      intro hm
      have : 92 ∈ pathPart key := by rw [h]; exact hm
      rw [a4] at this
      simp only [List.mem_map] at this
      obtain ⟨b, _, hb⟩ := this
      split at hb
      · exact absurd hb (by decide)
      · rename_i hn; exact hn hb
    refine ⟨a1, a2, a3, hnb, by rwa [h] at hnd, ?_⟩
    rw [← pctDecode_eq_iff]
    have := pctDecode_joinSlash (splitSlash (pathPart key))
    rwa [hds, joinSlash_splitSlash, h] at this
  · rintro ⟨a1, a2, a3, a4, a5, a6⟩
    have hpk : pathPart key = key := by
      unfold pathPart
      have h1 : (key.reverse.dropWhile (fun b => decide (b = 32))).reverse = key := by
        cases hr : key.reverse with
        | nil => have : key = [] := by simpa using hr
                 subst this; rfl
        | cons b r =>
          have hb : b ≠ 32 := by
            rintro rfl
            apply a1
            rw [← List.head?_reverse, hr]; rfl
          rw [List.dropWhile_cons_of_neg (by simpa using hb), ← hr, List.reverse_reverse]
      rw [h1, takeWhile_id _ (by
        intro b hb
        simp only [ne_eq, decide_eq_true_eq]
        exact ⟨by rintro rfl; exact a2 hb, by rintro rfl; exact a3 hb⟩)]
      conv => rhs; rw [← List.map_id key]
      apply List.map_congr_left
      intro b hb
      rw [if_neg (by rintro rfl; exact a4 hb)]; rfl
    rw [hpk]
    have hdec := (pctDecode_eq_iff key).2 a6
    have h1 := pctDecode_joinSlash (splitSlash key)
    rw [joinSlash_splitSlash, hdec] at h1
    have hne : (splitSlash key).map pctDecode ≠ [] := by simpa using splitSlash_ne _
    have h2 := joinSlash_length _ hne
    have h3 := joinSlash_length _ (splitSlash_ne key)
    rw [← h1] at h2
    rw [joinSlash_splitSlash] at h3
    rw [decode_segs _ (by omega), resolveDots_plain _ a5, List.reverse_nil, List.nil_append, joinSlash_splitSlash]

/-- a surviving key that has a percent sign: "100%/x" -/
example : serverKey [49, 48, 48, 37, 47, 120] = some [49, 48, 48, 37, 47, 120] := by
  refine (C50_rust_survives_iff _).2 ⟨by decide, by decide, by decide, by decide, by decide, ?_⟩
  rw [← pctDecode_eq_iff]
  simp [pctDecode, hexVal]

/-! ### C53: requests of the Rust client are authorised -/

theorem verifyToken_newToken_inv (S : Srv) {a b : Action} {e now : Nat} (ha : a.Valid) (hb : b.Valid) (he : e < 2 ^ 64)
    (hmac : S.mac (encAuth a e) = S.mac (encAuth b e) → encAuth a e = encAuth b e)
    (h : verifyToken S now (newToken S a e) b = true) : a = b := by
  obtain ⟨raw, hr, _, hm, _⟩ := verifyToken_inv h
  unfold newToken at hr
  rw [S.b64.dec_enc] at hr
  obtain rfl := Option.some.inj hr
  have h8 : (beBytes 8 e).length = 8 := length_beBytes 8 e
  have ht : (beBytes 8 e ++ S.mac (encAuth a e)).take 8 = beBytes 8 e := by
    rw [List.take_append_of_le_length (by omega)]; simp [List.take_of_length_le, h8]
  have hd : (beBytes 8 e ++ S.mac (encAuth a e)).drop 8 = S.mac (encAuth a e) := by
    rw [List.drop_append_of_le_length (by omega)]; simp [List.drop_of_length_le, h8]
  rw [ht, hd, beVal_beBytes_of_lt (n := 8) (by omega)] at hm
  exact (encAuth_inj ha hb he he (hmac hm.symm)).1

theorem serverKey_some (key : Bytes) : ∃ k, parseKey (urlPath (clientPath key)) = some k :=
  ⟨_, C50_rust_exact key⟩

/-- **C53 for the Rust client, exactly.** With authentication enabled, within 300 seconds of being sent, a request made by
a method of the Rust client for `key` is authorised if and only if the server understands the very same key (C50); otherwise it
is answered 401 and never reaches the store (MAC without collisions on the two messages compared). -/
theorem C53_rust_authorized_iff (S : Srv) (hauth : S.authEnabled = true) (c : ClientCall) (key : Bytes) (hc : c.key? = some key)
    (sent now : Nat) (hs : sent + 300 < 2 ^ 64) (hn : now < sent + 300)
    (hv : (c.actionFor key).Valid) (hv' : ∀ k, serverKey key = some k → (c.actionFor k).Valid)
    (hmac : ∀ k, S.mac (encAuth (c.actionFor key) (sent + 300)) = S.mac (encAuth (c.actionFor k) (sent + 300)) →
      encAuth (c.actionFor key) (sent + 300) = encAuth (c.actionFor k) (sent + 300)) :
    preflight S now (rustReq S sent c) ≠ .error 401 ↔ serverKey key = some key := by
  obtain ⟨k, hk⟩ := serverKey_some key
  have hsk : serverKey key = some k := hk
  have hiff : verifyAuth S now (clientToken S sent (c.actionFor key)) (c.actionFor k) = true ↔ k = key := by
    simp only [verifyAuth, hauth, Bool.not_true, Bool.false_or, clientToken]
    constructor
    · intro h
      have := verifyToken_newToken_inv S hv (hv' k hsk) hs (hmac k) h
      cases c <;> simp [ClientCall.key?] at hc <;> subst hc <;> simp [ClientCall.actionFor] at this <;> exact this.symm
    · rintro rfl; exact verifyToken_new S hs hn
  rw [hsk, Option.some.injEq, ← hiff]
  cases c with
  | batch b => simp [ClientCall.key?] at hc
  | commit k0 up rs =>
    simp only [ClientCall.key?, Option.some.injEq] at hc; subst hc
    simp only [rustReq, preflight, hk, ClientCall.actionFor]
    cases verifyAuth S now (clientToken S sent (.commit k0)) (.commit k) with
    | false => simp
    | true =>
      simp only [not_true_eq_false, if_false]
      split
      · simp
      · split <;> simp
  | create k0 n =>
    simp only [ClientCall.key?, Option.some.injEq] at hc; subst hc
    simp only [rustReq, preflight, hk, ClientCall.actionFor]
    cases verifyAuth S now (clientToken S sent (.create k0 n)) (.create k n) <;> simp
  | delete k0 =>
    simp only [ClientCall.key?, Option.some.injEq] at hc; subst hc
    simp only [rustReq, preflight, hk, ClientCall.actionFor]
    cases verifyAuth S now (clientToken S sent (.delete k0)) (.delete k) <;> simp
  | inspect k0 =>
    simp only [ClientCall.key?, Option.some.injEq] at hc; subst hc
    simp only [rustReq, preflight, hk, ClientCall.actionFor]
    cases verifyAuth S now (clientToken S sent (.inspect k0)) (.inspect k) <;> simp
  | read k0 a b =>
    simp only [ClientCall.key?, Option.some.injEq] at hc; subst hc
    simp only [rustReq, preflight, hk, ClientCall.actionFor]
    cases verifyAuth S now (clientToken S sent (.read k0)) (.read k) with
    | false => simp
    | true =>
      simp only [not_true_eq_false, if_false]
      split
      · rename_i e he
        have : e = 416 := by
          unfold rangeOf at he
          split at he
          · simp at he; omega
          · simp only at he; split at he <;> simp at he; omega
        subst this; simp
      · simp
  | write k0 up off data =>
    simp only [ClientCall.key?, Option.some.injEq] at hc; subst hc
    simp only [rustReq, preflight, hk, ClientCall.actionFor]
    cases verifyAuth S now (clientToken S sent (.write k0)) (.write k) with
    | false => simp
    | true =>
      simp only [not_true_eq_false, if_false]
      split <;> simp

/-- **C53 for the Rust client: what the server then does** is exactly what the method is named for, on the key given. -/
theorem C53_rust_calls (S : Srv) (key : Bytes) (hkey : serverKey key = some key) (sent now : Nat) (hs : sent + 300 < 2 ^ 64)
    (hn : now < sent + 300) :
    (∀ n, preflight S now (rustReq S sent (.create key n)) = .ok (.create key n)) ∧
    preflight S now (rustReq S sent (.delete key)) = .ok (.delete key) ∧
    preflight S now (rustReq S sent (.inspect key)) = .ok (.inspect key) ∧
    preflight S now (rustReq S sent (.read key none none)) = .ok (.read key 0 none) ∧
    (∀ a, a < 2 ^ 64 → preflight S now (rustReq S sent (.read key (some a) none)) = .ok (.read key a none)) ∧
    (∀ a b, a < 2 ^ 64 → b < 2 ^ 64 - 1 →
      preflight S now (rustReq S sent (.read key (some a) (some b))) = .ok (.read key a (some (b + 1)))) ∧
    (∀ tok size off data, tok.Valid → size < 2 ^ 64 →
      preflight S now (rustReq S sent (.write key (uploadToken S tok size) off data)) = .ok (.write tok off data.length [.ok data])) ∧
    ∀ body, preflight S now (rustReq S sent (.batch body)) = .ok (.batch body) := by
  have hk : parseKey (urlPath (clientPath key)) = some key := hkey
  have hv : ∀ a : Action, verifyAuth S now (clientToken S sent a) a = true := by
    intro a; exact verifyAuth_new S hs hn
  refine ⟨fun n => ?_, ?_, ?_, ?_, fun a ha => ?_, fun a b ha hb => ?_, fun tok size off data ht hsz => ?_, fun body => ?_⟩
  · simp [rustReq, preflight, hk, hv]
  · simp [rustReq, preflight, hk, hv]
  · simp [rustReq, preflight, hk, hv]
  · simp [rustReq, preflight, hk, hv, clientRange, reqRanges, rangeOf, rangeOf.stopOf]
  · have hr : reqRanges (clientRange (some a) none) = [(.included a, .unbounded)] :=
      parseRanges_text (some a) none (by simpa using ha) (by simp)
    simp only [rustReq, preflight, hk, hv, hr]
    rfl
  · have hr : reqRanges (clientRange (some a) (some b)) = [(.included a, .included b)] :=
      parseRanges_text (some a) (some b) (by simpa using ha) (by simp; omega)
    simp only [rustReq, preflight, hk, hv, hr]
    have : rangeOf [(.included a, .included b)] = .ok (a, some ((b + 1) % 2 ^ 64)) := rfl
    rw [this, Nat.mod_eq_of_lt (by omega)]
    rfl
  · simp [rustReq, preflight, hk, hv, parseUpload_uploadToken S ht hsz]
  · simp [rustReq, preflight, hv]

/-- the premises are met by the server `exSrv` and reading "k"; "a?b" is refused -/
example : preflight exSrv 10 (rustReq exSrv 0 (.read [107] none none)) = .ok (.read [107] 0 none) :=
  (C53_rust_calls exSrv [107] ((C50_rust_survives_iff _).2
    ⟨by decide, by decide, by decide, by decide, by decide, by rw [← pctDecode_eq_iff]; simp [pctDecode]⟩) 0 10 (by decide) (by decide)).2.2.2.1

example : serverKey [97, 63, 98] ≠ some [97, 63, 98] := fun h => ((C50_rust_survives_iff _).1 h).2.1 (by decide)

end Props
end Blobd
