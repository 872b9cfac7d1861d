import Verif.Spec.Wire
import Verif.Props.RustClient
import Verif.Props.Cli
set_option autoImplicit false
/-! # Query strings round-trip -/
namespace Blobd
namespace Http

open MP (Bytes)
open Props

theorem hex_not_special (n : Nat) (h : n < 16) : hexDigit n ≠ 43 ∧ hexDigit n ≠ 38 ∧ hexDigit n ≠ 61 := by
  have : ∀ n, n < 16 → hexDigit n ≠ 43 ∧ hexDigit n ≠ 38 ∧ hexDigit n ≠ 61 := by decide
  exact this n h

theorem setForm_plain (b : Byte) : setForm b = false → b ≠ 43 ∧ b ≠ 38 ∧ b ≠ 61 := by
  revert b; apply byte_forall; decide +kernel

theorem formEnc_cons (b : Byte) (l : Bytes) : formEnc (b :: l) =
    (if b = 32 then [43] else if setForm b then [37, hexDigit (b.toNat / 16), hexDigit (b.toNat % 16)] else [b]) ++ formEnc l := rfl

theorem formEnc_plus (l : Bytes) : (formEnc l).map (fun b => if b = 43 then 32 else b) = pctEnc (fun b => setForm b && b != 32) l := by
  induction l with
  | nil => rfl
  | cons b l ih =>
    rw [formEnc_cons, pctEnc_cons, List.map_append, ih]
    congr 1
    have hb := b.toNat_lt
    by_cases h : b = 32
    · subst h; rfl
    · rw [if_neg h]
      cases hs : setForm b with
      | false =>
        have := setForm_plain b hs
        simp [this.1]
      | true =>
        have h1 := hex_not_special (b.toNat / 16) (by omega)
        have h2 := hex_not_special (b.toNat % 16) (by omega)
        simp [h, h1.1, h2.1]

theorem formDec_formEnc (l : Bytes) : formDec (formEnc l) = l := by
  unfold formDec
  rw [formEnc_plus]
  exact pctDecode_enc' _ rfl l

theorem formEnc_no (l : Bytes) : 38 ∉ formEnc l ∧ 61 ∉ formEnc l := by
  induction l with
  | nil => exact ⟨by simp [formEnc], by simp [formEnc]⟩
  | cons b l ih =>
    have hb := b.toNat_lt
    have h1 := hex_not_special (b.toNat / 16) (by omega)
    have h2 := hex_not_special (b.toNat % 16) (by omega)
    rw [formEnc_cons]
    by_cases h : b = 32
    · simp [h, ih.1, ih.2]
    · rw [if_neg h]
      cases hs : setForm b with
      | false =>
        have := setForm_plain b hs
        simp [Ne.symm this.2.1, Ne.symm this.2.2, ih.1, ih.2]
      | true => simp [Ne.symm h1.2.1, Ne.symm h1.2.2, Ne.symm h2.2.1, Ne.symm h2.2.2, ih.1, ih.2]

theorem formPair_no (p : List Char × List Char) : 38 ∉ formPair p := by
  unfold formPair
  simp [(formEnc_no (ascii p.1)).1, (formEnc_no (ascii p.2)).1]

theorem splitAmp_ne (l : Bytes) : splitAmp l ≠ [] := by
  cases l with
  | nil => simp [splitAmp]
  | cons c r =>
    simp only [splitAmp]
    split
    · simp
    · split <;> simp

theorem splitAmp_append (a b : Bytes) : splitAmp (a ++ 38 :: b) = splitAmp a ++ splitAmp b := by
  induction a with
  | nil => simp [splitAmp]
  | cons c a ih =>
    by_cases h : c = 38
    · simp [splitAmp, h, ih]
    · simp only [List.cons_append, splitAmp, if_neg h, ih]
      cases hs : splitAmp a with
      | nil => exact absurd hs (splitAmp_ne a)
      | cons x xs => simp

theorem splitAmp_no {l : Bytes} (h : 38 ∉ l) : splitAmp l = [l] := by
  induction l with
  | nil => rfl
  | cons c l ih =>
    have hc : c ≠ 38 := fun e => h (by simp [e])
    simp only [splitAmp, if_neg hc, ih (fun e => h (by simp [e]))]

theorem decodePair_formPair (p : List Char × List Char) : decodePair (formPair p) = (ascii p.1, ascii p.2) := by
  have h1 : ∀ b ∈ formEnc (ascii p.1), (decide (b ≠ 61)) = true := by
    intro b hb
    simp only [decide_eq_true_eq]
    rintro rfl
    exact (formEnc_no _).2 hb
  unfold decodePair formPair
  rw [List.takeWhile_append_of_pos h1, List.dropWhile_append_of_pos h1]
  simp [formDec_formEnc]

theorem params_nil : params [] = [] := rfl

theorem params_formPair (p : List Char × List Char) : params (formPair p) = [(ascii p.1, ascii p.2)] := by
  have hne : (formPair p).isEmpty = false := by
    unfold formPair
    cases formEnc (ascii p.1) <;> rfl
  unfold params
  rw [splitAmp_no (formPair_no p)]
  simp [hne, decodePair_formPair]

theorem params_appendPair (q : Bytes) (p : List Char × List Char) : params (appendPair q p) = params q ++ [(ascii p.1, ascii p.2)] := by
  unfold appendPair
  by_cases h : q = []
  · rw [if_pos h, h, params_formPair]; rfl
  · rw [if_neg h, ← params_formPair p]
    unfold params
    rw [splitAmp_append, List.filter_append, List.map_append]

theorem params_appendPairs (ps : List (List Char × List Char)) : ∀ q, params (appendPairs q ps) = params q ++ ps.map (fun p => (ascii p.1, ascii p.2)) := by
  induction ps with
  | nil => intro q; simp [appendPairs]
  | cons p ps ih =>
    intro q
    have := ih (appendPair q p)
    unfold appendPairs at this ⊢
    rw [List.foldl_cons, this, params_appendPair]
    simp

theorem text_ascii {s : List Char} (h : Ascii s) : text (ascii s) = s := by
  induction s with
  | nil => rfl
  | cons c s ih =>
    have hc : c.toNat < 128 := h c (by simp)
    have := ih (fun d hd => h d (by simp [hd]))
    simp only [text, ascii, List.map_cons, List.map_map] at this ⊢
    rw [this]
    congr 1
    rw [UInt8.toNat_ofNat', Nat.mod_eq_of_lt (by omega), Char.ofNat_toNat]

theorem Ascii.b64 {c : Char} (h : B64Char c) : c.toNat < 128 := by unfold B64Char at h; omega

theorem ascii_b64 (e : B64) (b : Bytes) : Ascii (e.enc b) := fun c hc => Ascii.b64 (e.alphabet b c hc)

theorem ascii_decStr (n : Nat) : Ascii (decStr n) := by
  intro c hc
  obtain ⟨d, hd, rfl⟩ := decStr_digit n c hc
  rw [toNat_ofNat_small (by omega)]; omega

theorem ascii_joinComma {l : List (List Char)} (h : ∀ s ∈ l, Ascii s) : Ascii (joinComma l) := by
  induction l with
  | nil => intro c hc; simp [joinComma] at hc
  | cons x l ih =>
    have hx := h x (by simp)
    cases l with
    | nil => simpa [joinComma] using hx
    | cons y l =>
      intro c hc
      rw [joinComma] at hc
      rcases List.mem_append.1 hc with hc | hc
      · exact hx c hc
      · rcases List.mem_cons.1 hc with rfl | hc
        · decide
        · exact ih (fun s hs => h s (by simp [hs])) c hc

theorem field_own {ps own : List (Bytes × Bytes)} {name v : List Char} (hv : Ascii v)
    (ho : own.filter (fun p => p.1 = ascii name) = [(ascii name, ascii v)]) [Decidable (Taken ps name)] :
    field (ps ++ own) name = if Taken ps name then none else some (some v) := by
  unfold field
  rw [List.filter_append, ho]
  by_cases h : Taken ps name
  · obtain ⟨p, hp, e⟩ := h
    rw [if_pos ⟨p, hp, e⟩]
    have hm : p ∈ ps.filter (fun p => decide (p.1 = ascii name)) := List.mem_filter.2 ⟨hp, by simpa using e⟩
    obtain ⟨a, b, hab⟩ := List.append_of_mem hm
    rw [hab]
    cases a with
    | nil => cases b <;> rfl
    | cons x a => cases a <;> rfl
  · rw [if_neg h]
    have : ps.filter (fun p => decide (p.1 = ascii name)) = [] := by
      rw [List.filter_eq_nil_iff]
      intro p hp hq
      exact h ⟨p, hp, by simpa using hq⟩
    rw [this]
    simp [text_ascii hv]

/-! ### The extractors -/

/-- the request a wire request stands for, if it is well-formed -/
def wireReq (m : Method) (path : Bytes) (range : Option (List Char)) (body : Bytes) (up rs t : List Char) (n : Nat) : Option Req :=
  match m with
  | .put => some (.commit path up rs t)
  | .post => some (.create path n t)
  | .delete => some (.delete path t)
  | .head => some (.inspect path t)
  | .get => some (.read path range t)
  | .patch => some (.write path n body.length up t [.ok body])
  | _ => none

/-- the parameters of each method, in the order the clients append them -/
def ownParams (m : Method) (up rs t : List Char) (n : Nat) : List (List Char × List Char) :=
  match m with
  | .put => [(pUpload, up), (pReceipts, rs), (pT, t)]
  | .post => [(pSize, decStr n), (pT, t)]
  | .patch => [(pOffset, decStr n), (pUpload, up), (pT, t)]
  | _ => [(pT, t)]

theorem extract_own {m : Method} {path q0 body : Bytes} {range : Option (List Char)} {up rs t : List Char} {n : Nat} {req : Req}
    (hp : path ≠ [47]) (hu : Ascii up) (hr : Ascii rs) (ht : Ascii t) (hn : n < 2 ^ 64)
    (hreq : wireReq m path range body up rs t n = some req) (len : Option Nat) (hl : m = .patch → len = some body.length)
    [Decidable (∃ p ∈ ownParams m up rs t n, Taken (params q0) p.1)] :
    extract ⟨m, path, appendPairs q0 (ownParams m up rs t n), range, len, body⟩ =
      if ∃ p ∈ ownParams m up rs t n, Taken (params q0) p.1 then .error 400 else .ok req := by
  classical
  have hparse : parseU64 (decStr n) = some n := parseU64_decStr hn
  have hT : ∀ {own : List (Bytes × Bytes)}, own.filter (fun p => p.1 = ascii pT) = [(ascii pT, ascii t)] →
      field (params q0 ++ own) pT = if Taken (params q0) pT then none else some (some t) := fun h => field_own ht h
  cases m with
  | options => cases hreq
  | other => cases hreq
  | put =>
    cases hreq
    have h1 : field (params (appendPairs q0 (ownParams .put up rs t n))) pUpload = if Taken (params q0) pUpload then none else some (some up) := by
      rw [params_appendPairs]
      exact field_own hu (by simp [ownParams, pUpload, pReceipts, pT, ascii])
    have h2 : field (params (appendPairs q0 (ownParams .put up rs t n))) pReceipts = if Taken (params q0) pReceipts then none else some (some rs) := by
      rw [params_appendPairs]
      exact field_own hr (by simp [ownParams, pUpload, pReceipts, pT, ascii])
    have h3 : field (params (appendPairs q0 (ownParams .put up rs t n))) pT = if Taken (params q0) pT then none else some (some t) := by
      rw [params_appendPairs]
      exact hT (by simp [ownParams, pUpload, pReceipts, pT, ascii])
    simp only [extract, route, if_neg hp, fieldStr, fieldT, h1, h2, h3]
    simp only [ownParams, List.mem_cons, List.not_mem_nil, or_false, exists_eq_or_imp, exists_eq_left]
    by_cases a : Taken (params q0) pUpload <;> by_cases b : Taken (params q0) pReceipts <;> by_cases c : Taken (params q0) pT <;> simp [a, b, c]
  | post =>
    cases hreq
    have h1 : field (params (appendPairs q0 (ownParams .post up rs t n))) pSize = if Taken (params q0) pSize then none else some (some (decStr n)) := by
      rw [params_appendPairs]
      exact field_own (ascii_decStr n) (by simp [ownParams, pSize, pT, ascii])
    have h3 : field (params (appendPairs q0 (ownParams .post up rs t n))) pT = if Taken (params q0) pT then none else some (some t) := by
      rw [params_appendPairs]
      exact hT (by simp [ownParams, pSize, pT, ascii])
    simp only [extract, route, if_neg hp, fieldU64, fieldStr, fieldT, h1, h3]
    simp only [ownParams, List.mem_cons, List.not_mem_nil, or_false, exists_eq_or_imp, exists_eq_left]
    by_cases a : Taken (params q0) pSize <;> by_cases c : Taken (params q0) pT <;> simp [a, c, hparse]
  | patch =>
    cases hreq
    have h1 : field (params (appendPairs q0 (ownParams .patch up rs t n))) pOffset = if Taken (params q0) pOffset then none else some (some (decStr n)) := by
      rw [params_appendPairs]
      exact field_own (ascii_decStr n) (by simp [ownParams, pOffset, pUpload, pT, ascii])
    have h2 : field (params (appendPairs q0 (ownParams .patch up rs t n))) pUpload = if Taken (params q0) pUpload then none else some (some up) := by
      rw [params_appendPairs]
      exact field_own hu (by simp [ownParams, pOffset, pUpload, pT, ascii])
    have h3 : field (params (appendPairs q0 (ownParams .patch up rs t n))) pT = if Taken (params q0) pT then none else some (some t) := by
      rw [params_appendPairs]
      exact hT (by simp [ownParams, pOffset, pUpload, pT, ascii])
    simp only [extract, route, if_neg hp, fieldU64, fieldStr, fieldT, h1, h2, h3, hl rfl]
    simp only [ownParams, List.mem_cons, List.not_mem_nil, or_false,
      exists_eq_or_imp, exists_eq_left]
    by_cases a : Taken (params q0) pOffset <;> by_cases b : Taken (params q0) pUpload <;> by_cases c : Taken (params q0) pT <;> simp [a, b, c, hparse]
  | get =>
    cases hreq
    have h3 : field (params (appendPairs q0 (ownParams .get up rs t n))) pT = if Taken (params q0) pT then none else some (some t) := by
      rw [params_appendPairs]
      exact hT (by simp [ownParams, pT, ascii])
    simp only [extract, route, if_neg hp, fieldT, h3]
    simp only [ownParams, List.mem_cons, List.not_mem_nil, or_false, exists_eq_left]
    by_cases c : Taken (params q0) pT <;> simp [c]
  | head =>
    cases hreq
    have h3 : field (params (appendPairs q0 (ownParams .head up rs t n))) pT = if Taken (params q0) pT then none else some (some t) := by
      rw [params_appendPairs]
      exact hT (by simp [ownParams, pT, ascii])
    simp only [extract, route, if_neg hp, fieldT, h3]
    simp only [ownParams, List.mem_cons, List.not_mem_nil, or_false, exists_eq_left]
    by_cases c : Taken (params q0) pT <;> simp [c]
  | delete =>
    cases hreq
    have h3 : field (params (appendPairs q0 (ownParams .delete up rs t n))) pT = if Taken (params q0) pT then none else some (some t) := by
      rw [params_appendPairs]
      exact hT (by simp [ownParams, pT, ascii])
    simp only [extract, route, if_neg hp, fieldT, h3]
    simp only [ownParams, List.mem_cons, List.not_mem_nil, or_false, exists_eq_left]
    by_cases c : Taken (params q0) pT <;> simp [c]

/-! ### The URLs of the clients -/

theorem drop_no {p : Byte → Bool} {l : Bytes} (h : ∀ b ∈ l, p b = true) : l.dropWhile p = [] := by
  induction l with
  | nil => rfl
  | cons a l ih =>
    rw [List.dropWhile_cons_of_pos (h a (by simp)), ih (fun b hb => h b (by simp [hb]))]

theorem urlQuery_no {s : Bytes} (h : 63 ∉ s) : urlQuery s = [] := by
  have hs : ∀ b ∈ ((s.reverse.dropWhile (fun b => b.toNat ≤ 32)).reverse).takeWhile (fun b => decide (b ≠ 35)), decide (b ≠ 63) = true := by
    intro b hb
    have h1 := (List.takeWhile_prefix _).subset hb
    rw [List.mem_reverse] at h1
    have h2 := (List.dropWhile_suffix _).subset h1
    rw [List.mem_reverse] at h2
    simp only [decide_eq_true_eq]
    rintro rfl
    exact h h2
  unfold urlQuery
  simp only [drop_no hs]
  rfl

theorem clientPath_no {key : Bytes} (h : 63 ∉ key) : 63 ∉ clientPath key := by
  unfold clientPath pctEnc
  intro hm
  rcases List.mem_cons.1 hm with h1 | h1
  · exact absurd h1 (by decide)
  · obtain ⟨x, hx, hb⟩ := List.mem_flatMap.1 h1
    have hx' := x.toNat_lt
    have hex : ∀ n, n < 16 → hexDigit n ≠ 63 := by decide
    split at hb
    · simp only [List.mem_cons, List.not_mem_nil, or_false] at hb
      rcases hb with hb | hb | hb
      · exact absurd hb (by decide)
      · exact hex _ (by omega) hb.symm
      · exact hex _ (by omega) hb.symm
    · simp only [List.mem_singleton] at hb
      exact h (hb ▸ hx)

theorem jsPath_no (key : Bytes) : 63 ∉ jsPath key := by
  unfold jsPath
  intro hm
  rcases List.mem_cons.1 hm with h1 | h1
  · exact absurd h1 (by decide)
  · rcases mem_joinSlash h1 with h2 | ⟨s, hs, h2⟩
    · exact absurd h2 (by decide)
    · obtain ⟨x, _, rfl⟩ := List.mem_map.1 hs
      exact (mem_encC h2).2.1 rfl

theorem parseKey_root {path key : Bytes} (h : parseKey path = some key) (hk : key ≠ []) : path ≠ [47] := by
  rintro rfl
  simp [parseKey, pctDecode] at h
  exact hk h

/-! ### Numbers in headers -/

theorem parseDigitsTo_append (max acc : Nat) (a b : List Char) :
    parseDigitsTo max acc (a ++ b) = (parseDigitsTo max acc a).bind (fun x => parseDigitsTo max x b) := by
  induction a generalizing acc with
  | nil => rfl
  | cons c a ih =>
    simp only [List.cons_append, parseDigitsTo]
    cases digitVal c with
    | none => rfl
    | some d =>
      simp only
      split
      · exact ih _
      · rfl

theorem parseDigitsTo_decStr (max n : Nat) (h : n < max) : parseDigitsTo max 0 (decStr n) = some n := by
  induction n using Nat.strongRecOn with
  | ind n ih =>
    unfold decStr
    split
    · rename_i hn
      simp [parseDigitsTo, digitVal_digit hn, h]
    · rename_i hn
      rw [parseDigitsTo_append, ih (n / 10) (by omega) (by omega)]
      simp only [Option.bind_some, parseDigitsTo, digitVal_digit (Nat.mod_lt n (by omega : 0 < 10))]
      rw [show n / 10 * 10 + n % 10 = n by omega, if_pos h]

theorem parseU128_decStr {n : Nat} (h : n < 2 ^ 128) : parseU128 (decStr n) = some n := by
  cases hd : decStr n with
  | nil => exact absurd hd (decStr_ne_nil n)
  | cons c r =>
    have hc : c ≠ '+' := by
      rintro rfl
      exact decStr_no (n := n) (c := '+') (by decide) (by rw [hd]; simp)
    rw [parseU128, if_neg hc, ← hd]
    exact parseDigitsTo_decStr _ n h

theorem parseNat_append (acc : Nat) (a b : List Char) :
    parseNat acc (a ++ b) = (parseNat acc a).bind (fun x => parseNat x b) := by
  induction a generalizing acc with
  | nil => rfl
  | cons c a ih =>
    simp only [List.cons_append, parseNat]
    cases digitVal c with
    | none => rfl
    | some d => exact ih _

theorem parseNat_decStr (n : Nat) : parseNat 0 (decStr n) = some n := by
  induction n using Nat.strongRecOn with
  | ind n ih =>
    unfold decStr
    split
    · rename_i hn
      simp [parseNat, digitVal_digit hn]
    · rename_i hn
      rw [parseNat_append, ih (n / 10) (by omega)]
      simp only [Option.bind_some, parseNat, digitVal_digit (Nat.mod_lt n (by omega : 0 < 10))]
      rw [show n / 10 * 10 + n % 10 = n by omega]

theorem allReceipts_ok (S : Srv) (tok : Tok) (size : Nat) :
    verifyReceipts S (splitComma (joinComma (allReceipts S tok size))) tok size = true := by
  simp only [verifyReceipts, List.all_eq_true, List.mem_range]
  intro p hp
  have hne : allReceipts S tok size ≠ [] := by
    intro h
    have := congrArg List.length h
    simp [allReceipts] at this
    omega
  rw [splitComma_joinComma _ hne]
  · simp [receiptOk, allReceipts, hp, writeReceipt, S.b64.dec_enc, S.mac_len]
  · intro x hx
    obtain ⟨i, _, rfl⟩ := List.mem_map.1 hx
    exact S.b64.no_comma _

end Http
end Blobd
