import Verif.Spec.JsClient
import Verif.Spec.Batch
import Verif.Proofs.Http
import Verif.Props.Http
import Verif.Props.Url
import Verif.Props.HttpRead
import Verif.Props.Batch
set_option autoImplicit false
/-!
# The JavaScript client (C53 tokens, C50 keys, C44 ranges, C43 batches)
-/
namespace Blobd
namespace Props

open Http
open MP (Bytes takeN)
open RW

/-! ### C53: tokens -/

theorem jsAuth_ne (a b : Action) (e e' : Nat) : jsAuth a e ≠ encAuth b e' := by
  intro h
  have : (0x82 : Byte) = 0x92 := by
    have h' := congrArg List.head? h
    simpa [jsAuth, encAuth, MP.arr] using h'
  exact absurd this (by decide)

/-- **C53 is false of the code, for every token.** The JavaScript client authenticates a map of named fields, the server
an array of fields, so whatever the server's secret, the action, the expiry and the time, no token made by the
JavaScript client is accepted for any action (unless the MAC collides on two different messages). -/
theorem C53_violated_js_token_never_accepted (S : Srv) (a b : Action) (e now : Nat) (he : e < 2 ^ 64)
    (hmac : S.mac (jsAuth a e) = S.mac (encAuth b e) → jsAuth a e = encAuth b e) :
    verifyToken S now (jsToken S a e) b = false := by
  cases h : verifyToken S now (jsToken S a e) b with
  | false => rfl
  | true =>
    obtain ⟨raw, hr, _, hm, _⟩ := verifyToken_inv h
    unfold jsToken at hr
    rw [S.b64.dec_enc] at hr
    obtain rfl := Option.some.inj hr
    have h8 : (beBytes 8 e).length = 8 := length_beBytes 8 e
    have ht : (beBytes 8 e ++ S.mac (jsAuth a e)).take 8 = beBytes 8 e := by
      rw [List.take_append_of_le_length (by omega)]; simp [List.take_of_length_le, h8]
    have hd : (beBytes 8 e ++ S.mac (jsAuth a e)).drop 8 = S.mac (jsAuth a e) := by
      rw [List.drop_append_of_le_length (by omega)]; simp [List.drop_of_length_le, h8]
    rw [ht, hd, beVal_beBytes_of_lt (n := 8) (by omega)] at hm
    exact absurd (hmac hm.symm) (jsAuth_ne a b e e)

/-- **C53, consequence.** With authentication enabled, the server answers 401 to every request of every kind that
carries a token made by the JavaScript client, and never calls the store. -/
theorem C53_violated_js_requests_unauthorized (S : Srv) (hauth : S.authEnabled = true) (a : Action) (e now : Nat)
    (he : e < 2 ^ 64) (hmac : ∀ b, S.mac (jsAuth a e) = S.mac (encAuth b e) → jsAuth a e = encAuth b e)
    (req : Req) (hp : req.pathOk) (ht : req.token = jsToken S a e) : preflight S now req = .error 401 := by
  have hv : ∀ b, verifyAuth S now (jsToken S a e) b = false := by
    intro b
    simp [verifyAuth, hauth, C53_violated_js_token_never_accepted S a b e now he (hmac b)]
  have hk : ∀ p : Bytes, p.head? = some 47 → ∃ k, parseKey p = some k := by
    intro p h
    cases p with
    | nil => simp at h
    | cons c p => simp at h; subst h; exact ⟨_, rfl⟩
  cases req with
  | batch t body => simp only [Req.token] at ht; subst ht; simp [preflight, hv]
  | commit p up rc t => simp only [Req.token] at ht; subst ht; obtain ⟨k, hk⟩ := hk p hp; simp [preflight, hv, hk]
  | create p n t => simp only [Req.token] at ht; subst ht; obtain ⟨k, hk⟩ := hk p hp; simp [preflight, hv, hk]
  | delete p t => simp only [Req.token] at ht; subst ht; obtain ⟨k, hk⟩ := hk p hp; simp [preflight, hv, hk]
  | inspect p t => simp only [Req.token] at ht; subst ht; obtain ⟨k, hk⟩ := hk p hp; simp [preflight, hv, hk]
  | read p r t => simp only [Req.token] at ht; subst ht; obtain ⟨k, hk⟩ := hk p hp; simp [preflight, hv, hk]
  | write p o l up t body => simp only [Req.token] at ht; subst ht; obtain ⟨k, hk⟩ := hk p hp; simp [preflight, hv, hk]

/-- the premises are met: the server `exSrv`, the JavaScript client's token for reading "k" -/
example : exSrv.authEnabled = true ∧
    (exSrv.mac (jsAuth (.read [107]) 50) = exSrv.mac (encAuth (.read [107]) 50) → jsAuth (.read [107]) 50 = encAuth (.read [107]) 50) := by
  decide +kernel

/-- decoder of a JavaScript binary, used only to show that the encoding is injective -/
def getBin : Bytes → Option (Bytes × Bytes)
  | [] => none
  | c :: r =>
    if c = 0xc4 then (takeN 1 r).bind (fun p => takeN (beVal p.1) p.2)
    else if c = 0xc5 then (takeN 2 r).bind (fun p => takeN (beVal p.1) p.2)
    else (takeN 4 r).bind (fun p => takeN (beVal p.1) p.2)

theorem getBin_jsBin {b : Bytes} (h : b.length < 2 ^ 32) (r : Bytes) : getBin (jsBin b ++ r) = some (b, r) := by
  unfold jsBin
  split
  · rw [List.append_assoc, List.cons_append, getBin, if_pos rfl, MP.takeN_append' (length_beBytes 1 _)]
    simp only [Option.bind_some]
    rw [beVal_beBytes_of_lt (n := 1) (by omega)]
    exact MP.takeN_append _ _
  split
  · rw [List.append_assoc, List.cons_append, getBin, if_neg (by decide), if_pos rfl, MP.takeN_append' (length_beBytes 2 _)]
    simp only [Option.bind_some]
    rw [beVal_beBytes_of_lt (n := 2) (by omega)]
    exact MP.takeN_append _ _
  · rw [List.append_assoc, List.cons_append, getBin, if_neg (by decide), if_neg (by decide), MP.takeN_append' (length_beBytes 4 _)]
    simp only [Option.bind_some]
    rw [beVal_beBytes_of_lt (n := 4) (by omega)]
    exact MP.takeN_append _ _

/-- decoder of a JavaScript action -/
def decJsAction : Bytes → Option (Action × Bytes)
  | [] => none
  | _ :: r => do
    let (_, r) ← MP.getStr r
    let (name, r) ← MP.getStr r
    if name = nBatch then some (.batchCreate, r)
    else
      let (_, r) ← MP.getStr r
      let (k, r) ← getBin r
      if name = nCommit then some (.commit k, r)
      else if name = nCreate then
        let (_, r) ← MP.getStr r
        let (n, r) ← MP.getUint r
        some (.create k n, r)
      else if name = nDelete then some (.delete k, r)
      else if name = nInspect then some (.inspect k, r)
      else if name = nRead then some (.read k, r)
      else some (.write k, r)

theorem decJsAction_jsAction {a : Action} (ha : a.Valid) (r : Bytes) : decJsAction (jsAction a ++ r) = some (a, r) := by
  have hs : ∀ {s : Bytes} (_ : s.length < 32) (r : Bytes), MP.getStr (MP.str s ++ r) = some (s, r) := MP.getStr_str
  cases a with
  | batchCreate =>
    simp [jsAction, decJsAction, hs (s := sType) (by decide), hs (s := nBatch) (by decide)]
  | create k n =>
    simp [jsAction, decJsAction, hs (s := sType) (by decide), hs (s := nCreate) (by decide), hs (s := sKey) (by decide),
      hs (s := sSize) (by decide), getBin_jsBin ha.1, MP.getUint_uint ha.2, show nCreate ≠ nBatch by decide,
      show nCreate ≠ nCommit by decide]
  | commit k =>
    have ha : k.length < 2 ^ 32 := ha
    simp [jsAction, decJsAction, hs (s := sType) (by decide), hs (s := nCommit) (by decide), hs (s := sKey) (by decide),
      getBin_jsBin ha, show nCommit ≠ nBatch by decide]
  | delete k =>
    have ha : k.length < 2 ^ 32 := ha
    simp [jsAction, decJsAction, hs (s := sType) (by decide), hs (s := nDelete) (by decide), hs (s := sKey) (by decide),
      getBin_jsBin ha, show nDelete ≠ nBatch by decide, show nDelete ≠ nCommit by decide, show nDelete ≠ nCreate by decide]
  | inspect k =>
    have ha : k.length < 2 ^ 32 := ha
    simp [jsAction, decJsAction, hs (s := sType) (by decide), hs (s := nInspect) (by decide), hs (s := sKey) (by decide),
      getBin_jsBin ha, show nInspect ≠ nBatch by decide, show nInspect ≠ nCommit by decide, show nInspect ≠ nCreate by decide,
      show nInspect ≠ nDelete by decide]
  | read k =>
    have ha : k.length < 2 ^ 32 := ha
    simp [jsAction, decJsAction, hs (s := sType) (by decide), hs (s := nRead) (by decide), hs (s := sKey) (by decide),
      getBin_jsBin ha, show nRead ≠ nBatch by decide, show nRead ≠ nCommit by decide, show nRead ≠ nCreate by decide,
      show nRead ≠ nDelete by decide, show nRead ≠ nInspect by decide]
  | write k =>
    have ha : k.length < 2 ^ 32 := ha
    simp [jsAction, decJsAction, hs (s := sType) (by decide), hs (s := nWrite) (by decide), hs (s := sKey) (by decide),
      getBin_jsBin ha, show nWrite ≠ nBatch by decide, show nWrite ≠ nCommit by decide, show nWrite ≠ nCreate by decide,
      show nWrite ≠ nDelete by decide, show nWrite ≠ nInspect by decide, show nWrite ≠ nRead by decide]

theorem jsAuth_inj {a a' : Action} {e : Nat} (ha : a.Valid) (ha' : a'.Valid) (h : jsAuth a e = jsAuth a' e) : a = a' := by
  simp only [jsAuth, List.cons_append, List.append_assoc, List.cons.injEq, true_and] at h
  have h := List.append_cancel_left h
  have h1 := decJsAction_jsAction ha (MP.str sExpires ++ MP.uint e)
  rw [h, decJsAction_jsAction ha'] at h1
  simp at h1
  exact h1.symm

/-- **C53 (what holds).** The JavaScript library's own verifier accepts a token of the JavaScript client exactly for the
action it was made for and until it expires (MAC without collisions on these two messages). -/
theorem C53_js_verify_partial (S : Srv) (dec : List Char → Bytes) (hdec : ∀ b, dec (S.b64.enc b) = b) (a b : Action)
    (ha : a.Valid) (hb : b.Valid) (e now : Nat) (he : e < 2 ^ 53)
    (hmac : S.mac (jsAuth a e) = S.mac (jsAuth b e) → jsAuth a e = jsAuth b e) :
    jsVerify S dec now (jsToken S a e) b = true ↔ a = b ∧ now < e := by
  have h8 : (beBytes 8 e).length = 8 := length_beBytes 8 e
  have ht : (beBytes 8 e ++ S.mac (jsAuth a e)).take 8 = beBytes 8 e := by
    rw [List.take_append_of_le_length (by omega)]; simp [List.take_of_length_le, h8]
  have hd : (beBytes 8 e ++ S.mac (jsAuth a e)).drop 8 = S.mac (jsAuth a e) := by
    rw [List.drop_append_of_le_length (by omega)]; simp [List.drop_of_length_le, h8]
  unfold jsVerify jsToken
  simp only [hdec, List.length_append, h8, S.mac_len, ht, hd, beVal_beBytes_of_lt (n := 8) (x := e) (by omega), macVerify]
  constructor
  · intro h
    simp at h
    exact ⟨jsAuth_inj ha hb (hmac h.1.symm), by omega⟩
  · rintro ⟨rfl, hn⟩
    simp
    omega

example : (Action.read [107]).Valid ∧ (Action.write [107]).Valid ∧
    (exSrv.mac (jsAuth (.read [107]) 50) = exSrv.mac (jsAuth (.write [107]) 50) → jsAuth (.read [107]) 50 = jsAuth (.write [107]) 50) := by
  refine ⟨by show (1 : Nat) < _; decide, by show (1 : Nat) < _; decide, ?_⟩
  decide +kernel

/-! ### C50: keys -/

theorem pctDecode_enc' (set : Byte → Bool) (h : set 37 = true) (l : Bytes) : pctDecode (pctEnc set l) = l := by
  induction l with
  | nil => simp [pctEnc, pctDecode]
  | cons b l ih =>
    simp only [pctEnc, List.flatMap_cons] at ih ⊢
    split
    · simp only [List.cons_append, List.nil_append]
      rw [pctDecode_pct, ih]
    · rename_i hb
      have : b ≠ 37 := by rintro rfl; exact hb h
      simp only [List.cons_append, List.nil_append]
      rw [pctDecode_cons this, ih]

theorem component_ok (b : Byte) : setComponent b = false →
    setPath b = false ∧ b ≠ 63 ∧ b ≠ 35 ∧ b ≠ 92 ∧ b ≠ 47 ∧ ¬ b.toNat ≤ 32 := by
  revert b; apply byte_forall; decide +kernel

/-- every byte of an encoded segment is harmless -/
theorem mem_encC {b : Byte} {s : Bytes} (h : b ∈ pctEnc setComponent s) :
    setPath b = false ∧ b ≠ 63 ∧ b ≠ 35 ∧ b ≠ 92 ∧ b ≠ 47 ∧ ¬ b.toNat ≤ 32 := by
  have hx : ∀ n, n < 16 → setPath (hexDigit n) = false ∧ hexDigit n ≠ 63 ∧ hexDigit n ≠ 35 ∧ hexDigit n ≠ 92 ∧
      hexDigit n ≠ 47 ∧ ¬ (hexDigit n).toNat ≤ 32 := by decide
  simp only [pctEnc, List.mem_flatMap] at h
  obtain ⟨x, _, hb⟩ := h
  have hx' := x.toNat_lt
  split at hb
  · simp at hb
    rcases hb with rfl | rfl | rfl
    · decide
    · exact hx _ (by omega)
    · exact hx _ (by omega)
  · rename_i hs
    simp at hb; subst hb
    exact component_ok b (by simpa using hs)

theorem pctEnc_none (set : Byte → Bool) (l : Bytes) (h : ∀ b ∈ l, set b = false) : pctEnc set l = l := by
  induction l with
  | nil => rfl
  | cons b l ih =>
    have hb := h b (by simp)
    simp only [pctEnc, List.flatMap_cons] at ih ⊢
    rw [ih (fun x hx => h x (by simp [hx]))]
    simp [hb]

theorem splitSlash_joinSlash (segs : List Bytes) (hne : segs ≠ []) (h : ∀ s ∈ segs, 47 ∉ s) :
    splitSlash (joinSlash segs) = segs := by
  have hone : ∀ (s : Bytes), 47 ∉ s → splitSlash s = [s] := by
    intro s hs
    induction s with
    | nil => rfl
    | cons c s ih =>
      simp only [List.mem_cons, not_or] at hs
      simp only [splitSlash, if_neg (Ne.symm hs.1), ih hs.2]
  have happ : ∀ (s r : Bytes), 47 ∉ s → splitSlash (s ++ 47 :: r) = s :: splitSlash r := by
    intro s r hs
    induction s with
    | nil => simp [splitSlash]
    | cons c s ih =>
      simp only [List.mem_cons, not_or] at hs
      simp only [List.cons_append, splitSlash, if_neg (Ne.symm hs.1), ih hs.2]
  induction segs with
  | nil => exact absurd rfl hne
  | cons s segs ih =>
    cases segs with
    | nil => exact hone s (h s (by simp))
    | cons t ts =>
      rw [joinSlash, happ _ _ (h s (by simp)), ih (by simp) (fun s hs => h s (by simp [hs]))]

theorem mem_joinSlash {b : Byte} {segs : List Bytes} (h : b ∈ joinSlash segs) : b = 47 ∨ ∃ s ∈ segs, b ∈ s := by
  induction segs with
  | nil => simp [joinSlash] at h
  | cons s segs ih =>
    cases segs with
    | nil => exact Or.inr ⟨s, by simp, by simpa [joinSlash] using h⟩
    | cons t ts =>
      simp only [joinSlash, List.mem_append, List.mem_cons] at h
      rcases h with h | h | h
      · exact Or.inr ⟨s, by simp, h⟩
      · exact Or.inl h
      · rcases ih h with h | ⟨u, hu, hb⟩
        · exact Or.inl h
        · exact Or.inr ⟨u, List.mem_cons_of_mem _ hu, hb⟩

theorem pathSegs_resolve (segs : List Bytes) : ∀ acc : List Bytes,
    pathSegs (acc.map (pctEnc setComponent)) (segs.map (pctEnc setComponent)) =
      (resolveDots acc segs).map (pctEnc setComponent) := by
  induction segs with
  | nil => intro acc; simp [pathSegs, resolveDots]
  | cons s segs ih =>
    intro acc
    have he : pctEnc setPath (pctEnc setComponent s) = pctEnc setComponent s :=
      pctEnc_none _ _ (fun b hb => (mem_encC hb).1)
    have hdd : isDotDot (pctEnc setComponent s) = true ↔ s = [46, 46] := by
      constructor
      · intro h; have := isDotDot_decode _ h; rwa [pctDecode_enc' _ (by decide)] at this
      · rintro rfl; decide
    have hd : isDot (pctEnc setComponent s) = true ↔ s = [46] := by
      constructor
      · intro h; have := isDot_decode _ h; rwa [pctDecode_enc' _ (by decide)] at this
      · rintro rfl; decide
    simp only [List.map_cons, pathSegs, he, resolveDots, hdd, hd]
    by_cases h1 : s = [46, 46]
    · rw [if_pos h1, if_pos h1]
      cases segs with
      | nil => simpa [pctEnc] using ih ([] :: acc.drop 1)
      | cons t ts => simpa using ih (acc.drop 1)
    · rw [if_neg h1, if_neg h1]
      by_cases h2 : s = [46]
      · rw [if_pos h2, if_pos h2]
        cases segs with
        | nil => simpa [pctEnc] using ih ([] :: acc)
        | cons t ts => simpa using ih acc
      · rw [if_neg h2, if_neg h2]
        exact ih (s :: acc)

theorem resolveDots_mem {s : Bytes} (segs : List Bytes) : ∀ acc : List Bytes, s ∈ resolveDots acc segs →
    s ∈ acc ∨ s ∈ segs ∨ s = [] := by
  induction segs with
  | nil => intro acc h; exact Or.inl (by simpa [resolveDots] using h)
  | cons t segs ih =>
    intro acc h
    simp only [resolveDots] at h
    split at h
    · rcases ih _ h with h | h | h
      · split at h
        · simp only [List.mem_cons] at h
          rcases h with h | h
          · exact Or.inr (Or.inr h)
          · exact Or.inl (List.mem_of_mem_drop h)
        · exact Or.inl (List.mem_of_mem_drop h)
      · exact Or.inr (Or.inl (by simp [h]))
      · exact Or.inr (Or.inr h)
    · split at h
      · rcases ih _ h with h | h | h
        · split at h
          · simp only [List.mem_cons] at h
            rcases h with h | h
            · exact Or.inr (Or.inr h)
            · exact Or.inl h
          · exact Or.inl h
        · exact Or.inr (Or.inl (by simp [h]))
        · exact Or.inr (Or.inr h)
      · rcases ih _ h with h | h | h
        · simp only [List.mem_cons] at h
          rcases h with h | h
          · exact Or.inr (Or.inl (by simp [h]))
          · exact Or.inl h
        · exact Or.inr (Or.inl (by simp [h]))
        · exact Or.inr (Or.inr h)

theorem splitSlash_no {l s : Bytes} (h : s ∈ splitSlash l) : 47 ∉ s := by
  induction l generalizing s with
  | nil => simp [splitSlash] at h; subst h; simp
  | cons c r ih =>
    unfold splitSlash at h
    split at h
    · simp at h
      rcases h with rfl | h
      · simp
      · exact ih h
    · rename_i hc
      cases hsp : splitSlash r with
      | nil => rw [hsp] at h; simp at h; subst h; simpa using Ne.symm hc
      | cons x xs =>
        rw [hsp] at h
        simp at h
        rcases h with rfl | h
        · have := ih (s := x) (by rw [hsp]; simp)
          simp [this, Ne.symm hc]
        · exact ih (by rw [hsp]; simp [h])

/-- **C50 for the JavaScript client, exactly.** For every key the server uses the key with its `.` and `..` segments
resolved; nothing else about the key changes, whatever bytes it has. -/
theorem C50_js_exact (key : Bytes) : jsServerKey key = some (joinSlash (resolveDots [] (splitSlash key))) := by
  have hne : (splitSlash key).map (pctEnc setComponent) ≠ [] := by simpa using splitSlash_ne key
  have hmem : ∀ b ∈ jsPath key, b ≠ 63 ∧ b ≠ 35 ∧ b ≠ 92 ∧ ¬ b.toNat ≤ 32 := by
    intro b hb
    simp only [jsPath, List.mem_cons] at hb
    rcases hb with rfl | hb
    · decide
    · rcases mem_joinSlash hb with rfl | ⟨s, hs, hb⟩
      · decide
      · simp only [List.mem_map] at hs
        obtain ⟨t, _, rfl⟩ := hs
        have := mem_encC hb
        exact ⟨this.2.1, this.2.2.1, this.2.2.2.1, this.2.2.2.2.2⟩
  have htrim : (((jsPath key).reverse.dropWhile (fun b => decide (b.toNat ≤ 32))).reverse) = jsPath key := by
    cases hr : (jsPath key).reverse with
    | nil => simp [jsPath] at hr
    | cons b r =>
      have hb : b ∈ jsPath key := by rw [← List.mem_reverse, hr]; simp
      rw [List.dropWhile_cons_of_neg (by simpa using (hmem b hb).2.2.2), ← hr, List.reverse_reverse]
  have htw : (jsPath key).takeWhile (fun b => decide (b ≠ 63 ∧ b ≠ 35)) = jsPath key := by
    have : ∀ (l : Bytes), (∀ b ∈ l, b ≠ 63 ∧ b ≠ 35) → l.takeWhile (fun b => decide (b ≠ 63 ∧ b ≠ 35)) = l := by
      intro l
      induction l with
      | nil => simp
      | cons b l ih =>
        intro hl
        have hb := hl b (by simp)
        rw [List.takeWhile_cons_of_pos (by simp [hb.1, hb.2]), ih (fun x hx => hl x (by simp [hx]))]
    exact this _ (fun b hb => ⟨(hmem b hb).1, (hmem b hb).2.1⟩)
  have hmap : (jsPath key).map (fun b => if b = 92 then 47 else b) = jsPath key := by
    conv => rhs; rw [← List.map_id (jsPath key)]
    apply List.map_congr_left
    intro b hb
    simp [(hmem b hb).2.2.1]
  unfold jsServerKey urlPath
  simp only [htrim, htw, hmap]
  have hdrop : (jsPath key).drop 1 = joinSlash ((splitSlash key).map (pctEnc setComponent)) := rfl
  rw [hdrop, splitSlash_joinSlash _ hne (by
    intro s hs h
    simp only [List.mem_map] at hs
    obtain ⟨t, _, rfl⟩ := hs
    exact (mem_encC h).2.2.2.2.1 rfl)]
  have hres := pathSegs_resolve (splitSlash key) []
  simp only [List.map_nil] at hres
  rw [hres]
  simp only [parseKey, Option.some.injEq]
  -- decode: slashes are separators, everything else decodes segment by segment
  have hset : ∀ s : Bytes, 47 ∉ s → pctEnc setComponent s = pctEnc (fun b => setComponent b && b != 47) s := by
    intro s hs
    simp only [pctEnc]
    have : ∀ b ∈ s, (if setComponent b = true then [(37 : Byte), hexDigit (b.toNat / 16), hexDigit (b.toNat % 16)] else [b]) =
        (if (setComponent b && b != 47) = true then [37, hexDigit (b.toNat / 16), hexDigit (b.toNat % 16)] else [b]) := by
      intro b hb
      have : b ≠ 47 := by rintro rfl; exact hs hb
      simp [this]
    clear hs
    induction s with
    | nil => rfl
    | cons b s ih =>
      simp only [List.flatMap_cons]
      rw [this b (by simp), ih (fun x hx => this x (by simp [hx]))]
  have hjoin : ∀ (l : List Bytes), joinSlash (l.map (pctEnc (fun b => setComponent b && b != 47))) =
      pctEnc (fun b => setComponent b && b != 47) (joinSlash l) := by
    intro l
    induction l with
    | nil => rfl
    | cons x xs ih =>
      cases xs with
      | nil => simp [joinSlash]
      | cons y ys =>
        simp only [List.map_cons, joinSlash] at ih ⊢
        rw [ih]
        simp [pctEnc]
  have hno : ∀ s ∈ resolveDots [] (splitSlash key), 47 ∉ s := by
    intro s hs
    rcases resolveDots_mem _ _ hs with h | h | h
    · simp at h
    · exact splitSlash_no h
    · simp [h]
  rw [List.map_congr_left (fun s hs => hset s (hno s hs)), hjoin, pctDecode_enc' _ (by decide)]

/-- length of a joined list plus one -/
def segWeight (l : List Bytes) : Nat := (l.map (fun s => s.length + 1)).sum

theorem joinSlash_length (l : List Bytes) (h : l ≠ []) : (joinSlash l).length + 1 = segWeight l := by
  induction l with
  | nil => exact absurd rfl h
  | cons x xs ih =>
    cases xs with
    | nil => simp [joinSlash, segWeight]
    | cons y ys =>
      have := ih (by simp)
      simp only [joinSlash, segWeight, List.length_append, List.length_cons, List.map_cons, List.sum_cons] at this ⊢
      omega

theorem segWeight_drop (l : List Bytes) (n : Nat) : segWeight (l.drop n) ≤ segWeight l := by
  induction l generalizing n with
  | nil => simp
  | cons x xs ih =>
    cases n with
    | zero => simp
    | succ n =>
      have := ih n
      simp only [List.drop_succ_cons, segWeight, List.map_cons, List.sum_cons] at this ⊢
      omega

theorem segWeight_cons (x : Bytes) (l : List Bytes) : segWeight (x :: l) = x.length + 1 + segWeight l := by simp [segWeight]
theorem segWeight_nil : segWeight [] = 0 := rfl

theorem resolveDots_weight (segs : List Bytes) : ∀ acc : List Bytes,
    segWeight (resolveDots acc segs) ≤ segWeight acc + segWeight segs ∧
    ((∃ s ∈ segs, s = [46] ∨ s = [46, 46]) → segWeight (resolveDots acc segs) < segWeight acc + segWeight segs) ∧
    (segs ≠ [] → resolveDots acc segs ≠ []) ∧ (acc ≠ [] → segs = [] → resolveDots acc segs ≠ []) := by
  induction segs with
  | nil =>
    intro acc
    have : segWeight acc.reverse = segWeight acc := by
      simp only [segWeight, List.map_reverse, List.sum_reverse]
    simp only [resolveDots, this, segWeight_nil]
    exact ⟨by omega, by simp, by simp, by simp⟩
  | cons s segs ih =>
    intro acc
    simp only [resolveDots]
    have hdrop := segWeight_drop acc 1
    split
    · rename_i hs
      subst hs
      have hl : ([46, 46] : Bytes).length = 2 := rfl
      cases segs with
      | nil =>
        obtain ⟨h1, _, _, h4⟩ := ih ([] :: acc.drop 1)
        rw [segWeight_cons, segWeight_nil, List.length_nil] at h1
        simp only [if_true]
        rw [segWeight_cons, segWeight_nil, hl]
        exact ⟨by omega, fun _ => by omega, fun _ => h4 (by simp) rfl, fun _ h => absurd h (by simp)⟩
      | cons t ts =>
        obtain ⟨h1, _, h3, _⟩ := ih (acc.drop 1)
        simp only [reduceCtorEq, if_false]
        rw [segWeight_cons [46, 46], hl]
        exact ⟨by omega, fun _ => by omega, fun _ => h3 (by simp), fun _ h => absurd h (by simp)⟩
    · split
      · rename_i _ hs
        subst hs
        have hl : ([46] : Bytes).length = 1 := rfl
        cases segs with
        | nil =>
          obtain ⟨h1, _, _, h4⟩ := ih ([] :: acc)
          rw [segWeight_cons, segWeight_nil, List.length_nil] at h1
          simp only [if_true]
          rw [segWeight_cons, segWeight_nil, hl]
          exact ⟨by omega, fun _ => by omega, fun _ => h4 (by simp) rfl, fun _ h => absurd h (by simp)⟩
        | cons t ts =>
          obtain ⟨h1, _, h3, _⟩ := ih acc
          simp only [reduceCtorEq, if_false]
          rw [segWeight_cons [46], hl]
          exact ⟨by omega, fun _ => by omega, fun _ => h3 (by simp), fun _ h => absurd h (by simp)⟩
      · rename_i n2 n1
        obtain ⟨h1, h2, h3, h4⟩ := ih (s :: acc)
        rw [segWeight_cons] at h1 h2
        rw [segWeight_cons]
        refine ⟨by omega, ?_, ?_, fun _ h => absurd h (by simp)⟩
        · rintro ⟨u, hu, hd⟩
          simp only [List.mem_cons] at hu
          rcases hu with rfl | hu
          · rcases hd with hd | hd
            · exact absurd hd n1
            · exact absurd hd n2
          · have := h2 ⟨u, hu, hd⟩
            omega
        · intro _
          cases segs with
          | nil => exact h4 (by simp) rfl
          | cons t ts => exact h3 (by simp)

theorem resolveDots_plain (segs : List Bytes) (h : ∀ s ∈ segs, s ≠ [46] ∧ s ≠ [46, 46]) : ∀ acc,
    resolveDots acc segs = acc.reverse ++ segs := by
  induction segs with
  | nil => intro acc; simp [resolveDots]
  | cons s segs ih =>
    intro acc
    have hs := h s (by simp)
    simp only [resolveDots, if_neg hs.2, if_neg hs.1]
    rw [ih (fun s hs => h s (by simp [hs]))]
    simp

/-- **C50 for the JavaScript client: exactly the keys without a `.` or `..` segment survive.** -/
theorem C50_js_survives_iff (key : Bytes) :
    jsServerKey key = some key ↔ ∀ s ∈ splitSlash key, s ≠ [46] ∧ s ≠ [46, 46] := by
  rw [C50_js_exact, Option.some.injEq]
  constructor
  · intro h s hs
    have hw := resolveDots_weight (splitSlash key) []
    by_cases hd : s = [46] ∨ s = [46, 46]
    · have h1 := hw.2.1 ⟨s, hs, hd⟩
      have h2 := joinSlash_length _ (hw.2.2.1 (splitSlash_ne key))
      have h3 := joinSlash_length _ (splitSlash_ne key)
      rw [h] at h2
      rw [joinSlash_splitSlash] at h3
      simp [segWeight] at h1 h2 h3
      omega
    · simpa using hd
  · intro h
    rw [resolveDots_plain _ h, List.reverse_nil, List.nil_append, joinSlash_splitSlash]

/-- the keys that the Rust client damages survive: "a%41?b#c\d " -/
example : jsServerKey [97, 37, 52, 49, 63, 98, 35, 99, 92, 100, 32] = some [97, 37, 52, 49, 63, 98, 35, 99, 92, 100, 32] :=
  (C50_js_survives_iff _).2 (by decide)

/-! ### C44: ranges -/

/-- **C44 for the JavaScript client.** `readObject(key, a, b)` with `a < b ≤ size` yields exactly the bytes from `a` up
to, not including, `b`; `readObject(key, a)` yields everything from `a` on. -/
theorem C44_js_range_exact (pages : Pages) (hp : PagesOk pages) (o : Obj) (dev : Mem) (lay : ObjectLayout)
    (hlay : calcObjectLayoutDirect pages o.size = some lay) (h64 : o.size < 2 ^ 64) (a : Nat) :
    (∀ b, a < b → b ≤ o.size → ∃ r, httpRead pages o dev (jsRange (some a) (some b)) = some (.ok r) ∧ r.status = 206 ∧
      r.contentLength = b - a ∧ r.body = ((contents pages lay dev o).drop a).take (b - a)) ∧
    (a < o.size → ∃ r, httpRead pages o dev (jsRange (some a) none) = some (.ok r) ∧ r.status = 206 ∧
      r.contentLength = o.size - a ∧ r.body = ((contents pages lay dev o).drop a).take (o.size - a)) := by
  constructor
  · intro b hab hb
    obtain ⟨c, rfl⟩ : ∃ c, b = c + 1 := ⟨b - 1, by omega⟩
    refine ⟨_, C44_bounded_range_exact pages hp o dev lay hlay a c (by omega) (by omega) h64, rfl, rfl, rfl⟩
  · intro ha
    exact ⟨_, C44_open_range_exact pages hp o dev lay hlay a ha h64, rfl, rfl, rfl⟩

/-- **C44: the two clients disagree.** For the same arguments `a < b < size` the Rust client's `read_object` yields one
byte more than the JavaScript client's: it treats `end` as inclusive. -/
theorem C44_rust_client_end_inclusive (pages : Pages) (hp : PagesOk pages) (o : Obj) (dev : Mem) (lay : ObjectLayout)
    (hlay : calcObjectLayoutDirect pages o.size = some lay) (h64 : o.size < 2 ^ 64) (a b : Nat) (hab : a < b) (hb : b < o.size) :
    ∃ r, httpRead pages o dev (clientRange (some a) (some b)) = some (.ok r) ∧ r.contentLength = b + 1 - a ∧
      r.body = ((contents pages lay dev o).drop a).take (b + 1 - a) :=
  ⟨_, C44_bounded_range_exact pages hp o dev lay hlay a b (by omega) hb h64, rfl, rfl⟩

/-- **C44, malformed ranges**: a range header that does not parse is not refused; the whole object
is sent with status 200. -/
theorem C44_malformed_range_ignored (pages : Pages) (hp : PagesOk pages) (o : Obj) (dev : Mem) (lay : ObjectLayout)
    (hlay : calcObjectLayoutDirect pages o.size = some lay) (s : List Char) (hs : parseRanges s = []) :
    ∃ r, httpRead pages o dev (some s) = some (.ok r) ∧ r.status = 200 ∧ r.contentLength = o.size ∧
      r.body = (contents pages lay dev o).take o.size := by
  have : httpRead pages o dev (some s) = httpRead pages o dev none := by
    have h1 : reqRanges (some s) = reqRanges none := hs
    simp only [httpRead, h1]
  rw [this]
  exact C44_whole_object pages hp o dev lay hlay

/-- **C44 is false of the JavaScript client for an end of zero**: `readObject(key, a, 0)` asks for `bytes=a--1`, which does
not parse, and so yields the whole object instead of nothing. -/
theorem C44_violated_js_end_zero (pages : Pages) (hp : PagesOk pages) (o : Obj) (dev : Mem) (lay : ObjectLayout)
    (hlay : calcObjectLayoutDirect pages o.size = some lay) (a : Nat) :
    ∃ r, httpRead pages o dev (jsRange (some a) (some 0)) = some (.ok r) ∧ r.status = 200 ∧ r.contentLength = o.size ∧
      r.body = (contents pages lay dev o).take o.size := by
  apply C44_malformed_range_ignored pages hp o dev lay hlay
  have hno : ∀ c : Char, c.toNat < 48 → c ≠ '-' → c ∉ decStr a ++ '-' :: ['-', '1'] := by
    intro c hc hd
    simp only [List.mem_append, List.mem_cons, List.not_mem_nil, or_false, not_or]
    exact ⟨decStr_no hc, hd, hd, by rintro rfl; revert hc; decide⟩
  unfold parseRanges
  rw [splitComma_no _ (hno _ (by decide) (by decide))]
  have : parseSpec (decStr a ++ '-' :: ['-', '1']) = none := by
    unfold parseSpec
    rw [trim_no _ (hno _ (by decide) (by decide)) (hno _ (by decide) (by decide)), splitDash_append _ _ (decStr_no (by decide))]
    have h2 : parseBound ['-', '1'] = none := by decide
    simp only [h2]
    split <;> simp_all
  simp [this]

/-! ### C43: batches -/

theorem jsEntry_eq (key data : Bytes) : jsEntry key data.length data = encodeEntry (key, data) := rfl

/-- **C43 for the JavaScript client.** With the declared sizes right and keys below 64 KiB the batch body of the
JavaScript client creates exactly the objects given, in order, as C43 says. -/
theorem C43_js_batch_is_sequence {σ : Type} (B : Store σ) (L : Nat) (hL : 0 < L) (es : List (Bytes × Bytes))
    (hk : ∀ e ∈ es, e.1.length < 2 ^ 16 ∧ e.2.length < 2 ^ 40) (s : σ) :
    batchCreate B L (es.flatMap (fun e => jsEntry e.1 e.2.length e.2)) s = createAll B L es s :=
  C43_batch_is_sequence B L hL es hk s

/-- **C43: what a wrong size does.** If the data of an object is longer than the declared size (a file that grew), the
excess is read as further objects: with `data = d ++ encodeBatch es`, declared as `d.length` bytes, the server creates
the object with contents `d` and then every object of `es`, whatever keys they name. -/
theorem C43_violated_excess_data_becomes_objects {σ : Type} (B : Store σ) (L : Nat) (hL : 0 < L) (key d : Bytes)
    (es : List (Bytes × Bytes)) (hk : key.length < 2 ^ 16) (hd : d.length < 2 ^ 40)
    (hes : ∀ e ∈ es, e.1.length < 2 ^ 16 ∧ e.2.length < 2 ^ 40) (s : σ) :
    batchCreate B L (jsEntry key d.length (d ++ encodeBatch es)) s = createAll B L ((key, d) :: es) s := by
  have := C43_batch_is_sequence B L hL ((key, d) :: es) (by
    intro e he
    simp only [List.mem_cons] at he
    rcases he with rfl | he
    · exact ⟨hk, hd⟩
    · exact hes e he) s
  rw [← this]
  congr 1
  simp [jsEntry, encodeBatch, encodeEntry]

end Props
end Blobd
