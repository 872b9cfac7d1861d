import Verif.Proofs.Wire
set_option autoImplicit false
/-!
# C79: what is given to a client library is what the server acts on, and its answer is what the caller gets

From the call of a method through URL, query string, headers and body to the store, and from the store's answer through status
and headers back to the caller. `store` is any store: it maps each call to its result.
-/
namespace Blobd
namespace Props
open Http
open MP (Bytes)

/-! ### The Rust client -/

theorem ownParams_names (c : ClientCall) (m : Method) (q : List (Bytes × Bytes)) (up rs t : List Char) (n : Nat)
    (h : (ownParams m up rs t n).map (·.1) = c.names) :
    (∃ p ∈ ownParams m up rs t n, Taken q p.1) ↔ ∃ name ∈ c.names, Taken q name := by
  rw [← h]
  simp

/-- Every request of the Rust client is understood as it was meant, unless the key has a `?` and what follows it repeats a
parameter of the method: then it is refused with 400. (`urlPath (clientPath key) ≠ [47]`: the key does not vanish in the URL,
see C79_violated_rust_empty_key.) -/
theorem C79_rust_request_exact (S : Srv) (now : Nat) (c : ClientCall) (key : Bytes) (hc : c.key? = some key) (hf : c.Fits)
    (hp : urlPath (clientPath key) ≠ [47]) [Decidable (∃ name ∈ c.names, Taken (params (urlQuery (clientPath key))) name)] :
    extract (rustWire S now true c) =
      if ∃ name ∈ c.names, Taken (params (urlQuery (clientPath key))) name then .error 400 else .ok (rustReq S now c) := by
  classical
  have hta : ∀ a, Ascii (clientToken S now a) := fun a => ascii_b64 _ _
  have key_of : ∀ {up rs t : List Char} {n : Nat} {m : Method} {range : Option (List Char)} {body : Bytes} {len : Option Nat} {req : Req},
      Ascii up → Ascii rs → Ascii t → n < 2 ^ 64 → (m = .patch → len = some body.length) →
      wireReq m (urlPath (clientPath key)) range body up rs t n = some req → (ownParams m up rs t n).map (·.1) = c.names →
      extract ⟨m, urlPath (clientPath key), appendPairs (urlQuery (clientPath key)) (ownParams m up rs t n), range, len, body⟩ =
        if ∃ name ∈ c.names, Taken (params (urlQuery (clientPath key))) name then .error 400 else .ok req := by
    intro up rs t n m range body len req h1 h2 h3 h4 h5 h6 h7
    rw [extract_own hp h1 h2 h3 h4 h6 len h5]
    simp only [ownParams_names c m _ up rs t n h7]
  have nil : Ascii [] := fun c hc => by cases hc
  cases c with
  | batch b => cases hc
  | commit k up rs =>
    cases hc
    exact key_of hf.1 (ascii_joinComma hf.2) (hta _) (n := 0) (m := .put) (by decide) (by simp) rfl rfl
  | create k n =>
    cases hc
    exact key_of nil nil (hta _) (m := .post) hf (by simp) rfl rfl
  | delete k =>
    cases hc
    exact key_of nil nil (hta _) (n := 0) (m := .delete) (by decide) (by simp) rfl rfl
  | inspect k =>
    cases hc
    exact key_of nil nil (hta _) (n := 0) (m := .head) (by decide) (by simp) rfl rfl
  | read k a b =>
    cases hc
    exact key_of nil nil (hta _) (n := 0) (m := .get) (by decide) (by simp) rfl rfl
  | write k up off data =>
    cases hc
    exact key_of hf.1 nil (hta _) (m := .patch) hf.2 (by simp) rfl rfl

theorem extract_batch {q body : Bytes} {t : List Char} (ht : Ascii t) (hq : q = appendPairs [] [(pT, t)]) (len : Option Nat) (range : Option (List Char)) :
    extract ⟨.post, [47], q, range, len, body⟩ = .ok (.batch t body) := by
  subst hq
  have : field (params (appendPairs [] [(pT, t)])) pT = some (some t) := by
    rw [params_appendPairs, params_nil]
    simp [field, text_ascii ht]
  simp [extract, route, fieldT, this]

/-- … so for the keys that reach the server unchanged (C50), other than the empty one, it always is. -/
theorem C79_rust_request (S : Srv) (now : Nat) (c : ClientCall) (key : Bytes) (hc : c.key? = some key) (hf : c.Fits)
    (hkey : serverKey key = some key) (hne : key ≠ []) : extract (rustWire S now true c) = .ok (rustReq S now c) := by
  classical
  have hq : urlQuery (clientPath key) = [] := urlQuery_no (clientPath_no ((C50_rust_survives_iff key).1 hkey).2.1)
  rw [C79_rust_request_exact S now c key hc hf (parseKey_root hkey hne), if_neg]
  rw [hq, params_nil]
  rintro ⟨_, _, _, hm, _⟩
  cases hm

theorem errStatus_range (e : RW.OpError) : 400 ≤ errStatus e ∧ errStatus e < 600 := by cases e <;> decide

/-- **Every method of the Rust client does what it says and returns what the store answered**, for keys that reach the server
unchanged, within 300 seconds. In each line the store is called once, with exactly the arguments given to the method. -/
theorem C79_rust_calls (S : Srv) (store : (c : Call) → ResOf c) (key : Bytes) (hkey : serverKey key = some key) (hne : key ≠ [])
    (sent now : Nat) (hs : sent + 300 < 2 ^ 64) (hn : now < sent + 300) :
    (∀ size, size < 2 ^ 64 → rustCall S sent now store true (.create key size) =
      handOn (store (.create key size)) (fun tok => .created (uploadToken S tok size))) ∧
    (∀ tok size off data, tok.Valid → size < 2 ^ 64 → off < 2 ^ 64 →
      rustCall S sent now store true (.write key (uploadToken S tok size) off data) =
        handOn (store (.write tok off data.length [.ok data])) (fun _ => .written (writeReceipt S tok (off / 2 ^ S.pages.lpage)))) ∧
    (∀ tok size, tok.Valid → size < 2 ^ 64 → rustCall S sent now store true (.commit key (uploadToken S tok size) (allReceipts S tok size)) =
      handOn (store (.commit tok)) (fun _ => .done)) ∧
    (rustCall S sent now store true (.delete key) = handOn (store (.delete key)) (fun _ => .done)) ∧
    ((∀ id size, store (.inspect key) = .ok (id, size) → id < 2 ^ 128 ∧ size < 2 ^ 64) → rustCall S sent now store true (.inspect key) =
      handOn (store (.inspect key)) (fun x => .inspected x.1 x.2)) ∧
    (rustCall S sent now store true (.read key none none) = handOn (store (.read key 0 none)) (fun o => .stream o.body)) ∧
    (∀ a, a < 2 ^ 64 → rustCall S sent now store true (.read key (some a) none) = handOn (store (.read key a none)) (fun o => .stream o.body)) ∧
    (∀ a b, a < 2 ^ 64 → b < 2 ^ 64 - 1 → rustCall S sent now store true (.read key (some a) (some b)) =
      handOn (store (.read key a (some (b + 1)))) (fun o => .stream o.body)) ∧
    (∀ (body : Bytes) (n : Nat), @Eq Nat (store (.batch body)) n → n < 2 ^ 64 → rustCall S sent now store true (.batch body) = .batch n) := by
  have hk : parseKey (urlPath (clientPath key)) = some key := hkey
  obtain ⟨c1, c2, c3, c4, c5, c6, c7, c8⟩ := C53_rust_calls S key hkey sent now hs hn
  have ext := fun c hc hf => C79_rust_request S sent c key hc hf hkey hne
  have err : ∀ c (e : RW.OpError) , rustGot c ⟨errStatus e, [], []⟩ = .refused (errStatus e) := by
    intro c e
    simp [rustGot, errStatus_range e]
  refine ⟨fun size hz => ?_, fun tok size off data ht hz ho => ?_, fun tok size ht hz => ?_, ?_, fun hst => ?_, ?_, fun a ha => ?_,
    fun a b ha hb => ?_, fun body n hst hlt => ?_⟩
  · unfold rustCall answer
    rw [ext (.create key size) rfl hz]
    simp only [c1 size]
    cases store (.create key size) with
    | error e => exact err _ e
    | ok t => simp [reply, rustGot, Reply.get, handOn]
  · unfold rustCall answer
    rw [ext (.write key (uploadToken S tok size) off data) rfl ⟨ascii_b64 _ _, ho⟩]
    simp only [c7 tok size off data ht hz]
    cases store (.write tok off data.length [.ok data]) with
    | error e => exact err _ e
    | ok t => simp [reply, rustGot, Reply.get, handOn]
  · unfold rustCall answer
    rw [ext (.commit key (uploadToken S tok size) (allReceipts S tok size)) rfl ⟨ascii_b64 _ _, by
      intro r hr
      obtain ⟨i, _, rfl⟩ := List.mem_map.1 hr
      exact ascii_b64 _ _⟩]
    have : preflight S now (rustReq S sent (.commit key (uploadToken S tok size) (allReceipts S tok size))) = .ok (.commit tok) := by
      simp [rustReq, preflight, hk, verifyAuth_new S hs hn, clientToken, parseUpload_uploadToken S ht hz, allReceipts_ok]
    simp only [this]
    cases store (.commit tok) with
    | error e => exact err _ e
    | ok t => simp [reply, rustGot, handOn]
  · unfold rustCall answer
    rw [ext (.delete key) rfl trivial]
    simp only [c2]
    cases store (.delete key) with
    | error e => exact err _ e
    | ok t => simp [reply, rustGot, handOn]
  · unfold rustCall answer
    rw [ext (.inspect key) rfl trivial]
    simp only [c3]
    cases hres : store (.inspect key) with
    | error e => exact err _ e
    | ok t =>
      obtain ⟨id, size⟩ := t
      have := hst id size hres
      simp [reply, rustGot, Reply.get, handOn, parseU128_decStr this.1, parseU64_decStr this.2]
  · unfold rustCall answer
    rw [ext (.read key none none) rfl trivial]
    simp only [c4]
    cases store (.read key 0 none) with
    | error e => exact err _ e
    | ok t => simp [reply, rustGot, handOn, rustReq, respond, clientRange, reqRanges]
  · unfold rustCall answer
    rw [ext (.read key (some a) none) rfl trivial]
    simp only [c5 a ha]
    cases store (.read key a none) with
    | error e => exact err _ e
    | ok t =>
      simp only [reply, rustGot, handOn, rustReq, respond]
      split <;> rfl
  · unfold rustCall answer
    rw [ext (.read key (some a) (some b)) rfl trivial]
    simp only [c6 a b ha hb]
    cases store (.read key a (some (b + 1))) with
    | error e => exact err _ e
    | ok t =>
      simp only [reply, rustGot, handOn, rustReq, respond]
      split <;> rfl
  · unfold rustCall answer
    have : extract (rustWire S sent true (.batch body)) = .ok (rustReq S sent (.batch body)) := extract_batch (ascii_b64 _ _) rfl _ _
    rw [this]
    simp only [c8 body]
    simp only [reply, rustGot, Reply.get]
    rw [hst]
    simp [parseU64_decStr hlt]

/-- Hypotheses met: key "k" with the server `exSrv`; and what the store answers is what is returned. -/
theorem exKey : serverKey [107] = some [107] := (C50_rust_survives_iff _).2
  ⟨by decide, by decide, by decide, by decide, by decide, by rw [← pctDecode_eq_iff]; simp [pctDecode]⟩

def exStore : (c : Call) → ResOf c
  | .batch _ => (2 : Nat)
  | .commit _ => .ok ()
  | .create _ _ => .ok ⟨0, 7⟩
  | .delete _ => .error .objectNotFound
  | .inspect _ => .ok (9, 5)
  | .read _ _ _ => .ok ⟨0, 5, 9, 5, [1, 2, 3, 4, 5]⟩
  | .write _ _ _ _ => .ok ()

example : rustCall exSrv 0 10 exStore true (.inspect [107]) = .inspected 9 5 ∧ rustCall exSrv 0 10 exStore true (.delete [107]) = .refused 404 ∧
    rustCall exSrv 0 10 exStore true (.read [107] none none) = .stream [1, 2, 3, 4, 5] ∧
    rustCall exSrv 0 10 exStore true (.create [107] 5) = .created (uploadToken exSrv ⟨0, 7⟩ 5) := by
  obtain ⟨h1, _, _, h2, h3, h4, _⟩ := C79_rust_calls exSrv exStore [107] exKey (by decide) 0 10 (by decide) (by decide)
  refine ⟨h3 ?_, h2, h4, h1 5 (by decide)⟩
  intro id size h
  cases h
  decide

/-- The limit of the claim: the key "a?t=x" repeats the parameter `t`, so every request for it is refused with 400. -/
example (S : Srv) (now : Nat) : extract (rustWire S now true (.delete [97, 63, 116, 61, 120])) = .error 400 := by
  classical
  have hq : params (urlQuery (clientPath [97, 63, 116, 61, 120])) = [([116], [120])] := by
    have : urlQuery (clientPath [97, 63, 116, 61, 120]) = [116, 61, 120] := by decide
    rw [this]
    simp [params, splitAmp, decodePair, formDec, pctDecode]
  rw [C79_rust_request_exact S now (.delete [97, 63, 116, 61, 120]) _ rfl trivial (by decide), if_pos]
  exact ⟨pT, by simp [ClientCall.names], _, by rw [hq]; exact List.mem_singleton.2 rfl, by decide⟩

/-- `write_object` with a body of unknown length never works: the server insists on `Content-Length`. -/
theorem C79_violated_rust_streamed_write (S : Srv) (store : (c : Call) → ResOf c) (sent now : Nat) (key : Bytes) (up : List Char) (off : Nat)
    (data : Bytes) (hp : urlPath (clientPath key) ≠ [47]) : rustCall S sent now store false (.write key up off data) = .refused 400 := by
  simp [rustCall, answer, rustWire, rustUrl, extract, route, hp, rustGot]

/-- `read_object` with an end and no start yields the whole object: the end is dropped. -/
theorem C79_violated_end_without_start (S : Srv) (store : (c : Call) → ResOf c) (sent now : Nat) (key : Bytes) (b : Nat) (sized cross : Bool) :
    rustCall S sent now store sized (.read key none (some b)) = rustCall S sent now store sized (.read key none none) ∧
    jsCall S sent now store cross sized (.read key none (some b)) = jsCall S sent now store cross sized (.read key none none) := ⟨rfl, rfl⟩

/-- The empty key (and every key that vanishes in the URL, such as ".") is not a key: `create_object` reaches the batch endpoint,
which answers 200, and the client panics for want of an upload token (authentication off; with it on, 401); the other methods are
answered 405. -/
theorem C79_violated_rust_empty_key (S : Srv) (store : (c : Call) → ResOf c) (sent now : Nat) (key : Bytes) (hk : key = [] ∨ key = [46])
    (hauth : S.authEnabled = false) :
    (∀ n, rustCall S sent now store true (.create key n) = .panicked) ∧ rustCall S sent now store true (.delete key) = .refused 405 ∧
    rustCall S sent now store true (.inspect key) = .refused 405 ∧
    (∀ a b, rustCall S sent now store true (.read key a b) = .refused 405) ∧
    (∀ up off data, rustCall S sent now store true (.write key up off data) = .refused 405) ∧
    (∀ up rs, rustCall S sent now store true (.commit key up rs) = .refused 405) := by
  have hp : urlPath (clientPath key) = [47] := by rcases hk with rfl | rfl <;> decide
  have hq : urlQuery (clientPath key) = [] := urlQuery_no (clientPath_no (by rcases hk with rfl | rfl <;> decide))
  refine ⟨fun n => ?_, ?_, ?_, fun a b => ?_, fun up off data => ?_, fun up rs => ?_⟩
  · have hT : field (params (appendPairs [] [(pSize, decStr n), (pT, clientToken S sent (.create key n))])) pT =
        some (some (clientToken S sent (.create key n))) := by
      rw [params_appendPairs, params_nil]
      have h1 : ascii pSize ≠ ascii pT := by decide
      simp [field, h1, text_ascii (ascii_b64 S.b64 _), clientToken, newToken]
    simp [rustCall, answer, rustWire, rustUrl, extract, route, hp, hq, fieldT, hT, preflight, verifyAuth, hauth, reply, rustGot, Reply.get]
  all_goals simp [rustCall, answer, rustWire, rustUrl, extract, route, hp, rustGot]

/-- A presigned URL does what it was made for until it expires, for whoever has it, and is then refused. -/
theorem C79_presigned (S : Srv) (store : (c : Call) → ResOf c) (key : Bytes) (hkey : serverKey key = some key) (hne : key ≠ [])
    (made secs now : Nat) (hs : made + secs < 2 ^ 64) :
    (now < made + secs →
      (∀ o, store (.read key 0 none) = .ok o → (answer S now store (rustPresigned S made secs key (.read key) .get)).status = 200 ∧
        (answer S now store (rustPresigned S made secs key (.read key) .get)).body = o.body) ∧
      answer S now store (rustPresigned S made secs key (.inspect key) .head) =
        reply S (.inspect (urlPath (clientPath key)) (newToken S (.inspect key) (made + secs))) (.inspect key) (store (.inspect key)) ∧
      answer S now store (rustPresigned S made secs key (.delete key) .delete) =
        reply S (.delete (urlPath (clientPath key)) (newToken S (.delete key) (made + secs))) (.delete key) (store (.delete key))) ∧
    (S.authEnabled = true → made + secs ≤ now →
      (answer S now store (rustPresigned S made secs key (.read key) .get)).status = 401 ∧
      (answer S now store (rustPresigned S made secs key (.inspect key) .head)).status = 401 ∧
      (answer S now store (rustPresigned S made secs key (.delete key) .delete)).status = 401) := by
  classical
  have hp := parseKey_root hkey hne
  have hk : parseKey (urlPath (clientPath key)) = some key := hkey
  have hq : urlQuery (clientPath key) = [] := urlQuery_no (clientPath_no ((C50_rust_survives_iff key).1 hkey).2.1)
  have nil : Ascii [] := fun c hc => by cases hc
  have ext : ∀ (m : Method) (a : Action) (req : Req), (m = .get ∨ m = .head ∨ m = .delete) →
      wireReq m (urlPath (clientPath key)) none [] [] [] (newToken S a (made + secs)) 0 = some req →
      extract (rustPresigned S made secs key a m) = .ok req := by
    intro m a req hm hreq
    have h := extract_own (m := m) (q0 := urlQuery (clientPath key)) hp nil nil (ascii_b64 S.b64 _) (by decide) hreq none (by
      rintro rfl
      rcases hm with h | h | h <;> cases h)
    rw [if_neg] at h
    · rcases hm with rfl | rfl | rfl <;> exact h
    · rw [hq, params_nil]
      rintro ⟨_, _, _, hm, _⟩
      cases hm
  have e1 := ext .get (.read key) _ (.inl rfl) rfl
  have e2 := ext .head (.inspect key) _ (.inr (.inl rfl)) rfl
  have e3 := ext .delete (.delete key) _ (.inr (.inr rfl)) rfl
  constructor
  · intro hn
    have hv : ∀ a : Action, verifyAuth S now (newToken S a (made + secs)) a = true := fun a => verifyAuth_new S hs hn
    refine ⟨fun o ho => ?_, ?_, ?_⟩
    · simp only [answer, e1, preflight, hk, hv, not_true_eq_false, if_false, reqRanges, rangeOf, rangeOf.stopOf]
      simp [ho, reply, respond, reqRanges]
    · simp only [answer, e2, preflight, hk, hv, if_true]
    · simp only [answer, e3, preflight, hk, hv, if_true]
  · intro hauth hn
    have hv : ∀ a : Action, verifyAuth S now (newToken S a (made + secs)) a = false := by
      intro a
      rw [Bool.eq_false_iff]
      intro h
      simp only [verifyAuth, hauth, Bool.not_true, Bool.false_or] at h
      obtain ⟨raw, hr, _, _, hx⟩ := verifyToken_inv h
      unfold newToken at hr
      rw [S.b64.dec_enc] at hr
      obtain rfl := Option.some.inj hr
      have h8 : (beBytes 8 (made + secs)).length = 8 := length_beBytes 8 _
      have ht : (beBytes 8 (made + secs) ++ S.mac (encAuth a (made + secs))).take 8 = beBytes 8 (made + secs) := by
        rw [List.take_append_of_le_length (by omega)]; simp [List.take_of_length_le, h8]
      rw [ht, beVal_beBytes_of_lt (n := 8) (by omega)] at hx
      omega
    refine ⟨?_, ?_, ?_⟩
    · simp only [answer, e1, preflight, hk, hv]; simp
    · simp only [answer, e2, preflight, hk, hv]; simp
    · simp only [answer, e3, preflight, hk, hv]; simp

/-! ### The JavaScript client -/

/-- Every request of the JavaScript client is understood as it was meant, whatever the key, unless it vanishes in the URL. -/
theorem C79_js_request (S : Srv) (now : Nat) (c : ClientCall) (key : Bytes) (hc : c.key? = some key) (hf : c.Fits)
    (hp : urlPath (jsPath key) ≠ [47]) : extract (jsWire S now true c) = .ok (jsReq S now c) := by
  classical
  have hq : urlQuery (jsPath key) = [] := urlQuery_no (jsPath_no key)
  have nil : Ascii [] := fun c hc => by cases hc
  have go : ∀ {up rs t : List Char} {n : Nat} {m : Method} {range : Option (List Char)} {body : Bytes} {len : Option Nat} {req : Req},
      Ascii up → Ascii rs → Ascii t → n < 2 ^ 64 → (m = .patch → len = some body.length) →
      wireReq m (urlPath (jsPath key)) range body up rs t n = some req →
      extract ⟨m, urlPath (jsPath key), appendPairs (urlQuery (jsPath key)) (ownParams m up rs t n), range, len, body⟩ = .ok req := by
    intro up rs t n m range body len req h1 h2 h3 h4 h5 h6
    rw [extract_own hp h1 h2 h3 h4 h6 len h5, if_neg]
    rw [hq, params_nil]
    rintro ⟨_, _, _, hm, _⟩
    cases hm
  have hta : ∀ a e, Ascii (jsToken S a e) := fun a e => ascii_b64 _ _
  cases c with
  | batch b => cases hc
  | commit k up rs =>
    cases hc
    exact go hf.1 (ascii_joinComma hf.2) (hta _ _) (n := 0) (m := .put) (by decide) (by simp) rfl
  | create k n =>
    cases hc
    exact go nil nil (hta _ _) (m := .post) hf (by simp) rfl
  | delete k =>
    cases hc
    exact go nil nil (hta _ _) (n := 0) (m := .delete) (by decide) (by simp) rfl
  | inspect k =>
    cases hc
    exact go nil nil (hta _ _) (n := 0) (m := .head) (by decide) (by simp) rfl
  | read k a b =>
    cases hc
    exact go nil nil (hta _ _) (n := 0) (m := .get) (by decide) (by simp) rfl
  | write k up off data =>
    cases hc
    exact go hf.1 nil (hta _ _) (m := .patch) hf.2 (by simp) rfl

theorem jsNumber_small {n : Nat} (h : n < 2 ^ 53) : jsNumber n = n := by simp [jsNumber, h]

theorem jsHeader_own {r : Reply} {h : Hdr} {v : List Char} (hg : r.get h = some v) (hv : v ≠ []) : jsHeader false r h = some v := by
  unfold jsHeader
  rw [if_neg (by simp), hg]
  cases v with
  | nil => exact absurd rfl hv
  | cons a l => rfl

theorem enc_ne (S : Srv) {b : Bytes} (h : b ≠ []) : S.b64.enc b ≠ [] := by
  intro e
  have h1 := S.b64.dec_enc b
  rw [e, ← S.b64.empty, S.b64.dec_enc] at h1
  exact h (Option.some.inj h1).symm

theorem tokens_ne (S : Srv) (tok : Tok) (n : Nat) : uploadToken S tok n ≠ [] ∧ writeReceipt S tok n ≠ [] := by
  have hm := S.mac_len (encPair tok n)
  constructor
  · refine enc_ne S ?_
    intro h
    have := congrArg List.length h
    simp [hm] at this
  · refine enc_ne S ?_
    intro h
    rw [h] at hm
    cases hm

/-- **Every method of the JavaScript client does what it says and returns what the store answered**, with authentication off (with it
on, every request is refused: C53_violated_js_requests_unauthorized), for keys that reach the server unchanged, from the page's own
origin or outside a browser, with sizes below 2^53. `readObject` takes the end exclusive. -/
theorem C79_js_calls (S : Srv) (hauth : S.authEnabled = false) (store : (c : Call) → ResOf c) (key : Bytes) (hkey : jsServerKey key = some key)
    (hne : key ≠ []) (sent now : Nat) :
    (∀ size, size < 2 ^ 53 → jsCall S sent now store false true (.create key size) =
      handOn (store (.create key size)) (fun tok => .created (uploadToken S tok size))) ∧
    (∀ tok size off data, tok.Valid → size < 2 ^ 64 → off < 2 ^ 53 →
      jsCall S sent now store false true (.write key (uploadToken S tok size) off data) =
        handOn (store (.write tok off data.length [.ok data])) (fun _ => .written (writeReceipt S tok (off / 2 ^ S.pages.lpage)))) ∧
    (∀ tok size, tok.Valid → size < 2 ^ 64 → jsCall S sent now store false true (.commit key (uploadToken S tok size) (allReceipts S tok size)) =
      handOn (store (.commit tok)) (fun _ => .done)) ∧
    (jsCall S sent now store false true (.delete key) = handOn (store (.delete key)) (fun _ => .done)) ∧
    ((∀ id size, store (.inspect key) = .ok (id, size) → size < 2 ^ 53) → jsCall S sent now store false true (.inspect key) =
      handOn (store (.inspect key)) (fun x => .inspected x.1 x.2)) ∧
    (jsCall S sent now store false true (.read key none none) = handOn (store (.read key 0 none)) (fun o => .stream o.body)) ∧
    (∀ a, a < 2 ^ 53 → jsCall S sent now store false true (.read key (some a) none) = handOn (store (.read key a none)) (fun o => .stream o.body)) ∧
    (∀ a b, a < 2 ^ 53 → 0 < b → b < 2 ^ 53 → jsCall S sent now store false true (.read key (some a) (some b)) =
      handOn (store (.read key a (some b))) (fun o => .stream o.body)) ∧
    (∀ (body : Bytes) (n : Nat), @Eq Nat (store (.batch body)) n → n < 2 ^ 53 → jsCall S sent now store false true (.batch body) = .batch n) := by
  have hk : parseKey (urlPath (jsPath key)) = some key := hkey
  have hv : ∀ t a, verifyAuth S now t a = true := by intro t a; simp [verifyAuth, hauth]
  have ext := fun c hc hf => C79_js_request S sent c key hc hf (parseKey_root hkey hne)
  have err : ∀ c (e : RW.OpError) , jsGot false c ⟨errStatus e, [], []⟩ = .refused (errStatus e) := by
    intro c e
    have := errStatus_range e
    simp only [jsGot]
    rw [if_pos (by omega)]
  refine ⟨fun size hz => ?_, fun tok size off data ht hz ho => ?_, fun tok size ht hz => ?_, ?_, fun hst => ?_, ?_, fun a ha => ?_,
    fun a b ha hb0 hb => ?_, fun body n hst hlt => ?_⟩
  · unfold jsCall answer
    rw [ext (.create key size) rfl (by show _ < _; omega)]
    have : preflight S now (jsReq S sent (.create key size)) = .ok (.create key size) := by simp [jsReq, preflight, hk, hv]
    simp only [this]
    cases store (.create key size) with
    | error e => exact err _ e
    | ok t =>
      have := jsHeader_own (r := ⟨202, [(.uploadToken, uploadToken S t size)], []⟩) (h := .uploadToken) rfl (tokens_ne S t size).1
      simp [reply, jsGot, handOn, this]
  · unfold jsCall answer
    rw [ext (.write key (uploadToken S tok size) off data) rfl ⟨ascii_b64 _ _, by omega⟩]
    have : preflight S now (jsReq S sent (.write key (uploadToken S tok size) off data)) = .ok (.write tok off data.length [.ok data]) := by
      simp [jsReq, preflight, hk, hv, parseUpload_uploadToken S ht hz]
    simp only [this]
    cases store (.write tok off data.length [.ok data]) with
    | error e => exact err _ e
    | ok t =>
      have := jsHeader_own (r := ⟨202, [(.writeReceipt, writeReceipt S tok (off / 2 ^ S.pages.lpage))], []⟩) (h := .writeReceipt) rfl (tokens_ne S tok _).2
      simp [reply, jsGot, handOn, this]
  · unfold jsCall answer
    rw [ext (.commit key (uploadToken S tok size) (allReceipts S tok size)) rfl ⟨ascii_b64 _ _, by
      intro r hr
      obtain ⟨i, _, rfl⟩ := List.mem_map.1 hr
      exact ascii_b64 _ _⟩]
    have : preflight S now (jsReq S sent (.commit key (uploadToken S tok size) (allReceipts S tok size))) = .ok (.commit tok) := by
      simp [jsReq, preflight, hk, hv, parseUpload_uploadToken S ht hz, allReceipts_ok]
    simp only [this]
    cases store (.commit tok) with
    | error e => exact err _ e
    | ok t => simp [reply, jsGot, handOn]
  · unfold jsCall answer
    rw [ext (.delete key) rfl trivial]
    have : preflight S now (jsReq S sent (.delete key)) = .ok (.delete key) := by simp [jsReq, preflight, hk, hv]
    simp only [this]
    cases store (.delete key) with
    | error e => exact err _ e
    | ok t => simp [reply, jsGot, handOn]
  · unfold jsCall answer
    rw [ext (.inspect key) rfl trivial]
    have : preflight S now (jsReq S sent (.inspect key)) = .ok (.inspect key) := by simp [jsReq, preflight, hk, hv]
    simp only [this]
    cases hres : store (.inspect key) with
    | error e => exact err _ e
    | ok t =>
      obtain ⟨id, size⟩ := t
      have hsz := hst id size hres
      have h1 := jsHeader_own (r := ⟨200, [(.contentLength, decStr size), (.objectId, decStr id)], []⟩) (h := .contentLength) rfl (decStr_ne_nil size)
      have h2 := jsHeader_own (r := ⟨200, [(.contentLength, decStr size), (.objectId, decStr id)], []⟩) (h := .objectId) rfl (decStr_ne_nil id)
      simp [reply, jsGot, handOn, h1, h2, parseNat_decStr, jsNumber_small hsz]
  · unfold jsCall answer
    rw [ext (.read key none none) rfl trivial]
    have : preflight S now (jsReq S sent (.read key none none)) = .ok (.read key 0 none) := by
      simp [jsReq, preflight, hk, hv, jsRange, reqRanges, rangeOf, rangeOf.stopOf]
    simp only [this]
    cases store (.read key 0 none) with
    | error e => exact err _ e
    | ok t => simp [reply, jsGot, handOn, jsReq, respond, jsRange, reqRanges]
  · unfold jsCall answer
    rw [ext (.read key (some a) none) rfl trivial]
    have : preflight S now (jsReq S sent (.read key (some a) none)) = .ok (.read key a none) := by
      have hr : reqRanges (jsRange (some a) none) = [(.included a, .unbounded)] :=
        parseRanges_text (some a) none (by simp; omega) (by simp)
      simp only [jsReq, preflight, hk, hv, hr]
      rfl
    simp only [this]
    cases store (.read key a none) with
    | error e => exact err _ e
    | ok t =>
      simp only [reply, jsGot, handOn, jsReq, respond]
      split <;> rfl
  · unfold jsCall answer
    rw [ext (.read key (some a) (some b)) rfl trivial]
    have : preflight S now (jsReq S sent (.read key (some a) (some b))) = .ok (.read key a (some b)) := by
      cases b with
      | zero => omega
      | succ b =>
        have hr : reqRanges (jsRange (some a) (some (b + 1))) = [(.included a, .included b)] :=
          parseRanges_text (some a) (some b) (by simp; omega) (by simp; omega)
        simp only [jsReq, preflight, hk, hv, hr]
        have : rangeOf [(.included a, .included b)] = .ok (a, some ((b + 1) % 2 ^ 64)) := rfl
        rw [this, Nat.mod_eq_of_lt (by omega)]
        rfl
    simp only [this]
    cases store (.read key a (some b)) with
    | error e => exact err _ e
    | ok t =>
      simp only [reply, jsGot, handOn, jsReq, respond]
      split <;> rfl
  · unfold jsCall answer
    have : extract (jsWire S sent true (.batch body)) = .ok (jsReq S sent (.batch body)) := extract_batch (ascii_b64 _ _) rfl _ _
    rw [this]
    have : preflight S now (jsReq S sent (.batch body)) = .ok (.batch body) := by simp [jsReq, preflight, hv]
    simp only [this, reply]
    rw [hst]
    have h1 := jsHeader_own (r := ⟨200, [(.createdCount, decStr n)], []⟩) (h := .createdCount) rfl (decStr_ne_nil n)
    simp [jsGot, h1, parseNat_decStr, jsNumber_small hlt]

/-- Hypotheses met: authentication off, key "a?b". -/
example : jsServerKey [97, 63, 98] = some [97, 63, 98] ∧
    jsCall { exSrv with authEnabled := false } 0 10 exStore false true (.inspect [97, 63, 98]) = .inspected 9 5 := by
  have hk : jsServerKey [97, 63, 98] = some [97, 63, 98] := (C50_js_survives_iff _).2 (by decide)
  refine ⟨hk, (C79_js_calls { exSrv with authEnabled := false } rfl exStore _ hk (by decide) 0 10).2.2.2.2.1 ?_⟩
  intro id size h
  cases h
  decide

/-- `writeObject` with a stream never works: the server insists on `Content-Length`. -/
theorem C79_violated_js_streamed_write (S : Srv) (store : (c : Call) → ResOf c) (sent now : Nat) (cross : Bool) (key : Bytes) (up : List Char)
    (off : Nat) (data : Bytes) (hp : urlPath (jsPath key) ≠ [47]) : jsCall S sent now store cross false (.write key up off data) = .refused 400 := by
  simp [jsCall, answer, jsWire, extract, route, hp, jsGot]

/-- From a page of another origin (which the server's CORS settings allow) `createObject` creates the object, and `writeObject` writes the
part, but both throw: the header with the token or receipt is not exposed to the page. So nothing can be uploaded. -/
theorem C79_violated_js_cross_origin (S : Srv) (hauth : S.authEnabled = false) (store : (c : Call) → ResOf c) (key : Bytes)
    (hkey : jsServerKey key = some key) (hne : key ≠ []) (sent now : Nat) :
    (∀ size tok, size < 2 ^ 53 → store (.create key size) = .ok tok → jsCall S sent now store true true (.create key size) = .missing) ∧
    (∀ tok size off data, tok.Valid → size < 2 ^ 64 → off < 2 ^ 53 → store (.write tok off data.length [.ok data]) = .ok () →
      jsCall S sent now store true true (.write key (uploadToken S tok size) off data) = .missing) ∧
    (∀ id size, store (.inspect key) = .ok (id, size) → jsCall S sent now store true true (.inspect key) = .missing) := by
  have hk : parseKey (urlPath (jsPath key)) = some key := hkey
  have hv : ∀ t a, verifyAuth S now t a = true := by intro t a; simp [verifyAuth, hauth]
  have ext := fun c hc hf => C79_js_request S sent c key hc hf (parseKey_root hkey hne)
  refine ⟨fun size tok hz hst => ?_, fun tok size off data ht hz ho hst => ?_, fun id size hst => ?_⟩
  · unfold jsCall answer
    rw [ext (.create key size) rfl (by show _ < _; omega)]
    have : preflight S now (jsReq S sent (.create key size)) = .ok (.create key size) := by simp [jsReq, preflight, hk, hv]
    simp only [this, hst]
    simp [reply, jsGot, jsHeader]
  · unfold jsCall answer
    rw [ext (.write key (uploadToken S tok size) off data) rfl ⟨ascii_b64 _ _, by omega⟩]
    have : preflight S now (jsReq S sent (.write key (uploadToken S tok size) off data)) = .ok (.write tok off data.length [.ok data]) := by
      simp [jsReq, preflight, hk, hv, parseUpload_uploadToken S ht hz]
    simp only [this, hst]
    simp [reply, jsGot, jsHeader]
  · unfold jsCall answer
    rw [ext (.inspect key) rfl trivial]
    have : preflight S now (jsReq S sent (.inspect key)) = .ok (.inspect key) := by simp [jsReq, preflight, hk, hv]
    simp only [this, hst]
    simp [reply, jsGot, jsHeader]

/-- The size `inspectObject` reports is a JavaScript number: an object of 2^53 + 1 bytes is reported as 2^53 bytes long. -/
theorem C79_violated_js_size_rounded (S : Srv) (hauth : S.authEnabled = false) (store : (c : Call) → ResOf c) (key : Bytes)
    (hkey : jsServerKey key = some key) (hne : key ≠ []) (sent now id : Nat) (hst : store (.inspect key) = .ok (id, 2 ^ 53 + 1)) :
    jsCall S sent now store false true (.inspect key) = .inspected id (2 ^ 53) := by
  have hk : parseKey (urlPath (jsPath key)) = some key := hkey
  have hv : ∀ t a, verifyAuth S now t a = true := by intro t a; simp [verifyAuth, hauth]
  unfold jsCall answer
  rw [C79_js_request S sent (.inspect key) key rfl trivial (parseKey_root hkey hne)]
  have : preflight S now (jsReq S sent (.inspect key)) = .ok (.inspect key) := by simp [jsReq, preflight, hk, hv]
  simp only [this, hst]
  have h1 := jsHeader_own (r := ⟨200, [(.contentLength, decStr (2 ^ 53 + 1)), (.objectId, decStr id)], []⟩) (h := .contentLength) rfl (decStr_ne_nil _)
  have h2 := jsHeader_own (r := ⟨200, [(.contentLength, decStr (2 ^ 53 + 1)), (.objectId, decStr id)], []⟩) (h := .objectId) rfl (decStr_ne_nil id)
  have h3 : jsNumber (2 ^ 53 + 1) = 2 ^ 53 := by decide +kernel
  simp only [reply, jsGot, h1, h2, Option.bind_some, parseNat_decStr, h3]
  simp

end Props
end Blobd
