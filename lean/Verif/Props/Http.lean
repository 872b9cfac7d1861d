import Verif.Proofs.Http
/-!
# C41, C42, C46: tokens, receipts and statuses of the HTTP server
-/
namespace Blobd
namespace Props

open Http
open MP (Bytes)
open RW (OpError)

/-! ### C41 -/

/-- **C41 (tokens).** In every execution, against any client that cannot forge MACs: a token text is
accepted for an action at time `now` exactly when it is the text of a token that was issued for that very
action, with an expiry after `now`. -/
theorem C41_token_accepted_iff_issued (S : Srv) (h : List Ev) (hx : Exec S h) (now : Nat) (t : List Char) (a : Action)
    (ha : a.Valid)
    (unforged : ∀ raw, S.b64.dec t = some raw → S.mac (encAuth a (beVal (raw.take 8))) = raw.drop 8 →
      released S.pages h (encAuth a (beVal (raw.take 8)))) :
    verifyToken S now t a = true ↔ ∃ e, .issued a e ∈ h ∧ t = newToken S a e ∧ now < e := by
  have hi := exec_inv hx
  constructor
  · intro hv
    obtain ⟨raw, hr, hl, hm, hn⟩ := verifyToken_inv hv
    have hlt : beVal (raw.take 8) < 2 ^ 64 := by
      have := beVal_lt (raw.take 8)
      rw [List.length_take, show min 8 raw.length = 8 by omega] at this
      omega
    refine ⟨beVal (raw.take 8), released_auth hi ha hlt (unforged raw hr hm), ?_, hn⟩
    rw [← S.b64.enc_dec _ _ hr, newToken, hm]
    have h8 : (raw.take 8).length = 8 := by rw [List.length_take]; omega
    have := beBytes_beVal (raw.take 8)
    rw [h8] at this
    rw [this, List.take_append_drop]
  · rintro ⟨e, he, rfl, hn⟩
    exact verifyToken_new S (hi.issued _ _ he).2 hn

/-- **C41 (endpoints).** With authentication enabled, no request reaches the store unless its token was
issued for the action the request performs, and has not expired. -/
theorem C41_no_call_without_token (S : Srv) (hauth : S.authEnabled = true) (h : List Ev) (hx : Exec S h) (now : Nat)
    (req : Req) (hu : Unforged S h req) (hval : ∀ a, required req = some a → a.Valid) (c : Call)
    (hc : preflight S now req = .ok c) :
    ∃ a e, required req = some a ∧ .issued a e ∈ h ∧ req.token = newToken S a e ∧ now < e := by
  have key : ∀ a, required req = some a → verifyAuth S now req.token a = true →
      ∃ a e, required req = some a ∧ .issued a e ∈ h ∧ req.token = newToken S a e ∧ now < e := by
    intro a ha hv
    have hv' : verifyToken S now req.token a = true := by simpa [verifyAuth, hauth] using hv
    obtain ⟨e, h1, h2, h3⟩ := (C41_token_accepted_iff_issued S h hx now req.token a (hval a ha)
      (fun raw hr hm => hu.auth a raw ha hr hm)).1 hv'
    exact ⟨a, e, ha, h1, h2, h3⟩
  cases req with
  | batch t body =>
    simp only [preflight] at hc
    split at hc
    · rename_i hv; exact key _ rfl hv
    · simp at hc
  | commit path up rc t =>
    simp only [preflight] at hc
    split at hc
    · simp at hc
    · rename_i k hk
      split at hc
      · simp at hc
      · rename_i hv
        exact key (.commit k) (by simp [required, hk]) (by simpa [Req.token] using hv)
  | create path size t =>
    simp only [preflight] at hc
    split at hc
    · simp at hc
    · rename_i k hk
      split at hc
      · rename_i hv; exact key (.create k size) (by simp [required, hk]) hv
      · simp at hc
  | delete path t =>
    simp only [preflight] at hc
    split at hc
    · simp at hc
    · rename_i k hk
      split at hc
      · rename_i hv; exact key (.delete k) (by simp [required, hk]) hv
      · simp at hc
  | inspect path t =>
    simp only [preflight] at hc
    split at hc
    · simp at hc
    · rename_i k hk
      split at hc
      · rename_i hv; exact key (.inspect k) (by simp [required, hk]) hv
      · simp at hc
  | read path range t =>
    simp only [preflight] at hc
    split at hc
    · simp at hc
    · rename_i k hk
      split at hc
      · simp at hc
      · rename_i hv
        exact key (.read k) (by simp [required, hk]) (by simpa [Req.token] using hv)
  | write path off len up t body =>
    simp only [preflight] at hc
    split at hc
    · simp at hc
    · rename_i k hk
      split at hc
      · simp at hc
      · rename_i hv
        exact key (.write k) (by simp [required, hk]) (by simpa [Req.token] using hv)

/-- **C41 (endpoints, converse).** A request with an unexpired token for its action is never refused as
unauthorised. -/
theorem C41_valid_token_not_refused (S : Srv) (h : List Ev) (hx : Exec S h) (now : Nat) (req : Req) (a : Action) (e : Nat)
    (ha : required req = some a) (he : .issued a e ∈ h) (ht : req.token = newToken S a e) (hn : now < e) :
    preflight S now req ≠ .error 401 := by
  have hv : verifyAuth S now req.token a = true := by
    rw [ht, verifyAuth, verifyToken_new S ((exec_inv hx).issued _ _ he).2 hn]; simp
  cases req with
  | batch t body =>
    simp only [required, Option.some.injEq] at ha
    subst ha
    simp only [Req.token] at hv
    simp [preflight, hv]
  | commit path up rc t =>
    simp only [required, Option.map_eq_some_iff] at ha
    obtain ⟨k, hk, rfl⟩ := ha
    simp only [Req.token] at hv
    simp only [preflight, hk, hv]
    rw [if_neg (by simp)]
    split
    · simp
    · split <;> simp
  | create path size t =>
    simp only [required, Option.map_eq_some_iff] at ha
    obtain ⟨k, hk, rfl⟩ := ha
    simp only [Req.token] at hv
    simp [preflight, hk, hv]
  | delete path t =>
    simp only [required, Option.map_eq_some_iff] at ha
    obtain ⟨k, hk, rfl⟩ := ha
    simp only [Req.token] at hv
    simp [preflight, hk, hv]
  | inspect path t =>
    simp only [required, Option.map_eq_some_iff] at ha
    obtain ⟨k, hk, rfl⟩ := ha
    simp only [Req.token] at hv
    simp [preflight, hk, hv]
  | read path range t =>
    simp only [required, Option.map_eq_some_iff] at ha
    obtain ⟨k, hk, rfl⟩ := ha
    simp only [Req.token] at hv
    simp only [preflight, hk, hv]
    rw [if_neg (by simp)]
    split
    · rename_i x hr
      unfold rangeOf at hr
      split at hr
      · simp at hr; subst hr; simp
      · simp only at hr
        split at hr <;> simp at hr
        subst hr; simp
    · simp
  | write path off len up t body =>
    simp only [required, Option.map_eq_some_iff] at ha
    obtain ⟨k, hk, rfl⟩ := ha
    simp only [Req.token] at hv
    simp only [preflight, hk, hv]
    rw [if_neg (by simp)]
    split <;> simp

/-- **C41 (effect).** For create, delete, inspect and read, the call made on the store is for exactly the
key (and size) named by the action. For commit and write the call names an upload instead of a key; see
`C41_violated_upload_not_bound_to_key`. -/
theorem C41_call_matches_action_partial (S : Srv) (now : Nat) (req : Req) (c : Call) (hc : preflight S now req = .ok c) :
    match c with
    | .create k n => required req = some (.create k n)
    | .delete k => required req = some (.delete k)
    | .inspect k => required req = some (.inspect k)
    | .read k _ _ => required req = some (.read k)
    | .batch _ => required req = some .batchCreate
    | .commit _ => ∃ k, required req = some (.commit k)
    | .write .. => ∃ k, required req = some (.write k) := by
  cases req with
  | batch t body =>
    simp only [preflight] at hc
    split at hc <;> simp at hc
    subst hc; simp [required]
  | commit path up rc t =>
    simp only [preflight] at hc
    split at hc
    · simp at hc
    · rename_i k hk
      split at hc
      · simp at hc
      · split at hc
        · simp at hc
        · split at hc <;> simp at hc
          subst hc; simp [required, hk]
  | create path size t =>
    simp only [preflight] at hc
    split at hc
    · simp at hc
    · rename_i k hk
      split at hc <;> simp at hc
      subst hc; simp [required, hk]
  | delete path t =>
    simp only [preflight] at hc
    split at hc
    · simp at hc
    · rename_i k hk
      split at hc <;> simp at hc
      subst hc; simp [required, hk]
  | inspect path t =>
    simp only [preflight] at hc
    split at hc
    · simp at hc
    · rename_i k hk
      split at hc <;> simp at hc
      subst hc; simp [required, hk]
  | read path range t =>
    simp only [preflight] at hc
    split at hc
    · simp at hc
    · rename_i k hk
      split at hc
      · simp at hc
      · split at hc <;> simp at hc
        subst hc; simp [required, hk]
  | write path off len up t body =>
    simp only [preflight] at hc
    split at hc
    · simp at hc
    · rename_i k hk
      split at hc
      · simp at hc
      · split at hc <;> simp at hc
        subst hc; simp [required, hk]

/-! Building blocks for concrete executions. -/

/-- the honest requests: what the client library sends -/
theorem unforged_of_issued (S : Srv) (h : List Ev) (req : Req) (a : Action) (e : Nat) (hr : required req = some a)
    (he : .issued a e ∈ h) (he64 : e < 2 ^ 64) (ht : req.token = newToken S a e)
    (hup : ∀ path up rc t off len body, (req = .commit path up rc t ∨ req = .write path off len up t body) →
      ∃ tok n, up = uploadToken S tok n ∧ released S.pages h (encPair tok n))
    (hrc : ∀ path up rc t tok claimed part r m, req = .commit path up rc t → parseUpload S up = some (tok, claimed) →
      (splitComma rc)[part]? = some r → S.b64.dec r = some m → S.mac (encPair tok part) = m →
      released S.pages h (encPair tok part)) :
    Unforged S h req := by
  refine ⟨?_, ?_, hrc⟩
  · intro a' raw h1 h2 _
    rw [hr] at h1
    obtain rfl := Option.some.inj h1
    rw [ht, newToken, S.b64.dec_enc] at h2
    obtain rfl := Option.some.inj h2
    have h8 : (beBytes 8 e).length = 8 := length_beBytes 8 e
    have : (beBytes 8 e ++ S.mac (encAuth a e)).take 8 = beBytes 8 e := by
      rw [List.take_append_of_le_length (by omega)]; simp [List.take_of_length_le, h8]
    rw [this, beVal_beBytes_of_lt (n := 8) (x := e) (by omega)]
    exact ⟨_, he, rfl⟩
  · intro path up rc t raw off len body h1 h2 _
    obtain ⟨tok, n, rfl, hrel⟩ := hup _ _ _ _ _ _ _ h1
    rw [uploadToken, S.b64.dec_enc] at h2
    obtain rfl := Option.some.inj h2
    have hl := S.mac_len (encPair tok n)
    have : (S.mac (encPair tok n) ++ encPair tok n).drop 32 = encPair tok n := by
      rw [List.drop_append_of_le_length (by omega)]; simp [List.drop_of_length_le, hl]
    rw [this]; exact hrel

/-- **C41 is false of the code for upload tokens**: they are not bound to a key. For every server, there
is an execution in which a client that was only ever given permission to create key "b" and to commit
key "a" commits the object it created under "b". -/
theorem C41_violated_upload_not_bound_to_key (S : Srv) :
    ∃ h tok, Exec S h ∧ .created tok [98] 0 ∈ h ∧ (∃ k n, .committed tok k n ∈ h) ∧
      ∀ a e, .issued a e ∈ h → a = .create [98] 0 ∨ a = .commit [97] := by
  let tok : Tok := ⟨7, 0⟩
  have hv : tok.Valid := by constructor <;> decide
  let h2 : List Ev := [.issued (.commit [97]) 100, .issued (.create [98] 0) 100]
  have e2 : Exec S h2 := .issue (.issue .nil ⟨by decide, by decide⟩ (by decide)) (by show (1 : Nat) < _; decide) (by decide)
  have e3 : Exec S (.created tok [98] 0 :: h2) := by
    refine .create (path := [47, 98]) (t := newToken S (.create [98] 0) 100) (now := 5) e2
      (unforged_of_issued S h2 _ (.create [98] 0) 100 (by simp [required, parseKey, pctDecode]) (by simp [h2]) (by decide) rfl (by simp) (by simp)) ?_ (by decide) hv
      (by simp [h2])
    have : parseKey [47, 98] = some [98] := by simp [parseKey, pctDecode]
    simp [preflight, this, verifyAuth_new S (now := 5) (e := 100) (by decide) (by decide)]
  have hrel : released S.pages (.created tok [98] 0 :: h2) (encPair tok 0) := ⟨_, List.mem_cons_self, rfl⟩
  have e4 : Exec S (.committed tok [97] 0 :: .created tok [98] 0 :: h2) := by
    refine .commit (path := [47, 97]) (up := uploadToken S tok 0) (rc := []) (t := newToken S (.commit [97]) 100)
      (now := 5) (key' := [98]) (size := 0) e3
      (unforged_of_issued S _ _ (.commit [97]) 100 (by simp [required, parseKey, pctDecode]) (by simp [h2]) (by decide) rfl ?_ ?_) ?_ (by simp) ?_
      (parseUpload_uploadToken S hv (by decide))
    · intro path up rc t off len body hreq
      simp at hreq
      exact ⟨tok, 0, hreq.2.1.symm, hrel⟩
    · intro path up rc t tk cl part r m hreq hp hr hd hm
      simp only [Req.commit.injEq] at hreq
      obtain ⟨rfl, rfl, rfl, rfl⟩ := hreq
      rw [parseUpload_uploadToken S hv (by decide)] at hp
      simp at hp
      obtain ⟨rfl, rfl⟩ := hp
      cases part with
      | zero => exact hrel
      | succ p => simp [splitComma] at hr
    · have : parseKey [47, 97] = some [97] := by simp [parseKey, pctDecode]
      simp [preflight, this, verifyAuth_new S (now := 5) (e := 100) (by decide) (by decide), parseUpload_uploadToken S hv (n := 0) (by decide), verifyReceipts, partCount]
    · simp [parseKey, pctDecode]
  refine ⟨_, tok, e4, by simp, ⟨[97], 0, by simp⟩, ?_⟩
  intro a e he
  simp [h2] at he
  rcases he with he | he
  · exact Or.inr he.1
  · exact Or.inl he.1

/-! ### C42 -/

/-- **C42 (what holds).** In every execution, against any client that cannot forge MACs: if the server
commits an upload, then either the request carried the upload token returned when that upload was
created or the object has at most one part — and in both cases every part had been acknowledged — or
the request carried, in place of the upload token, the MAC of one of the object's own write receipts.
The last case is the gap shown by `C42_violated_commit_with_missing_parts`. -/
theorem C42_all_parts_acked_partial (S : Srv) (h : List Ev) (tok : Tok) (key key' : Bytes) (size claimed : Nat)
    (hx : Exec S (.committed tok key claimed :: h)) (hc : .created tok key' size ∈ h) :
    ((claimed = size ∨ size ≤ 2 ^ S.pages.lpage) → AllPartsAcked S h tok size) ∧
    (claimed ≠ size → ∃ off, .acked tok off (min (2 ^ S.pages.lpage) (size - off)) ∈ h ∧ off / 2 ^ S.pages.lpage = claimed) := by
  have hL : 0 < 2 ^ S.pages.lpage := Nat.two_pow_pos _
  cases hx with
  | @commit _ path up rc t now _ _ key'' size' _ hx' hu hpre hcr hk hup =>
    have hi := exec_inv hx'
    obtain ⟨k, claimed', _, _, hup', hrec⟩ := preflight_commit hpre
    rw [hup] at hup'
    simp at hup'
    subst hup'
    have hrelU := parseUpload_released hi hup (fun raw h1 h2 => hu.upload path up rc t raw 0 0 [] (Or.inl rfl) h1 h2)
    obtain ⟨htv, hn64, hrelU⟩ := hrelU
    have hsz := (hi.created _ _ _ hc).2
    -- a receipt for part `p` below the part count of the object means part `p` was acknowledged
    have hack : ∀ p, p * 2 ^ S.pages.lpage < size → released S.pages h (encPair tok p) →
        .acked tok (p * 2 ^ S.pages.lpage) (min (2 ^ S.pages.lpage) (size - p * 2 ^ S.pages.lpage)) ∈ h := by
      intro p hp hrel
      have hple : p ≤ p * 2 ^ S.pages.lpage := Nat.le_mul_of_pos_right p hL
      rcases released_pair hi htv (by omega) hrel with ⟨k2, hk2⟩ | ⟨o, l, hol, hop⟩
      · have := (hi.once _ _ _ _ _ hc hk2).2
        omega
      · obtain ⟨_, k3, s3, hc3, hw⟩ := hi.acked _ _ _ hol
        obtain ⟨_, rfl⟩ := hi.once _ _ _ _ _ hc hc3
        obtain ⟨w1, w2, _⟩ := writeCheck_none hw
        have ho : o = p * 2 ^ S.pages.lpage := by
          have := Nat.div_add_mod o (2 ^ S.pages.lpage)
          rw [w1, hop] at this
          rw [Nat.mul_comm]; omega
        rw [← ho, ← w2]; exact hol
    have hother : claimed ≠ size → ∃ off, .acked tok off (min (2 ^ S.pages.lpage) (size - off)) ∈ h ∧
        off / 2 ^ S.pages.lpage = claimed := by
      intro hne
      rcases released_pair hi htv hn64 hrelU with ⟨k2, hk2⟩ | ⟨o, l, hol, hop⟩
      · exact absurd (hi.once _ _ _ _ _ hc hk2).2 (Ne.symm hne)
      · obtain ⟨_, k3, s3, hc3, hw⟩ := hi.acked _ _ _ hol
        obtain ⟨_, rfl⟩ := hi.once _ _ _ _ _ hc hc3
        obtain ⟨w1, w2, _⟩ := writeCheck_none hw
        exact ⟨o, w2 ▸ hol, hop⟩
    refine ⟨?_, hother⟩
    intro hcase off hoff hlt
    have hoffeq : off = off / 2 ^ S.pages.lpage * 2 ^ S.pages.lpage := by
      have := Nat.div_add_mod off (2 ^ S.pages.lpage)
      rw [hoff, Nat.mul_comm] at this; omega
    by_cases hcl : claimed = size
    · subst hcl
      rw [hoffeq]
      refine hack _ (by omega) ?_
      have hp : off / 2 ^ S.pages.lpage < partCount claimed (2 ^ S.pages.lpage) := (partCount_iff hL).2 (by omega)
      simp only [verifyReceipts, List.all_eq_true, List.mem_range] at hrec
      obtain ⟨r, m, hr, hd, hm⟩ := receiptOk_inv (hrec _ hp)
      exact hu.receipts path up rc t tok _ _ r m rfl hup hr hd hm
    · have hle : size ≤ 2 ^ S.pages.lpage := hcase.resolve_left hcl
      have h0 : off = 0 := by
        have : off < 2 ^ S.pages.lpage := by omega
        rw [Nat.mod_eq_of_lt this] at hoff; exact hoff
      obtain ⟨o, ho, hoc⟩ := hother hcl
      -- the acknowledged write used as upload token is for part 0 or for the empty part at the end
      obtain ⟨_, k3, s3, hc3, hw⟩ := hi.acked _ _ _ ho
      obtain ⟨_, rfl⟩ := hi.once _ _ _ _ _ hc hc3
      obtain ⟨w1, _, w3⟩ := writeCheck_none hw
      by_cases ho0 : o = 0
      · rw [h0]; rw [ho0] at ho; exact ho
      · -- then `o` is a positive multiple of the page size, at most `size`: equal to it, and `claimed = 1`
        have hge : 2 ^ S.pages.lpage ≤ o := by
          rcases Nat.lt_or_ge o (2 ^ S.pages.lpage) with hlt' | hge
          · rw [Nat.mod_eq_of_lt hlt'] at w1; exact absurd w1 ho0
          · exact hge
        have hoL : o = 2 ^ S.pages.lpage := by omega
        have hcl1 : claimed = 1 := by rw [← hoc, hoL, Nat.div_self hL]
        subst hcl1
        rw [h0]
        have hp : 0 < partCount 1 (2 ^ S.pages.lpage) := (partCount_iff hL).2 (by omega)
        simp only [verifyReceipts, List.all_eq_true, List.mem_range] at hrec
        obtain ⟨r, m, hr, hd, hm⟩ := receiptOk_inv (hrec _ hp)
        have := hack 0 (by omega) (hu.receipts path up rc t tok _ _ r m rfl hup hr hd hm)
        simpa using this

/-- **C42 is false of the code.** For every server (any secret, with or without authentication), there is
an execution in which an object of two parts is committed although its second part was never written:
the receipt for part 0 carries the same MAC as an upload token for an object of size 0, which needs no
receipts. The bytes of the second part are then whatever the pages held before. -/
theorem C42_violated_commit_with_missing_parts (S : Srv) (hl : S.pages.lpage ≤ 62) :
    ∃ h tok, Exec S h ∧ .created tok [98] (2 * 2 ^ S.pages.lpage) ∈ h ∧ (∃ k n, .committed tok k n ∈ h) ∧
      ¬ AllPartsAcked S h tok (2 * 2 ^ S.pages.lpage) := by
  generalize hL : 2 ^ S.pages.lpage = L
  have hLpos : 0 < L := hL ▸ Nat.two_pow_pos _
  have hLle : L ≤ 2 ^ 62 := hL ▸ Nat.pow_le_pow_right (by decide) hl
  let tok : Tok := ⟨7, 0⟩
  have hv : tok.Valid := by constructor <;> decide
  let h3 : List Ev := [.issued (.write [98]) 100, .issued (.commit [98]) 100, .issued (.create [98] (2 * L)) 100]
  have e3 : Exec S h3 :=
    .issue (.issue (.issue .nil ⟨by decide, by omega⟩ (by decide)) (by show (1 : Nat) < _; decide) (by decide))
      (by show (1 : Nat) < _; decide) (by decide)
  have hkey : parseKey [47, 98] = some [98] := by simp [parseKey, pctDecode]
  let h4 : List Ev := .created tok [98] (2 * L) :: h3
  have e4 : Exec S h4 := by
    refine .create (path := [47, 98]) (t := newToken S (.create [98] (2 * L)) 100) (now := 5) e3
      (unforged_of_issued S h3 _ (.create [98] (2 * L)) 100 (by simp [required, hkey]) (by simp [h3]) (by decide) rfl
        (by simp) (by simp)) ?_ (by omega) hv (by simp [h3])
    simp [preflight, hkey, verifyAuth_new S (now := 5) (e := 100) (by decide) (by decide)]
  have hrel4 : released S.pages h4 (encPair tok (2 * L)) := ⟨_, List.mem_cons_self, rfl⟩
  let h5 : List Ev := .acked tok 0 L :: h4
  have e5 : Exec S h5 := by
    refine .write (path := [47, 98]) (up := uploadToken S tok (2 * L)) (t := newToken S (.write [98]) 100) (now := 5)
      (body := []) (key := [98]) (size := 2 * L) e4
      (unforged_of_issued S h4 _ (.write [98]) 100 (by simp [required, hkey]) (by simp [h4, h3]) (by decide) rfl ?_ (by simp))
      ?_ (by simp [h4]) (by decide) ?_
    · intro path up rc t off len body hreq
      simp only [reduceCtorEq, false_or, Req.write.injEq] at hreq
      exact ⟨tok, 2 * L, hreq.2.2.2.1.symm, hrel4⟩
    · simp [preflight, hkey, verifyAuth_new S (now := 5) (e := 100) (by decide) (by decide), parseUpload_uploadToken S hv (n := 2 * L) (by omega)]
    · have : isMultipleOfPow2 0 S.pages.lpage = true := (isMultipleOfPow2_iff _ _).2 ⟨0, by simp⟩
      unfold RW.writeCheck
      rw [hL, if_neg (by rw [this]; simp), if_neg (by omega), if_neg (by omega), if_neg (by omega)]
  have hrel5 : released S.pages h5 (encPair tok 0) := ⟨_, List.mem_cons_self, by simp [Ev.message]⟩
  have e6 : Exec S (.committed tok [98] 0 :: h5) := by
    refine .commit (path := [47, 98]) (up := uploadToken S tok 0) (rc := []) (t := newToken S (.commit [98]) 100)
      (now := 5) (key' := [98]) (size := 2 * L) e5
      (unforged_of_issued S _ _ (.commit [98]) 100 (by simp [required, hkey]) (by simp [h5, h4, h3]) (by decide) rfl ?_ ?_)
      ?_ (by simp [h5, h4]) hkey (parseUpload_uploadToken S hv (by decide))
    · intro path up rc t off len body hreq
      simp at hreq
      exact ⟨tok, 0, hreq.2.1.symm, hrel5⟩
    · intro path up rc t tk cl part r m hreq hp hr hd hm
      simp only [Req.commit.injEq] at hreq
      obtain ⟨rfl, rfl, rfl, rfl⟩ := hreq
      rw [parseUpload_uploadToken S hv (by decide)] at hp
      simp at hp
      obtain ⟨rfl, rfl⟩ := hp
      cases part with
      | zero => exact hrel5
      | succ p => simp [splitComma] at hr
    · simp [preflight, hkey, verifyAuth_new S (now := 5) (e := 100) (by decide) (by decide), parseUpload_uploadToken S hv (n := 0) (by decide), verifyReceipts, partCount]
  refine ⟨_, tok, e6, by simp [h5, h4], ⟨[98], 0, by simp⟩, ?_⟩
  intro hall
  have := hall L (by rw [hL]; exact Nat.mod_self L) (by omega)
  simp [h5, h4, h3, hL] at this
  omega

/-! ### C46 -/

/-- **C46 (success is only reported on success).** Outside batch creation, a 2xx status means that the
request passed its checks, that the store was called, and that the call succeeded. -/
theorem C46_success_only_on_success_partial (S : Srv) (now : Nat) (req : Req) (store : Call → Except OpError Unit)
    (hb : ∀ t b, req ≠ .batch t b) (h2 : 200 ≤ serve S now req store ∧ serve S now req store < 300) :
    ∃ c, preflight S now req = .ok c ∧ store c = .ok () := by
  unfold serve at h2
  split at h2
  · rename_i e he
    exfalso
    have : e = 0 ∨ e = 401 ∨ e = 404 ∨ e = 412 ∨ e = 416 := by
      cases req with
      | batch t b => exact absurd rfl (hb t b)
      | commit path up rc t =>
        simp only [preflight] at he
        repeat' split at he
        all_goals (simp at he; try omega)
      | create path size t =>
        simp only [preflight] at he
        repeat' split at he
        all_goals (simp at he; try omega)
      | delete path t =>
        simp only [preflight] at he
        repeat' split at he
        all_goals (simp at he; try omega)
      | inspect path t =>
        simp only [preflight] at he
        repeat' split at he
        all_goals (simp at he; try omega)
      | read path range t =>
        simp only [preflight] at he
        split at he
        · simp at he; omega
        · split at he
          · simp at he; omega
          · split at he
            · rename_i x hr
              simp at he
              unfold rangeOf at hr
              split at hr
              · simp at hr; omega
              · simp only at hr
                split at hr <;> simp at hr
                omega
            · simp at he
      | write path off len up t body =>
        simp only [preflight] at he
        repeat' split at he
        all_goals (simp at he; try omega)
    omega
  · rename_i c hc
    refine ⟨c, hc, ?_⟩
    cases hs : store c with
    | ok u => rfl
    | error e =>
      exfalso
      rw [hs] at h2
      cases req with
      | batch t b => exact absurd rfl (hb t b)
      | _ => cases e <;> simp [respond, errStatus] at h2

/-- **C46 (errors).** A failed store call is reported with a 4xx status that depends only on the error:
404 exactly for a missing object, 413 exactly for oversized metadata, 408 exactly for a broken request
body, and 416 for the four range and length errors. -/
theorem C46_error_classes (req : Req) (e : OpError) (hb : ∀ t b, req ≠ .batch t b) :
    respond req (.error e) = errStatus e ∧
    (errStatus e = 404 ↔ e = .objectNotFound) ∧ (errStatus e = 413 ↔ e = .objectMetadataTooLarge) ∧
    (errStatus e = 408 ↔ e = .dataStreamError) ∧
    (errStatus e = 416 ↔ e = .dataStreamLengthMismatch ∨ e = .inexactWriteLength ∨ e = .rangeOutOfBounds ∨ e = .unalignedWrite) := by
  refine ⟨?_, ?_⟩
  · cases req <;> simp [respond] at hb ⊢
  · cases e <;> decide

/-- **C46 is false of the code as stated**: four different storage errors share one status, a missing
upload token has the status of a missing object, and batch creation answers 200 whatever happens. -/
theorem C46_violated_errors_share_status :
    (OpError.dataStreamLengthMismatch ≠ .rangeOutOfBounds ∧
      errStatus .dataStreamLengthMismatch = errStatus .rangeOutOfBounds) ∧
    (∀ t b e, respond (.batch t b) (.error e) = 200) := by
  refine ⟨by decide, fun t b e => rfl⟩

/-! ### non-vacuity -/

/-- a concrete codec meeting the contract `B64`: two letters per byte -/
def nibbleEnc (b : Bytes) : List Char :=
  b.flatMap (fun x => [Char.ofNat (97 + x.toNat / 16), Char.ofNat (97 + x.toNat % 16)])

def nibbleDec : List Char → Option Bytes
  | [] => some []
  | [_] => none
  | c :: d :: r =>
    if 97 ≤ c.toNat ∧ c.toNat < 113 ∧ 97 ≤ d.toNat ∧ d.toNat < 113 then
      (nibbleDec r).map (fun l => UInt8.ofNat (16 * (c.toNat - 97) + (d.toNat - 97)) :: l)
    else none

theorem toNat_ofNat_small {n : Nat} (h : n < 128) : (Char.ofNat n).toNat = n := by
  have hv : n.isValidChar := Or.inl (by omega)
  simp [Char.ofNat, hv, Char.toNat, Char.ofNatAux]

def nibble64 : B64 where
  enc := nibbleEnc
  dec := nibbleDec
  dec_enc := by
    intro b
    induction b with
    | nil => rfl
    | cons x b ih =>
      have hx := x.toNat_lt
      have h1 : (Char.ofNat (97 + x.toNat / 16)).toNat = 97 + x.toNat / 16 := toNat_ofNat_small (by omega)
      have h2 : (Char.ofNat (97 + x.toNat % 16)).toNat = 97 + x.toNat % 16 := toNat_ofNat_small (by omega)
      simp only [nibbleEnc, List.flatMap_cons, List.cons_append, List.nil_append, nibbleDec, h1, h2]
      rw [if_pos (by omega)]
      simp only [nibbleEnc] at ih
      rw [ih]
      simp only [Option.map_some, Option.some.injEq, List.cons.injEq, and_true]
      apply UInt8.toNat_inj.1
      rw [UInt8.toNat_ofNat']
      omega
  enc_dec := by
    intro s
    induction s using nibbleDec.induct with
    | case1 => intro b h; simp [nibbleDec] at h; subst h; rfl
    | case2 => intro b h; simp [nibbleDec] at h
    | case3 c d r hc ih =>
      intro b h
      simp only [nibbleDec, if_pos hc, Option.map_eq_some_iff] at h
      obtain ⟨l, hl, rfl⟩ := h
      have := ih l hl
      simp only [nibbleEnc, List.flatMap_cons] at this ⊢
      rw [this]
      have e : (UInt8.ofNat (16 * (c.toNat - 97) + (d.toNat - 97))).toNat = 16 * (c.toNat - 97) + (d.toNat - 97) := by
        rw [UInt8.toNat_ofNat']; omega
      rw [e, show 97 + (16 * (c.toNat - 97) + (d.toNat - 97)) / 16 = c.toNat by omega,
        show 97 + (16 * (c.toNat - 97) + (d.toNat - 97)) % 16 = d.toNat by omega, Char.ofNat_toNat, Char.ofNat_toNat]
      rfl
    | case4 c d r hc => intro b h; simp [nibbleDec, hc] at h
  alphabet := by
    intro b c h
    simp only [nibbleEnc, List.mem_flatMap] at h
    obtain ⟨x, _, h⟩ := h
    have hx := x.toNat_lt
    have h1 : (Char.ofNat (97 + x.toNat / 16)).toNat = 97 + x.toNat / 16 := toNat_ofNat_small (by omega)
    have h2 : (Char.ofNat (97 + x.toNat % 16)).toNat = 97 + x.toNat % 16 := toNat_ofNat_small (by omega)
    simp only [List.mem_cons, List.not_mem_nil, or_false] at h
    unfold B64Char
    rcases h with rfl | rfl <;> omega
  empty := rfl

/-- a server meeting the contracts of `Srv` (its "MAC" pads the message; only the shape matters here) -/
def exSrv : Srv where
  authEnabled := true
  mac := fun m => (m ++ List.replicate 32 0).take 32
  mac_len := by intro m; simp
  b64 := nibble64
  pages := ⟨9, 24⟩

/-- C41's premises are met by a fresh token for reading key "k" -/
example : Exec exSrv [.issued (.read [107]) 50] ∧ verifyToken exSrv 49 (newToken exSrv (.read [107]) 50) (.read [107]) = true :=
  ⟨.issue .nil (by show (1 : Nat) < _; decide) (by decide), verifyToken_new _ (by decide) (by decide)⟩

/-- the token and receipt theorems are about reachable situations: the executions built in
`C42_violated_commit_with_missing_parts` and `C41_violated_upload_not_bound_to_key` exist for every
server; and an honest upload exists too: create, write both parts, commit with both receipts. -/
theorem C42_honest_upload_commits (S : Srv) (tok : Tok) (hv : tok.Valid) (key : Bytes) (hk : key.length < 2 ^ 32)
    (path : Bytes) (hpath : parseKey path = some key) (size : Nat) (hs : size < 2 ^ 64) (now e : Nat) (hn : now < e) (he : e < 2 ^ 64) (rc : List Char)
    (hrc : ∀ p, p * 2 ^ S.pages.lpage < size → (splitComma rc)[p]? = some (writeReceipt S tok p)) :
    preflight S now (.commit path (uploadToken S tok size) rc (newToken S (.commit key) e)) = .ok (.commit tok) := by
  have : verifyReceipts S (splitComma rc) tok size = true := by
    simp only [verifyReceipts, List.all_eq_true, List.mem_range]
    intro p hp
    rw [partCount_iff (Nat.two_pow_pos _)] at hp
    simp [receiptOk, hrc p hp, writeReceipt, S.b64.dec_enc, S.mac_len]
  simp [preflight, hpath, verifyAuth_new S he hn, parseUpload_uploadToken S hv hs, this]

end Props
end Blobd
