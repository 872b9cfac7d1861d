import Verif.Spec.Http
import Verif.Proofs.MsgPack
import Verif.Proofs.Util
import Mathlib.Tactic.ByContra
namespace Blobd
namespace Http

open MP (Bytes)

theorem arr2 : MP.arr 2 = [0x92] := by decide

theorem encPair_cons (t : Tok) (n : Nat) :
    encPair t n = 0x92 :: 0x92 :: (MP.u128 t.id ++ MP.uint t.part ++ MP.uint n) := by
  simp [encPair, arr2]

theorem encAction_head (a : Action) : ∃ r, encAction a = 0x81 :: r := by
  cases a <;> simp [encAction, MP.variant]

theorem encAuth_ne_encPair (a : Action) (e : Nat) (t : Tok) (n : Nat) : encAuth a e ≠ encPair t n := by
  obtain ⟨r, hr⟩ := encAction_head a
  rw [encPair_cons]
  simp [encAuth, arr2, hr]

theorem decPair_encPair {t : Tok} {n : Nat} (ht : t.Valid) (hn : n < 2 ^ 64) (r : Bytes) :
    decPair (encPair t n ++ r) = some (t, n) := by
  obtain ⟨h1, h2⟩ := ht
  have e1 := MP.getArr_arr (n := 2) (by decide)
  unfold decPair encPair
  simp only [List.append_assoc]
  rw [e1]; simp only
  rw [e1]; simp only
  rw [MP.getU128_u128 h1]; simp only
  rw [MP.getUint_uint h2]; simp only
  rw [MP.getUint_uint hn]

theorem decPair_encPair' {t : Tok} {n : Nat} (ht : t.Valid) (hn : n < 2 ^ 64) :
    decPair (encPair t n) = some (t, n) := by
  simpa using decPair_encPair ht hn []

theorem decPair_encAuth (a : Action) (e : Nat) : decPair (encAuth a e) = none := by
  obtain ⟨r, hr⟩ := encAction_head a
  have : encAuth a e = 0x92 :: 0x81 :: (r ++ MP.uint e) := by simp [encAuth, arr2, hr]
  rw [this]
  simp [decPair, MP.getArr]

theorem encPair_inj {t t' : Tok} {n n' : Nat} (ht : t.Valid) (hn : n < 2 ^ 64) (ht' : t'.Valid) (hn' : n' < 2 ^ 64)
    (h : encPair t n = encPair t' n') : t = t' ∧ n = n' := by
  have := decPair_encPair' ht hn
  rw [h, decPair_encPair' ht' hn'] at this
  simp at this
  exact ⟨this.1.symm, this.2.symm⟩

/-- decoder of the auth message, used only to show that the encoding is injective -/
def decAction (b : Bytes) : Option (Action × Bytes) :=
  match b with
  | 0x81 :: b =>
    match MP.getStr b with
    | some (name, b) =>
      match MP.getArr b with
      | some (_, b) =>
        if name = nBatch then some (.batchCreate, b)
        else
          match MP.getBytes b with
          | some (k, b) =>
            if name = nCommit then some (.commit k, b)
            else if name = nCreate then
              match MP.getUint b with
              | some (n, b) => some (.create k n, b)
              | none => none
            else if name = nDelete then some (.delete k, b)
            else if name = nInspect then some (.inspect k, b)
            else if name = nRead then some (.read k, b)
            else some (.write k, b)
          | none => none
      | none => none
    | none => none
  | _ => none

theorem decAction_encAction {a : Action} (ha : a.Valid) (r : Bytes) :
    decAction (encAction a ++ r) = some (a, r) := by
  cases a with
  | batchCreate =>
    simp only [encAction, MP.variant, List.cons_append, decAction, List.append_assoc]
    rw [MP.getStr_str (by decide)]; simp only
    rw [MP.getArr_arr (by decide)]; simp
  | create k n =>
    obtain ⟨h1, h2⟩ := ha
    simp only [encAction, MP.variant, List.cons_append, decAction, List.append_assoc]
    rw [MP.getStr_str (by decide)]; simp only
    rw [MP.getArr_arr (by decide)]; simp only
    rw [if_neg (by decide), MP.getBytes_bytes h1]; simp only
    rw [if_neg (by decide), if_pos trivial, MP.getUint_uint h2]
  | commit k =>
    simp only [encAction, MP.variant, List.cons_append, decAction, List.append_assoc]
    rw [MP.getStr_str (by decide)]; simp only
    rw [MP.getArr_arr (by decide)]; simp only
    rw [if_neg (by decide), MP.getBytes_bytes ha]; simp only
    rw [if_pos trivial]
  | delete k =>
    simp only [encAction, MP.variant, List.cons_append, decAction, List.append_assoc]
    rw [MP.getStr_str (by decide)]; simp only
    rw [MP.getArr_arr (by decide)]; simp only
    rw [if_neg (by decide), MP.getBytes_bytes ha]; simp only
    rw [if_neg (by decide), if_neg (by decide), if_pos trivial]
  | inspect k =>
    simp only [encAction, MP.variant, List.cons_append, decAction, List.append_assoc]
    rw [MP.getStr_str (by decide)]; simp only
    rw [MP.getArr_arr (by decide)]; simp only
    rw [if_neg (by decide), MP.getBytes_bytes ha]; simp only
    rw [if_neg (by decide), if_neg (by decide), if_neg (by decide), if_pos trivial]
  | read k =>
    simp only [encAction, MP.variant, List.cons_append, decAction, List.append_assoc]
    rw [MP.getStr_str (by decide)]; simp only
    rw [MP.getArr_arr (by decide)]; simp only
    rw [if_neg (by decide), MP.getBytes_bytes ha]; simp only
    rw [if_neg (by decide), if_neg (by decide), if_neg (by decide), if_neg (by decide), if_pos trivial]
  | write k =>
    simp only [encAction, MP.variant, List.cons_append, decAction, List.append_assoc]
    rw [MP.getStr_str (by decide)]; simp only
    rw [MP.getArr_arr (by decide)]; simp only
    rw [if_neg (by decide), MP.getBytes_bytes ha]; simp only
    rw [if_neg (by decide), if_neg (by decide), if_neg (by decide), if_neg (by decide), if_neg (by decide)]

theorem encAuth_inj {a a' : Action} {e e' : Nat} (ha : a.Valid) (ha' : a'.Valid) (he : e < 2 ^ 64) (he' : e' < 2 ^ 64)
    (h : encAuth a e = encAuth a' e') : a = a' ∧ e = e' := by
  simp only [encAuth, arr2, List.cons_append, List.nil_append, List.cons.injEq, true_and] at h
  have h1 := decAction_encAction ha (MP.uint e)
  rw [h, decAction_encAction ha'] at h1
  simp only [Option.some.injEq, Prod.mk.injEq] at h1
  refine ⟨h1.1.symm, ?_⟩
  have h2 := MP.getUint_uint he []
  have h3 := MP.getUint_uint he' []
  rw [h1.2] at h3
  rw [h2] at h3
  simpa using h3

/-! ### invariants of executions -/

structure HInv (S : Srv) (h : List Ev) : Prop where
  issued : ∀ a e, Ev.issued a e ∈ h → a.Valid ∧ e < 2 ^ 64
  created : ∀ t k s, Ev.created t k s ∈ h → t.Valid ∧ s < 2 ^ 64
  once : ∀ t k s k' s', Ev.created t k s ∈ h → Ev.created t k' s' ∈ h → k = k' ∧ s = s'
  acked : ∀ t o l, Ev.acked t o l ∈ h → o < 2 ^ 64 ∧
    ∃ k s, Ev.created t k s ∈ h ∧ RW.writeCheck S.pages s o l = none

theorem exec_inv {S : Srv} {h : List Ev} (hx : Exec S h) : HInv S h := by
  induction hx with
  | nil => constructor <;> simp
  | issue _ ha he ih =>
    obtain ⟨i1, i2, i3, i4⟩ := ih
    refine ⟨?_, by simpa using i2, by simpa using i3, by simpa using i4⟩
    intro a e hm
    simp only [List.mem_cons, Ev.issued.injEq] at hm
    rcases hm with ⟨rfl, rfl⟩ | hm
    · exact ⟨ha, he⟩
    · exact i1 _ _ hm
  | @create h path size t now key tok _ _ _ hs ht hf ih =>
    obtain ⟨i1, i2, i3, i4⟩ := ih
    refine ⟨by simpa using i1, ?_, ?_, ?_⟩
    · intro t k s hm
      simp only [List.mem_cons, Ev.created.injEq] at hm
      rcases hm with ⟨rfl, rfl, rfl⟩ | hm
      · exact ⟨ht, hs⟩
      · exact i2 _ _ _ hm
    · intro t k s k' s' hm hm'
      simp only [List.mem_cons, Ev.created.injEq] at hm hm'
      rcases hm with ⟨e1, e2, e3⟩ | hm <;> rcases hm' with ⟨e4, e5, e6⟩ | hm'
      · exact ⟨e2.trans e5.symm, e3.trans e6.symm⟩
      · subst e1; exact absurd hm' (hf _ _)
      · subst e4; exact absurd hm (hf _ _)
      · exact i3 _ _ _ _ _ hm hm'
    · intro t o l hm
      simp only [List.mem_cons, reduceCtorEq, false_or] at hm
      obtain ⟨a, k, s, b, c⟩ := i4 _ _ _ hm
      exact ⟨a, k, s, List.mem_cons_of_mem _ b, c⟩
  | @write h path off len up t body now tok key size _ _ _ hc ho hw ih =>
    obtain ⟨i1, i2, i3, i4⟩ := ih
    refine ⟨by simpa using i1, by simpa using i2, by simpa using i3, ?_⟩
    intro t o l hm
    simp only [List.mem_cons, Ev.acked.injEq] at hm
    rcases hm with ⟨rfl, rfl, rfl⟩ | hm
    · exact ⟨ho, key, size, List.mem_cons_of_mem _ hc, hw⟩
    · obtain ⟨a, k, s, b, c⟩ := i4 _ _ _ hm
      exact ⟨a, k, s, List.mem_cons_of_mem _ b, c⟩
  | commit _ _ _ _ _ _ ih =>
    obtain ⟨i1, i2, i3, i4⟩ := ih
    exact ⟨by simpa using i1, by simpa using i2, by simpa using i3, by simpa using i4⟩

theorem partCount_iff {n d p : Nat} (hd : 0 < d) : p < partCount n d ↔ p * d < n := by
  unfold partCount
  have h := Nat.div_add_mod n d
  have hm := Nat.mod_lt n hd
  constructor
  · intro hp
    split at hp
    · have : p * d ≤ n / d * d := Nat.mul_le_mul_right d (by omega)
      have := Nat.mul_comm d (n / d)
      omega
    · have : (p + 1) * d ≤ n / d * d := Nat.mul_le_mul_right d (by omega)
      have := Nat.mul_comm d (n / d)
      have := Nat.add_mul p 1 d
      omega
  · intro hp
    by_contra hc
    have hcm := Nat.mul_comm d (n / d)
    split at hc
    · have hle : n / d + 1 ≤ p := by omega
      have : (n / d + 1) * d ≤ p * d := Nat.mul_le_mul_right d hle
      rw [Nat.add_mul] at this
      omega
    · have hle : n / d ≤ p := by omega
      have : (n / d) * d ≤ p * d := Nat.mul_le_mul_right d hle
      omega

theorem writeCheck_none {pages : Pages} {s o l : Nat} (h : RW.writeCheck pages s o l = none) :
    o % 2 ^ pages.lpage = 0 ∧ l = min (2 ^ pages.lpage) (s - o) ∧ o ≤ s := by
  unfold RW.writeCheck at h
  split at h
  · simp at h
  split at h
  · simp at h
  split at h
  · simp at h
  split at h
  · simp at h
  rename_i h1 h2 h3 h4
  refine ⟨?_, by omega, by omega⟩
  simpa [isMultipleOfPow2_iff, Nat.dvd_iff_mod_eq_zero] using h1

/-- a released pair message comes from a creation or an acknowledged write of that upload -/
theorem released_pair {S : Srv} {h : List Ev} (hi : HInv S h) {t : Tok} {n : Nat} (ht : t.Valid) (hn : n < 2 ^ 64)
    (hr : released S.pages h (encPair t n)) :
    (∃ k, Ev.created t k n ∈ h) ∨ ∃ o l, Ev.acked t o l ∈ h ∧ o / 2 ^ S.pages.lpage = n := by
  obtain ⟨e, he, hm⟩ := hr
  cases e with
  | issued a x =>
    simp only [Ev.message, Option.some.injEq] at hm
    exact absurd hm (encAuth_ne_encPair _ _ _ _)
  | created t' k s =>
    simp only [Ev.message, Option.some.injEq] at hm
    have := hi.created _ _ _ he
    obtain ⟨rfl, rfl⟩ := encPair_inj this.1 this.2 ht hn hm
    exact Or.inl ⟨k, he⟩
  | acked t' o l =>
    simp only [Ev.message, Option.some.injEq] at hm
    obtain ⟨ho, k, s, hc, _⟩ := hi.acked _ _ _ he
    have := hi.created _ _ _ hc
    obtain ⟨rfl, h2⟩ := encPair_inj this.1 (Nat.lt_of_le_of_lt (Nat.div_le_self _ _) ho) ht hn hm
    exact Or.inr ⟨o, l, he, h2⟩
  | committed => simp [Ev.message] at hm

theorem released_auth {S : Srv} {h : List Ev} (hi : HInv S h) {a : Action} {e : Nat} (ha : a.Valid) (he : e < 2 ^ 64)
    (hr : released S.pages h (encAuth a e)) : Ev.issued a e ∈ h := by
  obtain ⟨ev, hev, hm⟩ := hr
  cases ev with
  | issued a' x =>
    simp only [Ev.message, Option.some.injEq] at hm
    have := hi.issued _ _ hev
    obtain ⟨rfl, rfl⟩ := encAuth_inj this.1 ha this.2 he hm
    exact hev
  | created t' k s =>
    simp only [Ev.message, Option.some.injEq] at hm
    exact absurd hm.symm (encAuth_ne_encPair _ _ _ _)
  | acked t' o l =>
    simp only [Ev.message, Option.some.injEq] at hm
    exact absurd hm.symm (encAuth_ne_encPair _ _ _ _)
  | committed => simp [Ev.message] at hm

theorem verifyToken_new (S : Srv) {now : Nat} {a : Action} {e : Nat} (he : e < 2 ^ 64) (hn : now < e) :
    verifyToken S now (newToken S a e) a = true := by
  unfold verifyToken newToken
  rw [S.b64.dec_enc]
  have h8 : (beBytes 8 e).length = 8 := length_beBytes 8 e
  simp only [List.length_append, h8, S.mac_len]
  rw [if_neg (by simp)]
  have ht : (beBytes 8 e ++ S.mac (encAuth a e)).take 8 = beBytes 8 e := by
    rw [List.take_append_of_le_length (by omega)]; simp [List.take_of_length_le, h8]
  have hd : (beBytes 8 e ++ S.mac (encAuth a e)).drop 8 = S.mac (encAuth a e) := by
    rw [List.drop_append_of_le_length (by omega)]; simp [List.drop_of_length_le, h8]
  simp only [ht, hd, beVal_beBytes_of_lt (n := 8) (x := e) (by omega), macVerify, S.mac_len]
  simp
  omega

theorem verifyAuth_new (S : Srv) {now : Nat} {a : Action} {e : Nat} (he : e < 2 ^ 64) (hn : now < e) :
    verifyAuth S now (newToken S a e) a = true := by
  simp [verifyAuth, verifyToken_new S he hn]

theorem verifyToken_inv {S : Srv} {now : Nat} {t : List Char} {a : Action} (h : verifyToken S now t a = true) :
    ∃ raw, S.b64.dec t = some raw ∧ raw.length = 40 ∧
      S.mac (encAuth a (beVal (raw.take 8))) = raw.drop 8 ∧ now < beVal (raw.take 8) := by
  unfold verifyToken at h
  split at h
  · simp at h
  · rename_i raw hr
    refine ⟨raw, hr, ?_⟩
    split at h
    · simp at h
    · rename_i hl
      simp only [macVerify] at h
      simp at h
      exact ⟨by omega, h.1.2, by omega⟩

theorem parseUpload_uploadToken (S : Srv) {t : Tok} {n : Nat} (ht : t.Valid) (hn : n < 2 ^ 64) :
    parseUpload S (uploadToken S t n) = some (t, n) := by
  unfold parseUpload uploadToken
  rw [S.b64.dec_enc]
  have hl := S.mac_len (encPair t n)
  have h1 : (S.mac (encPair t n) ++ encPair t n).take 32 = S.mac (encPair t n) := by
    rw [List.take_append_of_le_length (by omega)]; simp [List.take_of_length_le, hl]
  have h2 : (S.mac (encPair t n) ++ encPair t n).drop 32 = encPair t n := by
    rw [List.drop_append_of_le_length (by omega)]; simp [List.drop_of_length_le, hl]
  simp only [h1, h2, List.length_append, hl]
  rw [if_neg (by simp [encPair_cons]), if_neg (by simp)]
  exact decPair_encPair' ht hn

theorem parseUpload_inv {S : Srv} {s : List Char} {p : Tok × Nat} (h : parseUpload S s = some p) :
    ∃ raw, S.b64.dec s = some raw ∧ 32 < raw.length ∧ S.mac (raw.drop 32) = raw.take 32 ∧ decPair (raw.drop 32) = some p := by
  unfold parseUpload at h
  split at h
  · simp at h
  · rename_i raw hr
    split at h
    · simp at h
    · split at h
      · simp at h
      · rename_i h1 h2
        simp at h2
        exact ⟨raw, hr, by omega, h2.symm, h⟩

/-- an accepted upload token was released for the very pair it carries -/
theorem parseUpload_released {S : Srv} {h : List Ev} (hi : HInv S h) {s : List Char} {t : Tok} {n : Nat}
    (hp : parseUpload S s = some (t, n))
    (hu : ∀ raw, S.b64.dec s = some raw → S.mac (raw.drop 32) = raw.take 32 → released S.pages h (raw.drop 32)) :
    t.Valid ∧ n < 2 ^ 64 ∧ released S.pages h (encPair t n) := by
  obtain ⟨raw, hr, _, hm, hd⟩ := parseUpload_inv hp
  have hrel := hu raw hr hm
  obtain ⟨ev, hev, hmsg⟩ := id hrel
  cases ev with
  | issued a x =>
    simp only [Ev.message, Option.some.injEq] at hmsg
    rw [← hmsg, decPair_encAuth] at hd
    simp at hd
  | created t' k s' =>
    simp only [Ev.message, Option.some.injEq] at hmsg
    have hv := hi.created _ _ _ hev
    rw [← hmsg, decPair_encPair' hv.1 hv.2] at hd
    simp at hd
    obtain ⟨rfl, rfl⟩ := hd
    exact ⟨hv.1, hv.2, hmsg ▸ hrel⟩
  | acked t' o l =>
    simp only [Ev.message, Option.some.injEq] at hmsg
    obtain ⟨ho, k, s, hc, _⟩ := hi.acked _ _ _ hev
    have hv := hi.created _ _ _ hc
    have hlt : o / 2 ^ S.pages.lpage < 2 ^ 64 := Nat.lt_of_le_of_lt (Nat.div_le_self _ _) ho
    rw [← hmsg, decPair_encPair' hv.1 hlt] at hd
    simp at hd
    obtain ⟨rfl, rfl⟩ := hd
    exact ⟨hv.1, hlt, hmsg ▸ hrel⟩
  | committed => simp [Ev.message] at hmsg

theorem preflight_commit {S : Srv} {now : Nat} {path : Bytes} {up rc t : List Char} {tok : Tok}
    (h : preflight S now (.commit path up rc t) = .ok (.commit tok)) :
    ∃ key size, parseKey path = some key ∧ verifyAuth S now t (.commit key) = true ∧
      parseUpload S up = some (tok, size) ∧ verifyReceipts S (splitComma rc) tok size = true := by
  simp only [preflight] at h
  split at h
  · simp at h
  · rename_i key hk
    split at h
    · simp at h
    · rename_i ha
      split at h
      · simp at h
      · rename_i tok' size hp
        split at h
        · rename_i hv
          simp at h
          subst h
          exact ⟨key, size, hk, by simpa using ha, hp, hv⟩
        · simp at h

theorem receiptOk_inv {S : Srv} {rs : List (List Char)} {t : Tok} {p : Nat} (h : receiptOk S rs t p = true) :
    ∃ r m, rs[p]? = some r ∧ S.b64.dec r = some m ∧ S.mac (encPair t p) = m := by
  unfold receiptOk at h
  split at h
  · simp at h
  · rename_i r hr
    split at h
    · simp at h
    · rename_i m hm
      simp at h
      exact ⟨r, m, hr, hm, h.2⟩

end Http
end Blobd
