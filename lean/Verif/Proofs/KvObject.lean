import Verif.Model.KvObject
/-! # Round trips of the KV tuple codec -/
namespace Blobd
namespace Kv

/-- keys that occur in tuples: literals of 1..254 bytes, hashes of 32 bytes -/
def KeyOk : Key → Prop
  | .hash h => h.length = 32
  | .literal l => 1 ≤ l.length ∧ l.length ≤ 254

/-- tuple data that can be represented -/
def DataOk : Data → Prop
  | .inline d => d.length < 2 ^ 32
  | .heap size off => 1 ≤ size ∧ size ≤ 2 ^ 24 ∧ off % 512 = 0 ∧ off < 2 ^ 48

theorem consume_append (a b : List Byte) : consume a.length (a ++ b) = some (a, b) := by
  simp [consume]

theorem consume_append' {n : Nat} (a b : List Byte) (h : n = a.length) :
    consume n (a ++ b) = some (a, b) := by subst h; exact consume_append a b

theorem u8_ofNat_ne {a b : Nat} (ha : a < 256) (hb : b < 256) (h : a ≠ b) :
    UInt8.ofNat a ≠ UInt8.ofNat b := by
  intro e
  have := congrArg UInt8.toNat e
  simp at this
  omega

theorem key_roundtrip (k : Key) (hk : KeyOk k ∨ k = .literal []) :
    ∃ s, k.serialise = some s ∧ ∀ rest, Key.deserialise (s ++ rest) = some (k, rest) := by
  cases k with
  | hash h =>
    have hk : h.length = 32 := by simpa [KeyOk] using hk
    refine ⟨255 :: h, rfl, fun rest => ?_⟩
    simp only [Key.deserialise, List.cons_append]
    have : consume 1 ((255 : Byte) :: (h ++ rest)) = some ([255], h ++ rest) := by simp [consume]
    rw [this]
    simp [consume_append' h rest hk.symm]
  | literal l =>
    have hl : l.length ≤ 254 := by
      rcases hk with hk | hk
      · exact hk.2
      · cases hk; simp
    refine ⟨UInt8.ofNat l.length :: l, by simp [Key.serialise]; omega, fun rest => ?_⟩
    simp only [Key.deserialise, List.cons_append]
    have : consume 1 (UInt8.ofNat l.length :: (l ++ rest)) = some ([UInt8.ofNat l.length], l ++ rest) := by
      simp [consume]
    rw [this]
    have h1 : UInt8.ofNat l.length ≠ 255 := u8_ofNat_ne (b := 255) (by omega) (by omega) (by omega)
    have h2 : (UInt8.ofNat l.length).toNat = l.length := by simp; omega
    simp only [h1, if_false, consume_append' l rest h2]

theorem or_128 {n : Nat} (h : n < 128) : n ||| 128 = n + 128 := by
  have : ∀ n, n < 128 → n ||| 128 = n + 128 := by decide
  exact this n h

theorem data_head_tab : ∀ n, n < 128 →
    ((UInt8.ofNat (n ||| 128)) &&& 0b10000000 ≠ 0 ∧ (UInt8.ofNat (n ||| 128) &&& 0x7f).toNat = n) := by
  decide

theorem byte_lt_128_and : ∀ n, n < 128 → (UInt8.ofNat n) &&& 0b10000000 = 0 := by decide

theorem beBytes_head (n x : Nat) :
    ∃ t, beBytes (n + 1) x = UInt8.ofNat (x / 256 ^ n) :: t := by
  have key : ∀ n x, ∃ t, leBytes (n + 1) x = t ++ [UInt8.ofNat (x / 256 ^ n)] := by
    intro n
    induction n with
    | zero => intro x; exact ⟨[], by simp [leBytes]⟩
    | succ n ih =>
      intro x
      obtain ⟨t, ht⟩ := ih (x / 256)
      refine ⟨UInt8.ofNat x :: t, ?_⟩
      rw [leBytes, ht, Nat.div_div_eq_div_mul, Nat.pow_succ, Nat.mul_comm (256 ^ n)]
      rfl
  obtain ⟨t, ht⟩ := key n x
  exact ⟨t.reverse, by simp [beBytes, ht]⟩

theorem data_roundtrip (d : Data) (hd : DataOk d) :
    ∃ s, d.serialise = some s ∧ ∀ rest, Data.deserialise (s ++ rest) = some (d, rest) := by
  cases d with
  | inline i =>
    simp only [DataOk] at hd
    by_cases h : i.length < 127
    · refine ⟨UInt8.ofNat (i.length ||| 128) :: i, by simp only [Data.serialise]; rw [if_pos h],
        fun rest => ?_⟩
      obtain ⟨h1, h2⟩ := data_head_tab i.length (by omega)
      simp only [Data.deserialise, List.cons_append]
      rw [if_pos h1, h2, if_pos h, consume_append]
    · refine ⟨UInt8.ofNat (127 ||| 128) :: (leBytes 4 i.length ++ i), ?_, fun rest => ?_⟩
      · simp only [Data.serialise]; rw [if_neg h, if_pos hd]
      obtain ⟨h1, h2⟩ := data_head_tab 127 (by omega)
      simp only [Data.deserialise, List.cons_append]
      rw [if_pos h1, h2, if_neg (by omega), List.append_assoc,
        consume_append' (leBytes 4 i.length) (i ++ rest) (by simp)]
      have : leVal (leBytes 4 i.length) = i.length := leVal_leBytes_of_lt (by simpa using hd)
      simp only [this, consume_append]
  | heap size off =>
    obtain ⟨h1, h2, h3, h4⟩ := hd
    have hsh : off >>> 9 = off / 512 := by rw [Nat.shiftRight_eq_div_pow]
    have hlt : off / 512 < 2 ^ 39 := by omega
    refine ⟨beBytes 5 (off / 512) ++ leBytes 3 (size - 1), ?_, fun rest => ?_⟩
    · simp only [Data.serialise, hsh]
      rw [if_pos (by simpa using hlt), if_pos h1]
    obtain ⟨t, ht⟩ := beBytes_head 4 (off / 512)
    have hb : (UInt8.ofNat (off / 512 / 256 ^ 4)) &&& 0b10000000 = 0 :=
      byte_lt_128_and _ (by omega)
    have e : beBytes 5 (off / 512) ++ leBytes 3 (size - 1) ++ rest
        = UInt8.ofNat (off / 512 / 256 ^ 4) :: (t ++ leBytes 3 (size - 1) ++ rest) := by
      rw [show (5:Nat) = 4 + 1 from rfl, ht]; simp
    have e2 : Data.deserialise (beBytes 5 (off / 512) ++ leBytes 3 (size - 1) ++ rest) =
        match consume 5 (beBytes 5 (off / 512) ++ leBytes 3 (size - 1) ++ rest) with
      | some (o5, rest1) =>
        match consume 3 rest1 with
        | some (s3, rest') => some (.heap (leVal s3 + 1) (beVal o5 <<< 9), rest')
        | none => none
      | none => none := by
      conv => lhs; rw [e]
      simp only [Data.deserialise]
      rw [if_neg (by simp [hb]), ← e]
      rfl
    rw [e2, List.append_assoc, consume_append' (beBytes 5 (off / 512)) _ (by simp)]
    simp only
    rw [consume_append' (leBytes 3 (size - 1)) rest (by simp)]
    simp only
    rw [leVal_leBytes_of_lt (by omega), beVal_beBytes_of_lt (by omega), Nat.shiftLeft_eq]
    congr 3
    · omega
    · omega

theorem key_serialise_head (k : Key) (hk : KeyOk k) {s : List Byte} (h : k.serialise = some s) :
    ∃ b t, s = b :: t ∧ b ≠ 0 := by
  cases k with
  | hash hh => simp [Key.serialise] at h; exact ⟨255, hh, h.symm, by decide⟩
  | literal l =>
    obtain ⟨h1, h2⟩ := hk
    simp only [Key.serialise] at h
    rw [if_pos (by omega)] at h
    cases h
    exact ⟨_, _, rfl, u8_ofNat_ne (b := 0) (by omega) (by omega) (by omega)⟩

theorem serialiseTuples_some (l : List (Key × Data)) (hl : ∀ t ∈ l, KeyOk t.1 ∧ DataOk t.2) :
    ∃ s, serialiseTuples l = some s := by
  induction l with
  | nil => exact ⟨[], rfl⟩
  | cons t l ih =>
    obtain ⟨s, hs⟩ := ih (fun t ht => hl t (by simp [ht]))
    obtain ⟨a, ha, _⟩ := key_roundtrip t.1 (.inl (hl t (by simp)).1)
    obtain ⟨b, hb, _⟩ := data_roundtrip t.2 (hl t (by simp)).2
    obtain ⟨k, d⟩ := t
    simp only at ha hb
    exact ⟨_, by simp [serialiseTuples, ha, hb, hs]; rfl⟩

theorem bundleAux_roundtrip (l : List (Key × Data)) (hl : ∀ t ∈ l, KeyOk t.1 ∧ DataOk t.2)
    {s : List Byte} (hs : serialiseTuples l = some s) (tail : List Byte)
    (htail : tail = [] ∨ ∃ t, tail = 0 :: t) (fuel : Nat) (hf : s.length < fuel) :
    bundleDeserialiseAux fuel (s ++ tail) = some l := by
  induction l generalizing s fuel with
  | nil =>
    simp [serialiseTuples] at hs; subst hs
    cases fuel with
    | zero => simp at hf
    | succ n =>
      rcases htail with rfl | ⟨t, rfl⟩
      · simp [bundleDeserialiseAux]
      · simp [bundleDeserialiseAux]
  | cons t l ih =>
    obtain ⟨k, d⟩ := t
    obtain ⟨a, ha, ra⟩ := key_roundtrip k (.inl (hl (k, d) (by simp)).1)
    obtain ⟨b, hb, rb⟩ := data_roundtrip d (hl (k, d) (by simp)).2
    obtain ⟨c, hc⟩ := serialiseTuples_some l (fun t ht => hl t (by simp [ht]))
    simp only [serialiseTuples, ha, hb, hc, Option.some.injEq] at hs
    obtain ⟨b0, t0, hb0, hne⟩ := key_serialise_head k (hl (k, d) (by simp)).1 ha
    subst hs
    cases fuel with
    | zero => simp at hf
    | succ n =>
      have hlen : 1 ≤ a.length := by rw [hb0]; simp
      have e : a ++ b ++ c ++ tail = b0 :: (t0 ++ b ++ c ++ tail) := by rw [hb0]; simp
      have e2 : bundleDeserialiseAux (n + 1) (a ++ b ++ c ++ tail) =
          match Key.deserialise (a ++ b ++ c ++ tail) with
          | none => none
          | some (k, raw1) =>
            match Data.deserialise raw1 with
            | none => none
            | some (d, raw2) =>
              match bundleDeserialiseAux n raw2 with
              | none => none
              | some rest => some ((k, d) :: rest) := by
        conv => lhs; rw [e]
        simp only [bundleDeserialiseAux]
        rw [if_neg hne, ← e]
        rfl
      rw [e2, List.append_assoc, List.append_assoc, ra]
      simp only [rb]
      simp only [List.length_append] at hf
      rw [ih (fun t ht => hl t (by simp [ht])) hc n (by omega)]

theorem bundle_roundtrip (sp : Nat) (junk : Nat → Byte) (l : List (Key × Data))
    (hl : ∀ t ∈ l, KeyOk t.1 ∧ DataOk t.2) {p : List Byte} (h : serialiseBundle sp junk l = some p) :
    p.length = sp ∧ bundleDeserialise p = some l := by
  obtain ⟨s, hs⟩ := serialiseTuples_some l hl
  simp only [serialiseBundle, hs] at h
  split at h
  · cases h
  · rename_i hle
    simp only [Option.some.injEq] at h
    subst h
    constructor
    · split <;> simp <;> omega
    · unfold bundleDeserialise
      split
      · rename_i hlt
        simp only [List.append_assoc, List.cons_append, List.nil_append]
        exact bundleAux_roundtrip l hl hs _ (.inr ⟨_, rfl⟩) _ (by simp; omega)
      · rename_i hlt
        have : sp - s.length = 0 := by omega
        simp only [this, List.range_zero, List.map_nil]
        exact bundleAux_roundtrip l hl hs _ (.inl rfl) _ (by simp)

theorem serialiseBundle_isSome_iff (sp : Nat) (junk : Nat → Byte) (l : List (Key × Data))
    {s : List Byte} (hs : serialiseTuples l = some s) :
    (serialiseBundle sp junk l).isSome ↔ s.length ≤ sp := by
  simp only [serialiseBundle, hs]
  split
  · simp; omega
  · simp; omega

end Kv
end Blobd
