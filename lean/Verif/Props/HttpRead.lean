import Verif.Model.HttpRead
import Verif.Props.ReadWrite
/-!
# C44: HTTP range requests
-/
namespace Blobd
namespace Props

open Http
open MP (Bytes)
open RW

theorem digit_toNat {d : Nat} (h : d < 10) : (Char.ofNat (48 + d)).toNat = 48 + d := by
  have hv : (48 + d).isValidChar := Or.inl (by omega)
  simp [Char.ofNat, hv, Char.toNat, Char.ofNatAux]
  omega

theorem digitVal_digit {d : Nat} (h : d < 10) : digitVal (Char.ofNat (48 + d)) = some d := by
  match d, h with
  | 0, _ => decide
  | 1, _ => decide
  | 2, _ => decide
  | 3, _ => decide
  | 4, _ => decide
  | 5, _ => decide
  | 6, _ => decide
  | 7, _ => decide
  | 8, _ => decide
  | 9, _ => decide

theorem parseDigits_append (acc : Nat) (a b : List Char) :
    parseDigits acc (a ++ b) = (parseDigits acc a).bind (fun x => parseDigits x b) := by
  induction a generalizing acc with
  | nil => simp [parseDigits]
  | cons c a ih =>
    simp only [List.cons_append, parseDigits]
    split
    · rfl
    · split
      · exact ih _
      · rfl

theorem parseDigits_decStr (n : Nat) (h : n < 2 ^ 64) : parseDigits 0 (decStr n) = some n := by
  induction n using Nat.strongRecOn with
  | _ n ih =>
    unfold decStr
    split
    · rename_i hn
      simp only [parseDigits, digitVal_digit hn]
      rw [if_pos (by omega)]; simp
    · rename_i hn
      rw [parseDigits_append, ih (n / 10) (by omega) (by omega)]
      simp only [Option.bind_some, parseDigits, digitVal_digit (by omega : n % 10 < 10)]
      rw [if_pos (by omega), show n / 10 * 10 + n % 10 = n by omega]

theorem decStr_digit (n : Nat) : ∀ c ∈ decStr n, ∃ d, d < 10 ∧ c = Char.ofNat (48 + d) := by
  induction n using Nat.strongRecOn with
  | _ n ih =>
    unfold decStr
    split
    · rename_i hn
      intro c hc; simp at hc; exact ⟨n, hn, hc⟩
    · rename_i hn
      intro c hc
      simp at hc
      rcases hc with hc | hc
      · exact ih (n / 10) (by omega) c hc
      · exact ⟨n % 10, by omega, hc⟩

theorem decStr_ne_nil (n : Nat) : decStr n ≠ [] := by
  unfold decStr; split <;> simp

theorem decStr_no {n : Nat} {c : Char} (hc : c.toNat < 48) : c ∉ decStr n := by
  intro h
  obtain ⟨d, hd, rfl⟩ := decStr_digit n c h
  rw [digit_toNat hd] at hc; omega

theorem parseU64_decStr {n : Nat} (h : n < 2 ^ 64) : parseU64 (decStr n) = some n := by
  cases hd : decStr n with
  | nil => exact absurd hd (decStr_ne_nil n)
  | cons c r =>
    have hc : c ≠ '+' := by
      intro he
      have : '+' ∈ decStr n := by rw [hd, he]; simp
      exact decStr_no (by decide) this
    simp only [parseU64, if_neg hc]
    rw [← hd]; exact parseDigits_decStr n h

theorem parseBound_decStr {n : Nat} (h : n < 2 ^ 64) : parseBound (decStr n) = some (.included n) := by
  simp [parseBound, decStr_ne_nil, parseU64_decStr h]

theorem splitComma_no (s : List Char) (h : ',' ∉ s) : splitComma s = [s] := by
  induction s with
  | nil => rfl
  | cons c s ih =>
    simp at h
    simp only [splitComma, if_neg (Ne.symm h.1), ih h.2]

theorem splitDash_append (a b : List Char) (h : '-' ∉ a) : splitDash (a ++ '-' :: b) = some (a, b) := by
  induction a with
  | nil => simp [splitDash]
  | cons c a ih =>
    simp at h
    simp only [List.cons_append, splitDash, if_neg (Ne.symm h.1), ih h.2, Option.map_some]

theorem trimL_no (s : List Char) (h1 : ' ' ∉ s) (h2 : '\t' ∉ s) : trimL s = s := by
  cases s with
  | nil => rfl
  | cons c s =>
    simp at h1 h2
    simp only [trimL]
    rw [if_neg]
    rintro (h | h)
    · exact h1.1 h.symm
    · exact h2.1 h.symm

theorem trim_no (s : List Char) (h1 : ' ' ∉ s) (h2 : '\t' ∉ s) : trim s = s := by
  unfold trim
  rw [trimL_no s h1 h2, trimL_no _ (by simpa using h1) (by simpa using h2), List.reverse_reverse]

/-- one end of a range, possibly absent -/
def endText : Option Nat → List Char
  | none => []
  | some a => decStr a

/-- the text of one range: both ends optional -/
def rangeText (a b : Option Nat) : List Char := endText a ++ '-' :: endText b

def toBound : Option Nat → Bound
  | none => .unbounded
  | some v => .included v

theorem parseRanges_text (a b : Option Nat) (ha : ∀ v ∈ a, v < 2 ^ 64) (hb : ∀ v ∈ b, v < 2 ^ 64) :
    parseRanges (rangeText a b) = [(toBound a, toBound b)] := by
  have hno : ∀ c : Char, c.toNat < 48 → c ≠ '-' → c ∉ rangeText a b := by
    intro c hc hd
    unfold rangeText
    simp only [List.mem_append, List.mem_cons, not_or]
    refine ⟨?_, hd, ?_⟩
    · cases a with
      | none => simp [endText]
      | some v => exact decStr_no hc
    · cases b with
      | none => simp [endText]
      | some v => exact decStr_no hc
  unfold parseRanges
  rw [splitComma_no _ (hno _ (by decide) (by decide))]
  have hs : parseSpec (rangeText a b) = some (toBound a, toBound b) := by
    unfold parseSpec
    rw [trim_no _ (hno _ (by decide) (by decide)) (hno _ (by decide) (by decide))]
    have hd : splitDash (rangeText a b) = some (endText a, endText b) := by
      unfold rangeText
      apply splitDash_append
      cases a with
      | none => simp [endText]
      | some v => exact decStr_no (by decide)
    rw [hd]
    have h1 : ∀ x : Option Nat, (∀ v ∈ x, v < 2 ^ 64) →
        parseBound (endText x) = some (toBound x) := by
      intro x hx
      cases x with
      | none => rfl
      | some v => exact parseBound_decStr (hx v rfl)
    simp only [h1 a ha, h1 b hb]
  simp [hs]

/-- **C44 (bounded ranges).** `Range: bytes=a-b` with `a ≤ b < size`: the response is 206 with exactly the
bytes `a` to `b` inclusive, `Content-Length` is their number and `Content-Range` is `a-b/size`. -/
theorem C44_bounded_range_exact (pages : Pages) (hp : PagesOk pages) (o : Obj) (dev : Mem) (lay : ObjectLayout)
    (hlay : calcObjectLayoutDirect pages o.size = some lay) (a b : Nat) (hab : a ≤ b) (hb : b < o.size) (h64 : o.size < 2 ^ 64) :
    httpRead pages o dev (some (rangeText (some a) (some b))) =
      some (.ok ⟨206, b + 1 - a, (a, b, o.size), ((contents pages lay dev o).drop a).take (b + 1 - a)⟩) := by
  have hr := parseRanges_text (some a) (some b) (by simp; omega) (by simp; omega)
  have hst : rangeOf (reqRanges (some (rangeText (some a) (some b)))) = .ok (a, some (b + 1)) := by
    simp only [reqRanges, hr, rangeOf, toBound, List.length_singleton, List.head?_cons, Option.getD_some, rangeOf.stopOf]
    rw [if_neg (by omega), Nat.mod_eq_of_lt (by omega)]
  obtain ⟨cs, e1, e2, _⟩ := C18_direct_read_exact pages hp o dev lay hlay 8192 a (b + 1) (by decide) (some (b + 1)) rfl
    (by omega) (by omega) (o.size + 1) (by omega)
  simp only [httpRead, hst, e1]
  simp [reqRanges, hr, e2]

/-- **C44 (open ranges).** `Range: bytes=a-` with `a < size` returns everything from byte `a` on. -/
theorem C44_open_range_exact (pages : Pages) (hp : PagesOk pages) (o : Obj) (dev : Mem) (lay : ObjectLayout)
    (hlay : calcObjectLayoutDirect pages o.size = some lay) (a : Nat) (ha : a < o.size) (h64 : o.size < 2 ^ 64) :
    httpRead pages o dev (some (rangeText (some a) none)) =
      some (.ok ⟨206, o.size - a, (a, o.size - 1, o.size), ((contents pages lay dev o).drop a).take (o.size - a)⟩) := by
  have hr := parseRanges_text (some a) none (by simp; omega) (by simp)
  have hst : rangeOf (reqRanges (some (rangeText (some a) none))) = .ok (a, none) := by
    simp [reqRanges, hr, rangeOf, toBound, rangeOf.stopOf]
  obtain ⟨cs, e1, e2, _⟩ := C18_direct_read_exact pages hp o dev lay hlay 8192 a o.size (by decide) none rfl
    (by omega) (by omega) (o.size + 1) (by omega)
  simp only [httpRead, hst, e1]
  simp [reqRanges, hr, e2]

/-- **C44 (no range).** Without a range header the whole object is returned with status 200. -/
theorem C44_whole_object (pages : Pages) (hp : PagesOk pages) (o : Obj) (dev : Mem) (lay : ObjectLayout)
    (hlay : calcObjectLayoutDirect pages o.size = some lay) :
    ∃ r, httpRead pages o dev none = some (.ok r) ∧ r.status = 200 ∧ r.contentLength = o.size ∧
      r.body = (contents pages lay dev o).take o.size := by
  obtain ⟨cs, e1, e2, _⟩ := C18_direct_read_exact pages hp o dev lay hlay 8192 0 o.size (by decide) none rfl
    (by omega) (by omega) (o.size + 1) (by omega)
  refine ⟨⟨200, o.size, (0, o.size - 1, o.size), cs.flatten⟩, ?_, rfl, rfl, ?_⟩
  · have hst : rangeOf (reqRanges none) = .ok (0, none) := by simp [reqRanges, rangeOf, rangeOf.stopOf]
    simp only [httpRead, hst, e1]
    simp [reqRanges]
  · simpa using e2

/-- **C44 (refused).** More than one range, and a bounded range that reaches past the end or runs
backwards by more than one, are answered 416. -/
theorem C44_refused (pages : Pages) (o : Obj) (dev : Mem) (lay : ObjectLayout)
    (hlay : calcObjectLayoutDirect pages o.size = some lay) :
    (∀ s, (parseRanges s).length > 1 → httpRead pages o dev (some s) = some (.error 416)) ∧
    (∀ a b, a < 2 ^ 64 → b + 1 < 2 ^ 64 → (a > b + 1 ∨ b ≥ o.size) →
      httpRead pages o dev (some (rangeText (some a) (some b))) = some (.error 416)) ∧
    (∀ a, a < 2 ^ 64 → a > o.size → httpRead pages o dev (some (rangeText (some a) none)) = some (.error 416)) := by
  refine ⟨?_, ?_, ?_⟩
  · intro s hs
    simp [httpRead, reqRanges, rangeOf, hs]
  · intro a b ha hb hbad
    have hr := parseRanges_text (some a) (some b) (by simp; omega) (by simp; omega)
    have hst : rangeOf (reqRanges (some (rangeText (some a) (some b)))) = .ok (a, some (b + 1)) := by
      simp only [reqRanges, hr, rangeOf, toBound, List.length_singleton, List.head?_cons, Option.getD_some, rangeOf.stopOf]
      rw [if_neg (by omega), Nat.mod_eq_of_lt (by omega)]
    simp only [httpRead, hst, opReadDirect, hlay, Option.getD_some]
    rw [if_pos (by omega)]
    simp [errStatus]
  · intro a ha hbad
    have hr := parseRanges_text (some a) none (by simp; omega) (by simp)
    have hst : rangeOf (reqRanges (some (rangeText (some a) none))) = .ok (a, none) := by
      simp [reqRanges, hr, rangeOf, toBound, rangeOf.stopOf]
    simp only [httpRead, hst, opReadDirect, hlay, Option.getD_none]
    rw [if_pos (by omega)]
    simp [errStatus]

/-- **C44 is false of the code for suffix ranges**: `bytes=-n` asks for the last `n` bytes, and the server
answers 206 with the first `n + 1`. -/
theorem C44_violated_suffix_range (pages : Pages) (hp : PagesOk pages) (o : Obj) (dev : Mem) (lay : ObjectLayout)
    (hlay : calcObjectLayoutDirect pages o.size = some lay) (n : Nat) (hn : n < o.size) (h64 : o.size < 2 ^ 64) :
    httpRead pages o dev (some (rangeText none (some n))) =
      some (.ok ⟨206, n + 1, (0, n, o.size), (contents pages lay dev o).take (n + 1)⟩) := by
  have hr := parseRanges_text none (some n) (by simp) (by simp; omega)
  have hst : rangeOf (reqRanges (some (rangeText none (some n)))) = .ok (0, some (n + 1)) := by
    simp only [reqRanges, hr, rangeOf, toBound, List.length_singleton, List.head?_cons, Option.getD_some, rangeOf.stopOf]
    rw [if_neg (by omega), Nat.mod_eq_of_lt (by omega)]
  obtain ⟨cs, e1, e2, _⟩ := C18_direct_read_exact pages hp o dev lay hlay 8192 0 (n + 1) (by decide) (some (n + 1)) rfl
    (by omega) (by omega) (o.size + 1) (by omega)
  simp only [httpRead, hst, e1]
  simp [reqRanges, hr, e2]

/-- **C44 is false of the code for empty ranges**: a range that starts at the end of the object, or ends
just before it starts, is not refused but answered 206 with no bytes and a `Content-Range` that runs
backwards. -/
theorem C44_violated_empty_range_accepted (pages : Pages) (o : Obj) (dev : Mem) (lay : ObjectLayout)
    (hlay : calcObjectLayoutDirect pages o.size = some lay) (h64 : o.size < 2 ^ 64) :
    httpRead pages o dev (some (rangeText (some o.size) none)) =
      some (.ok ⟨206, 0, (o.size, o.size - 1, o.size), []⟩) ∧
    ∀ b, b < o.size → httpRead pages o dev (some (rangeText (some (b + 1)) (some b))) =
      some (.ok ⟨206, 0, (b + 1, b, o.size), []⟩) := by
  constructor
  · have hr := parseRanges_text (some o.size) none (by simpa using h64) (by simp)
    have hst : rangeOf (reqRanges (some (rangeText (some o.size) none))) = .ok (o.size, none) := by
      simp [reqRanges, hr, rangeOf, toBound, rangeOf.stopOf]
    simp only [httpRead, hst, opReadDirect, hlay, Option.getD_none]
    rw [if_neg (by omega), if_pos (by simp)]
    simp [reqRanges, hr]
  · intro b hb
    have hr := parseRanges_text (some (b + 1)) (some b) (by simp; omega) (by simp; omega)
    have hst : rangeOf (reqRanges (some (rangeText (some (b + 1)) (some b)))) = .ok (b + 1, some (b + 1)) := by
      simp only [reqRanges, hr, rangeOf, toBound, List.length_singleton, List.head?_cons, Option.getD_some, rangeOf.stopOf]
      rw [if_neg (by omega), Nat.mod_eq_of_lt (by omega)]
    simp only [httpRead, hst, opReadDirect, hlay, Option.getD_some]
    rw [if_neg (by omega), if_pos (by simp)]
    simp [reqRanges, hr]

/-- **C44 is false of the code at the end of `u64`**: `bytes=0-18446744073709551615` wraps around to an
empty range and is answered 206 with nothing (release build; a debug build panics). -/
theorem C44_violated_last_byte_overflow (pages : Pages) (o : Obj) (dev : Mem) (lay : ObjectLayout)
    (hlay : calcObjectLayoutDirect pages o.size = some lay) :
    httpRead pages o dev (some (rangeText (some 0) (some (2 ^ 64 - 1)))) = some (.ok ⟨206, 0, (0, 0, o.size), []⟩) := by
  have hr := parseRanges_text (some 0) (some (2 ^ 64 - 1)) (by simp) (by simp)
  have hst : rangeOf (reqRanges (some (rangeText (some 0) (some (2 ^ 64 - 1))))) = .ok (0, some 0) := by
    simp only [reqRanges, hr, rangeOf, toBound, List.length_singleton, List.head?_cons, Option.getD_some, rangeOf.stopOf]
    rw [if_neg (by omega)]
  simp only [httpRead, hst, opReadDirect, hlay, Option.getD_some]
  rw [if_neg (by omega), if_pos (by simp)]
  simp [reqRanges, hr]

/-- The client's `read_object(start, end)`: with a start it asks for `start` to `end` **inclusive** (unlike
the library API, where `end` is exclusive); without a start it asks for the whole object whatever `end`. -/
theorem C44_client_request (a b : Nat) :
    clientRange (some a) (some b) = some (rangeText (some a) (some b)) ∧
    clientRange (some a) none = some (rangeText (some a) none) ∧ clientRange none (some b) = none :=
  ⟨rfl, rfl, rfl⟩

/-- the layout hypothesis is met, and the ranges exist: the object of `exObj` (16 MiB + 5000 bytes) -/
example : (calcObjectLayoutDirect ⟨9, 24⟩ exObj.size).isSome = true ∧ 100 ≤ 2 ^ 24 ∧ 2 ^ 24 < exObj.size ∧ exObj.size < 2 ^ 64 := by
  decide

end Props
end Blobd
