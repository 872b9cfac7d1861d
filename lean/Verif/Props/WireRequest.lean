import Verif.Spec.WireRequest
import Verif.Proofs.Plotter
import Verif.Props.Wire
set_option autoImplicit false
/-!
# C79: what the server takes from a request, and what it refuses

Spec/WireRequest `Says`: method, path, exactly one occurrence of each parameter that the endpoint needs, numbers in decimal below 2^64.
-/
namespace Blobd
namespace Props
open Http
open MP (Bytes)

theorem gives_iff {w : Wire} {name v : List Char} : Gives w name v ↔ field (params w.query) name = some (some v) := by
  unfold Gives field
  generalize params w.query = ps
  constructor
  · rintro ⟨l1, b, l2, rfl, rfl, h1, h2⟩
    have e1 : l1.filter (fun p => decide (p.1 = ascii name)) = [] := List.filter_eq_nil_iff.2 (fun p hp => by simpa using h1 p hp)
    have e2 : l2.filter (fun p => decide (p.1 = ascii name)) = [] := List.filter_eq_nil_iff.2 (fun p hp => by simpa using h2 p hp)
    rw [List.filter_append, List.filter_cons, e1, e2]
    simp
  · intro h
    induction ps with
    | nil => simp at h
    | cons p ps ih =>
      by_cases hp : p.1 = ascii name
      · rw [List.filter_cons, if_pos (by simpa using hp)] at h
        cases hf : ps.filter (fun p => decide (p.1 = ascii name)) with
        | nil =>
          rw [hf] at h
          simp only [Option.some.injEq] at h
          refine ⟨[], p.2, ps, ?_, h, (fun q hq => by cases hq), fun q hq => ?_⟩
          · rw [← hp]; rfl
          · have := List.filter_eq_nil_iff.1 hf q hq
            simpa using this
        | cons q l => rw [hf] at h; cases h
      · rw [List.filter_cons, if_neg (by simpa using hp)] at h
        obtain ⟨l1, b, l2, e, ht, h1, h2⟩ := ih h
        refine ⟨p :: l1, b, l2, by rw [e]; rfl, ht, fun q hq => ?_, h2⟩
        rcases List.mem_cons.1 hq with rfl | hq
        · exact hp
        · exact h1 q hq

theorem omits_iff {w : Wire} {name : List Char} : Omits w name ↔ field (params w.query) name = some none := by
  unfold Omits field
  generalize params w.query = ps
  constructor
  · intro h
    rw [List.filter_eq_nil_iff.2 (fun p hp => by simpa using h p hp)]
  · intro h
    have : ps.filter (fun p => decide (p.1 = ascii name)) = [] := by
      revert h
      generalize ps.filter (fun p => decide (p.1 = ascii name)) = l
      intro h
      cases l with
      | nil => rfl
      | cons p l => cases l <;> cases h
    intro p hp
    have := List.filter_eq_nil_iff.1 this p hp
    simpa using this

theorem tokenIs_iff {w : Wire} {t : List Char} : TokenIs w t ↔ fieldT (params w.query) = some t := by
  unfold TokenIs fieldT
  rw [gives_iff, omits_iff]
  cases h : field (params w.query) pT with
  | none => simp
  | some x =>
    cases x with
    | none => simp [eq_comm]
    | some v => simp

theorem givesStr_iff {w : Wire} {name v : List Char} : Gives w name v ↔ fieldStr (params w.query) name = some v := by
  rw [gives_iff]
  unfold fieldStr
  cases h : field (params w.query) name with
  | none => simp
  | some x => cases x <;> simp

theorem parseDigits_all {d : List Char} {a n : Nat} (h : parseDigits a d = some n) : ∀ c ∈ d, c.isDigit = true := by
  induction d generalizing a with
  | nil => intro c hc; cases hc
  | cons c d ih =>
    unfold parseDigits at h
    cases hd : digitVal c with
    | none => rw [hd] at h; cases h
    | some k =>
      rw [hd] at h
      dsimp only at h
      by_cases hlt : a * 10 + k < 2 ^ 64
      · rw [if_pos hlt] at h
        intro x hx
        rcases List.mem_cons.1 hx with rfl | hx
        · unfold digitVal at hd
          by_cases hr : '0' ≤ x ∧ x ≤ '9'
          · simp only [Char.isDigit, Bool.and_eq_true, decide_eq_true_eq]
            exact hr
          · rw [if_neg hr] at hd; cases hd
        · exact ih h x hx
      · rw [if_neg hlt] at h; cases h

theorem isU64_iff {s : List Char} {n : Nat} : IsU64 s n ↔ parseU64 s = some n := by
  constructor
  · rintro ⟨d, he, h0, hd, hv⟩
    have hp := (Plot.parseU64_digits h0 hd n).2 hv
    rcases he with rfl | rfl
    · exact hp
    · cases d with
      | nil => exact absurd rfl h0
      | cons c d =>
        have hc : c ≠ '+' := by rintro rfl; exact absurd (hd _ List.mem_cons_self) (by decide)
        simp only [parseU64, if_neg hc] at hp
        simp only [parseU64, if_pos trivial, if_neg (by simp : ¬ (c :: d = []))]
        exact hp
  · intro h
    cases s with
    | nil => cases h
    | cons c r =>
      by_cases hc : c = '+'
      · subst hc
        unfold parseU64 at h
        by_cases hr : r = []
        · simp [hr] at h
        · simp only [if_pos trivial, if_neg hr] at h
          have hd := parseDigits_all h
          refine ⟨r, .inr rfl, hr, hd, (Plot.parseU64_digits hr hd n).1 ?_⟩
          cases r with
          | nil => exact absurd rfl hr
          | cons x r =>
            have hx : x ≠ '+' := by rintro rfl; exact absurd (hd _ List.mem_cons_self) (by decide)
            simp only [parseU64, if_neg hx]
            exact h
      · have h' := h
        simp only [parseU64, if_neg hc] at h'
        have hd := parseDigits_all h'
        exact ⟨c :: r, .inl rfl, by simp, hd, (Plot.parseU64_digits (by simp) hd n).1 h⟩

theorem givesU64_iff {w : Wire} {name : List Char} {n : Nat} :
    (∃ z, Gives w name z ∧ IsU64 z n) ↔ fieldU64 (params w.query) name = some n := by
  unfold fieldU64
  constructor
  · rintro ⟨z, h1, h2⟩
    rw [givesStr_iff.1 h1]
    exact isU64_iff.1 h2
  · intro h
    cases hf : fieldStr (params w.query) name with
    | none => rw [hf] at h; cases h
    | some z => rw [hf] at h; exact ⟨z, givesStr_iff.2 hf, isU64_iff.2 h⟩

/-- **C79.** The server acts on a request exactly if it says something, and then on what it says. -/
theorem C79_server_reads (w : Wire) (r : Req) : extract w = .ok r ↔ Says w r := by
  unfold extract route
  by_cases hp : w.path = [47]
  · cases hm : w.method
    case post =>
      cases hT : fieldT (params w.query) <;> cases r <;> simp [Says, hm, hp, tokenIs_iff, hT, eq_comm]
    all_goals cases r <;> simp [Says, hm, hp]
  · cases hm : w.method
    case other | options => cases r <;> simp [Says, hm, hp]
    case get | head | delete =>
      cases hT : fieldT (params w.query) <;> cases r <;> simp [Says, hm, hp, tokenIs_iff, hT, eq_comm]
    case post =>
      cases hT : fieldT (params w.query) <;> cases hU : fieldU64 (params w.query) pSize <;> cases r <;>
        simp [Says, hm, hp, tokenIs_iff, givesU64_iff, hT, hU, eq_comm]
    case put =>
      cases hT : fieldT (params w.query) <;> cases hU : fieldStr (params w.query) pUpload <;> cases hR : fieldStr (params w.query) pReceipts <;>
        cases r <;> simp [Says, hm, hp, tokenIs_iff, givesStr_iff, hT, hU, hR, eq_comm]
    case patch =>
      cases hT : fieldT (params w.query) <;> cases hU : fieldStr (params w.query) pUpload <;> cases hR : fieldU64 (params w.query) pOffset <;>
        cases hL : w.len <;> cases r <;> simp only [Says, givesU64_iff] <;>
        simp [hm, hp, tokenIs_iff, givesStr_iff, hT, hU, hR, hL, eq_comm]
      exact fun _ => ⟨fun h => ⟨h.2.1, h.1, h.2.2⟩, fun h => ⟨h.2.1, h.1, h.2.2⟩⟩

/-- **C79.** A request that says nothing is refused: 400 where the method exists, 405 (200 for OPTIONS) where it does not; the store is
not asked. -/
theorem C79_server_refuses (S : Srv) (now : Nat) (store : (c : Call) → ResOf c) (w : Wire) (h : ∀ r, ¬ Says w r) :
    (HasMethod w → (answer S now store w).status = 400) ∧
    (¬ HasMethod w → (answer S now store w).status = if w.method = .options then 200 else 405) ∧
    ∀ store', answer S now store' w = answer S now store w := by
  have he : ∀ r, extract w ≠ .ok r := fun r hr => h r ((C79_server_reads w r).1 hr)
  cases hx : extract w with
  | ok r => exact absurd hx (he r)
  | error e =>
    have ha : ∀ st, answer S now st w = ⟨e, [], []⟩ := fun st => by unfold answer; rw [hx]
    rw [ha]
    suffices h : (HasMethod w → e = 400) ∧ (¬ HasMethod w → e = if w.method = .options then 200 else 405) from
      ⟨h.1, h.2, fun st => ha st⟩
    unfold extract route at hx
    unfold HasMethod
    by_cases hp : w.path = [47]
    · simp only [if_pos hp] at hx ⊢
      cases hm : w.method <;> simp only [hm, if_true, if_false, reduceCtorEq] at hx
      case post => cases hT : fieldT (params w.query) <;> simp [hT] at hx ⊢; exact hx.symm
      all_goals (injection hx with hx; simp [← hx])
    · simp only [if_neg hp] at hx ⊢
      cases hm : w.method <;> simp only [hm] at hx
      case other | options => simp at hx; simp [← hx]
      case get | head | delete => cases hT : fieldT (params w.query) <;> simp [hT] at hx ⊢; exact hx.symm
      case post =>
        cases hT : fieldT (params w.query) <;> cases hU : fieldU64 (params w.query) pSize <;> simp [hT, hU] at hx ⊢ <;> exact hx.symm
      case put =>
        cases hT : fieldT (params w.query) <;> cases hU : fieldStr (params w.query) pUpload <;> cases hR : fieldStr (params w.query) pReceipts <;>
          simp [hT, hU, hR] at hx ⊢ <;> exact hx.symm
      case patch =>
        cases hT : fieldT (params w.query) <;> cases hU : fieldStr (params w.query) pUpload <;> cases hR : fieldU64 (params w.query) pOffset <;>
          cases hL : w.len <;> simp [hT, hU, hR, hL] at hx ⊢ <;> exact hx.symm

/-- Hypotheses met: a create whose size is not a number, and a request that says something. -/
example : (∀ r, ¬ Says ⟨.post, [47, 97], [115, 105, 122, 101, 61, 120], none, none, []⟩ r) ∧
    Says ⟨.post, [47, 97], [115, 105, 122, 101, 61, 53], none, none, []⟩ (.create [47, 97] 5 []) := by
  constructor
  · intro r hr
    have := (C79_server_reads _ r).2 hr
    simp [extract, route, params, splitAmp, decodePair, formDec, pctDecode, fieldU64, fieldStr, field, ascii, pSize, text, parseU64,
      parseDigits, digitVal] at this
  · rw [← C79_server_reads]
    simp [extract, route, params, splitAmp, decodePair, formDec, pctDecode, fieldU64, fieldStr, fieldT, field, ascii, pSize, pT, text, parseU64,
      parseDigits, digitVal]

end Props
end Blobd
