import Verif.Props.Http
import Batteries.Tactic.SeqFocus
/-!
# C63: HTTP methods and success statuses
-/
set_option autoImplicit false
namespace Blobd
namespace Props
open Http
open RW (OpError)
open MP (Bytes)

/-- what each method asks of the store, in the API's words: the call and the arguments it must carry -/
def Means (m : Method) (r : Raw) (key : Bytes) (c : Call) : Prop :=
  match m with
  | .get => ∃ start stop, c = .read key start stop
  | .head => c = .inspect key
  | .post => c = .create key r.size
  | .put => ∃ tok, c = .commit tok
  | .patch => ∃ tok, c = .write tok r.offset r.len r.chunks
  | .delete => c = .delete key
  | .options => False
  | .other => False

/-- the call changes what the store holds -/
def ChangesStore : Call → Prop
  | .inspect _ => False
  | .read _ _ _ => False
  | _ => True

/-- Every store call comes from the method that names it and is about the key in the path; the root path only serves
batch creation by POST, with the body as it was sent. -/
theorem C63_call_is_what_the_method_means (S : Srv) (now : Nat) (m : Method) (r : Raw) (c : Call)
    (hc : r.call S now m = some c) :
    (r.path = [47] ∧ m = .post ∧ c = .batch r.body) ∨
    (r.path ≠ [47] ∧ ∃ key, parseKey r.path = some key ∧ Means m r key c) := by
  unfold Raw.call Raw.request route at hc
  by_cases hp : r.path = [47]
  · rw [if_pos hp] at hc
    left
    by_cases hm : m = .post
    · rw [if_pos hm] at hc
      simp only [preflight] at hc
      split at hc
      · rename_i h
        split at h <;> simp at h hc
        rw [← hc]; exact ⟨hp, hm, h.symm⟩
      · cases hc
    · rw [if_neg hm] at hc
      cases hc
  · rw [if_neg hp] at hc
    refine Or.inr ⟨hp, ?_⟩
    have fin : ∀ (x : Except Nat Call), (match x with | .ok c => some c | .error _ => none) = some c → x = .ok c := by
      intro x hx
      cases x with
      | ok a => simp only [Option.some.injEq] at hx; rw [hx]
      | error e => cases hx
    cases m with
    | other => cases hc
    | options => cases hc
    | get =>
      have h := fin _ hc
      simp only [preflight] at h
      split at h <;> [cases h; rename_i key hk]
      split at h <;> [cases h; skip]
      split at h <;> cases h
      exact ⟨key, hk, _, _, rfl⟩
    | head =>
      have h := fin _ hc
      simp only [preflight] at h
      split at h <;> [cases h; rename_i key hk]
      split at h <;> cases h
      exact ⟨key, hk, rfl⟩
    | post =>
      have h := fin _ hc
      simp only [preflight] at h
      split at h <;> [cases h; rename_i key hk]
      split at h <;> cases h
      exact ⟨key, hk, rfl⟩
    | put =>
      have h := fin _ hc
      simp only [preflight] at h
      split at h <;> [cases h; rename_i key hk]
      split at h <;> [cases h; skip]
      split at h <;> [cases h; skip]
      split at h <;> cases h
      exact ⟨key, hk, _, rfl⟩
    | patch =>
      have h := fin _ hc
      simp only [preflight] at h
      split at h <;> [cases h; rename_i key hk]
      split at h <;> [cases h; skip]
      split at h <;> cases h
      exact ⟨key, hk, _, rfl⟩
    | delete =>
      have h := fin _ hc
      simp only [preflight] at h
      split at h <;> [cases h; rename_i key hk]
      split at h <;> cases h
      exact ⟨key, hk, rfl⟩

/-- GET and HEAD never change the store. -/
theorem C63_get_and_head_change_nothing (S : Srv) (now : Nat) (m : Method) (hm : m = .get ∨ m = .head) (r : Raw) (c : Call)
    (hc : r.call S now m = some c) : ¬ ChangesStore c := by
  rcases C63_call_is_what_the_method_means S now m r c hc with ⟨_, h, _⟩ | ⟨_, key, _, h⟩
  · rcases hm with rfl | rfl <;> cases h
  · rcases hm with rfl | rfl
    · obtain ⟨a, b, rfl⟩ := h; simp [ChangesStore]
    · simp only [Means] at h; subst h; simp [ChangesStore]

/-- Methods without an endpoint reach no store operation and get 405: all others at the root path, unknown ones elsewhere.
OPTIONS requests reach none either and are answered with 200. -/
theorem C63_not_allowed (S : Srv) (now : Nat) (m : Method) (r : Raw) (store : Call → Except OpError Unit)
    (h : (r.path = [47] ∧ m ≠ .post) ∨ m = .other ∨ m = .options) :
    r.call S now m = none ∧ r.status S now m store = if m = .options then 200 else 405 := by
  have : r.request m = none := by
    unfold Raw.request route
    rcases h with ⟨hp, hm⟩ | rfl | rfl
    · rw [if_pos hp, if_neg hm]
    · by_cases hp : r.path = [47]
      · rw [if_pos hp, if_neg (by simp)]
      · rw [if_neg hp]
    · by_cases hp : r.path = [47]
      · rw [if_pos hp, if_neg (by simp)]
      · rw [if_neg hp]
  simp [Raw.call, Raw.status, this]

/-- With authorization off, or a token for the action, every request with a proper path whose upload token, receipts and
range are accepted does reach the store: GET, HEAD, POST and DELETE shown here; PUT in C42_honest_upload_commits. -/
theorem C63_calls_happen (S : Srv) (now : Nat) (r : Raw) (key : Bytes) (hp : r.path ≠ [47]) (hk : parseKey r.path = some key) :
    (verifyAuth S now r.t (.delete key) = true → r.call S now .delete = some (.delete key)) ∧
    (verifyAuth S now r.t (.inspect key) = true → r.call S now .head = some (.inspect key)) ∧
    (verifyAuth S now r.t (.create key r.size) = true → r.call S now .post = some (.create key r.size)) ∧
    (verifyAuth S now r.t (.read key) = true → r.range = none → r.call S now .get = some (.read key 0 none)) := by
  refine ⟨fun h => ?_, fun h => ?_, fun h => ?_, fun h hr => ?_⟩
  · simp [Raw.call, Raw.request, route, hp, preflight, hk, h]
  · simp [Raw.call, Raw.request, route, hp, preflight, hk, h]
  · simp [Raw.call, Raw.request, route, hp, preflight, hk, h]
  · simp [Raw.call, Raw.request, route, hp, preflight, hk, h, hr, reqRanges, rangeOf, rangeOf.stopOf]

/-- statuses sent before the store is called -/
theorem preflight_errors {S : Srv} {now : Nat} {req : Req} {e : Nat} (h : preflight S now req = .error e) :
    e = 0 ∨ e = 401 ∨ e = 404 ∨ e = 412 ∨ e = 416 := by
  cases req with
  | read path range t =>
    simp only [preflight] at h
    split at h
    · cases h; omega
    · split at h
      · cases h; omega
      · split at h
        · rename_i e' he
          unfold rangeOf at he
          cases h
          split at he
          · cases he; omega
          · simp only at he
            split at he <;> cases he
            omega
        · cases h
  | _ =>
    simp only [preflight] at h
    repeat' split at h
    all_goals (cases h; try omega)

theorem errStatus_ge (e : OpError) : 400 ≤ errStatus e := by cases e <;> decide

/-- What the success statuses say: 201 means that a commit was made and succeeded, 206 that the object was read and the
request had a range, 202 that a create or write succeeded; and conversely a successful commit answers 201, a successful
create or write 202, a read with a range 206 and every other success 200, as does OPTIONS. -/
theorem C63_success_statuses (S : Srv) (now : Nat) (m : Method) (r : Raw) (store : Call → Except OpError Unit) :
    (r.status S now m store = 201 ↔ r.path ≠ [47] ∧ m = .put ∧ ∃ c, r.call S now m = some c ∧ store c = .ok ()) ∧
    (r.status S now m store = 202 ↔ r.path ≠ [47] ∧ (m = .post ∨ m = .patch) ∧ ∃ c, r.call S now m = some c ∧ store c = .ok ()) ∧
    (r.status S now m store = 206 ↔ r.path ≠ [47] ∧ m = .get ∧ reqRanges r.range ≠ [] ∧ ∃ c, r.call S now m = some c ∧ store c = .ok ()) ∧
    (r.status S now m store = 200 ↔ m = .options ∨ (r.path = [47] ∧ m = .post ∧ ∃ c, r.call S now m = some c) ∨
      (r.path ≠ [47] ∧ ((m = .get ∧ reqRanges r.range = []) ∨ m = .head ∨ m = .delete) ∧ ∃ c, r.call S now m = some c ∧ store c = .ok ())) := by
  by_cases hp : r.path = [47]
  · by_cases hm : m = .post
    · have hreq : r.request m = some (.batch r.t r.body) := by simp [Raw.request, route, hp, hm]
      simp only [Raw.status, Raw.call, hreq, serve]
      cases hpf : preflight S now (.batch r.t r.body) with
      | ok c => simp [respond, hp, hm]
      | error e =>
        have := preflight_errors hpf
        simp [hp, hm]
        omega
    · obtain ⟨h1, h2⟩ := C63_not_allowed S now m r store (Or.inl ⟨hp, hm⟩)
      rw [h1, h2]
      by_cases hopt : m = .options <;> simp [hopt]
  · by_cases ho : m = .other ∨ m = .options
    · obtain ⟨h1, h2⟩ := C63_not_allowed S now m r store (Or.inr ho)
      rw [h1, h2]
      by_cases hopt : m = .options <;> simp [hopt]
    · obtain ⟨req, hreq⟩ : ∃ req, r.request m = some req := by
        cases m <;> simp_all [Raw.request, route]
      simp only [Raw.status, Raw.call, hreq, serve]
      cases hpf : preflight S now req with
      | error e =>
        have := preflight_errors hpf
        simp [(not_or.1 ho).2]
        omega
      | ok c =>
        simp only [Option.some.injEq, exists_eq_left', hp]
        cases hs : store c with
        | error e =>
          have h1 := errStatus_ge e
          have h2 : respond req (.error e) = errStatus e := by
            refine (C46_error_classes req e ?_).1
            rintro t b rfl
            cases m <;> simp [Raw.request, route, hp] at hreq
          rw [h2]
          simp [(not_or.1 ho).2]
          omega
        | ok u =>
          cases m with
          | other => exact absurd (.inl rfl) ho
          | options => exact absurd (.inr rfl) ho
          | get =>
            simp only [Raw.request, route, if_neg hp, Option.some.injEq] at hreq
            subst hreq
            simp only [respond]
            by_cases hr : reqRanges r.range = []
            · simp [hr, hp]
            · simp [hr, hp]
          | _ =>
            simp only [Raw.request, route, if_neg hp, Option.some.injEq] at hreq
            subst hreq
            simp [respond, hp]

/-- Hypotheses met: a DELETE request with authorization off. -/
example : ∃ (S : Srv) (r : Raw), r.call S 0 .delete = some (.delete [98]) ∧ r.status S 0 .delete (fun _ => .ok ()) = 200 ∧
    r.status S 0 .put (fun _ => .ok ()) = 404 := by
  let S : Srv := ⟨false, fun _ => List.replicate 32 0, fun _ => by simp, nibble64, ⟨12, 24⟩⟩
  let r : Raw := ⟨[47, 98], [], 0, 0, 0, [], [], none, [], []⟩
  have hk : parseKey r.path = some [98] := by simp [r, parseKey, pctDecode]
  have hp : r.path ≠ [47] := by simp [r]
  have h1 := (C63_calls_happen S 0 r [98] hp hk).1 (by simp [verifyAuth, S])
  refine ⟨S, r, h1, ((C63_success_statuses S 0 .delete r (fun _ => .ok ())).2.2.2).2 (Or.inr (Or.inr ⟨hp, by simp, _, h1, rfl⟩)), ?_⟩
  have : parseUpload S [] = none := by
    have : S.b64.dec ([] : List Char) = some [] := rfl
    simp [parseUpload, this]
  have hva : ∀ a, verifyAuth S 0 r.t a = true := fun a => by simp [verifyAuth, S]
  have hu : r.upload = [] := rfl
  clear_value S r
  simp [Raw.status, Raw.request, route, hp, serve, preflight, hk, hva, hu, this]

end Props
end Blobd
