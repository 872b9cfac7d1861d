import Verif.Spec.Plotter
import Verif.Props.HttpRead
/-!
# The benchmark plotter: proofs
-/
set_option autoImplicit false
namespace Blobd
namespace Plot
open Http Props

/-- what becomes of one character -/
def escC (c : Char) : List Char :=
  if c = '\\' then ['\\', '\\'] else if c = '"' then ['\\', '"'] else if c = '\n' then ['\\', 'n'] else if c = '\r' then ['\\', 'r']
  else if c = '\t' then ['\\', 't'] else [c]

theorem escape_eq (s : List Char) : escape s = s.flatMap escC := by
  simp only [escape, replaceC, List.flatMap_assoc]
  congr 1
  funext c
  unfold escC
  by_cases h1 : c = '\\'
  · subst h1; rfl
  by_cases h2 : c = '"'
  · subst h2; rfl
  by_cases h3 : c = '\n'
  · subst h3; rfl
  by_cases h4 : c = '\r'
  · subst h4; rfl
  by_cases h5 : c = '\t'
  · subst h5; rfl
  simp [h1, h2, h3, h4, h5]

theorem escC_cases (c : Char) :
    (escC c = [c] ∧ c ≠ '\\' ∧ c ≠ '"' ∧ c ≠ '\n' ∧ c ≠ '\r') ∨
      (∃ d, escC c = ['\\', d] ∧ (d = '\\' ∨ d = '"' ∨ d = 'n' ∨ d = 'r' ∨ d = 't')) := by
  unfold escC
  by_cases h1 : c = '\\'
  · exact .inr ⟨'\\', by simp [h1], by simp⟩
  by_cases h2 : c = '"'
  · exact .inr ⟨'"', by simp [h2], by simp⟩
  by_cases h3 : c = '\n'
  · exact .inr ⟨'n', by simp [h3], by simp⟩
  by_cases h4 : c = '\r'
  · exact .inr ⟨'r', by simp [h4], by simp⟩
  by_cases h5 : c = '\t'
  · exact .inr ⟨'t', by simp [h5], by simp⟩
  exact .inl ⟨by simp [h1, h2, h3, h4, h5], h1, h2, h3, h4⟩

theorem jsLit_plain {c : Char} (s : List Char) (h1 : c ≠ '\\') (h2 : c ≠ '"') (h3 : c ≠ '\n') (h4 : c ≠ '\r') :
    jsLit (c :: s) = (jsLit s).map fun p => (c :: p.1, p.2) := by
  rw [jsLit.eq_def]; split <;> simp_all

theorem jsLit_esc (t : List Char) (rest : List Char) : jsLit (t.flatMap escC ++ '"' :: rest) = some (t, rest) := by
  induction t with
  | nil => simp [jsLit]
  | cons c t ih =>
    simp only [List.flatMap_cons, List.append_assoc]
    generalize t.flatMap escC ++ '"' :: rest = u at ih ⊢
    unfold escC
    by_cases h1 : c = '\\'
    · subst h1; simp [jsLit, ih]
    by_cases h2 : c = '"'
    · subst h2; simp [jsLit, ih]
    by_cases h3 : c = '\n'
    · subst h3; simp [jsLit, ih]
    by_cases h4 : c = '\r'
    · subst h4; simp [jsLit, ih]
    by_cases h5 : c = '\t'
    · subst h5; simp [jsLit, ih]
    simp only [h1, h2, h3, h4, h5, if_false, List.singleton_append]
    rw [jsLit_plain _ h1 h2 h3 h4, ih]; rfl

/-- patterns that have no escaped character in them -/
def PatOk (ps : List (Char → Bool)) : Prop := ∀ p ∈ ps, p '\\' = false

theorem starts_esc {ps : List (Char → Bool)} (hp : PatOk ps) (t rest : List Char) (hr : ∀ p ∈ ps, ∀ c ∈ rest.head?, p c = false)
    (h : starts ps (t.flatMap escC ++ rest) = true) : starts ps t = true := by
  induction ps generalizing t with
  | nil => rfl
  | cons p ps ih =>
    cases t with
    | nil =>
      cases rest with
      | nil => simp [starts] at h
      | cons c rest =>
        simp only [List.flatMap_nil, List.nil_append, starts, Bool.and_eq_true] at h
        have := hr p List.mem_cons_self c rfl
        rw [this] at h; exact absurd h.1 (by decide)
    | cons c t =>
      simp only [List.flatMap_cons, List.append_assoc] at h
      rcases escC_cases c with ⟨he, -⟩ | ⟨d, he, -⟩
      · rw [he] at h
        simp only [List.singleton_append, starts, Bool.and_eq_true] at h ⊢
        exact ⟨h.1, ih (fun q hq => hp q (List.mem_cons_of_mem _ hq)) t (fun q hq => hr q (List.mem_cons_of_mem _ hq)) h.2⟩
      · rw [he] at h
        simp only [List.cons_append, starts, Bool.and_eq_true] at h
        rw [hp p List.mem_cons_self] at h; exact absurd h.1 (by decide)

theorem occurs_iff {ps : List (Char → Bool)} (s : List Char) :
    occurs ps s = true ↔ ∃ a b, s = a ++ b ∧ starts ps b = true := by
  induction s with
  | nil =>
    constructor
    · intro h; exact ⟨[], [], rfl, h⟩
    · rintro ⟨a, b, h, hb⟩
      have := List.append_eq_nil_iff.mp h.symm
      rw [this.2] at hb; exact hb
  | cons c s ih =>
    simp only [occurs, Bool.or_eq_true, ih]
    constructor
    · rintro (h | ⟨a, b, h, hb⟩)
      · exact ⟨[], _, rfl, h⟩
      · exact ⟨c :: a, b, by rw [h]; rfl, hb⟩
    · rintro ⟨a, b, h, hb⟩
      cases a with
      | nil => left; rw [List.nil_append] at h; rw [h]; exact hb
      | cons x a =>
        right
        rw [List.cons_append] at h
        injection h with _ h
        exact ⟨a, b, h, hb⟩

theorem occurs_false {ps : List (Char → Bool)} {c : Char} {s : List Char} (h : occurs ps (c :: s) = false) :
    starts ps (c :: s) = false ∧ occurs ps s = false := by
  simpa only [occurs, Bool.or_eq_false_iff] using h

/-- reading the script past a text that has none of the patterns, when the characters after it do not continue one -/
theorem scriptText_skip (t rest : List Char) (h : ∀ a b, a ++ b = t → b ≠ [] →
      starts endTag (b ++ rest) = false ∧ starts comment (b ++ rest) = false) :
    scriptText (t ++ rest) = (scriptText rest).map (t ++ ·) := by
  induction t with
  | nil => rw [List.nil_append]; generalize scriptText rest = x; cases x <;> simp
  | cons c t ih =>
    have h0 := h [] (c :: t) rfl (by simp)
    rw [List.cons_append] at h0 ⊢
    rw [scriptText, h0.1, h0.2]
    rw [ih (fun a b e hb => h (c :: a) b (by rw [← e]; rfl) hb)]
    cases scriptText rest <;> simp

theorem endTag_ok : PatOk endTag := by
  intro p hp
  simp only [endTag, List.mem_cons, List.not_mem_nil, or_false] at hp
  rcases hp with rfl | rfl | rfl | rfl | rfl | rfl | rfl | rfl | rfl <;> decide

theorem comment_ok : PatOk comment := by
  intro p hp
  simp only [comment, List.mem_cons, List.not_mem_nil, or_false] at hp
  rcases hp with rfl | rfl | rfl | rfl <;> decide

theorem endTag_quote : ∀ p ∈ endTag, p '"' = false := by
  intro p hp
  simp only [endTag, List.mem_cons, List.not_mem_nil, or_false] at hp
  rcases hp with rfl | rfl | rfl | rfl | rfl | rfl | rfl | rfl | rfl <;> decide

theorem comment_quote : ∀ p ∈ comment, p '"' = false := by
  intro p hp
  simp only [comment, List.mem_cons, List.not_mem_nil, or_false] at hp
  rcases hp with rfl | rfl | rfl | rfl <;> decide

theorem starts_lt {ps : List (Char → Bool)} {c : Char} (h : c ≠ '<') (s : List Char) : starts ((· == '<') :: ps) (c :: s) = false := by
  simp [starts, h]

theorem endTag_lt {c : Char} (h : c ≠ '<') (s : List Char) : starts endTag (c :: s) = false := starts_lt h s
theorem comment_lt {c : Char} (h : c ≠ '<') (s : List Char) : starts comment (c :: s) = false := starts_lt h s

/-- a text without `<` is read past -/
theorem scriptText_nolt (t rest : List Char) (h : '<' ∉ t) : scriptText (t ++ rest) = (scriptText rest).map (t ++ ·) := by
  refine scriptText_skip t rest fun a b e hb => ?_
  cases b with
  | nil => exact absurd rfl hb
  | cons c b =>
    have hc : c ≠ '<' := by
      rintro rfl
      exact h (by rw [← e]; simp)
    exact ⟨endTag_lt hc _, comment_lt hc _⟩

/-- a suffix of an escaped text that begins with `<` is an escaped suffix -/
theorem suffix_lt (t : List Char) : ∀ a b, a ++ '<' :: b = t.flatMap escC → ∃ u v, t = u ++ v ∧ '<' :: b = v.flatMap escC := by
  induction t with
  | nil => intro a b h; simp at h
  | cons c t ih =>
    intro a b h
    rw [List.flatMap_cons] at h
    rcases escC_cases c with ⟨he, -⟩ | ⟨d, he, hd⟩
    · cases a with
      | nil => exact ⟨[], c :: t, rfl, by rw [List.flatMap_cons]; exact h⟩
      | cons x a =>
        rw [he, List.cons_append, List.singleton_append] at h
        injection h with _ h
        obtain ⟨u, v, e, hv⟩ := ih a b h
        exact ⟨c :: u, v, by rw [e]; rfl, hv⟩
    · rw [he] at h
      cases a with
      | nil => simp at h
      | cons x a =>
        cases a with
        | nil =>
          simp only [List.cons_append, List.nil_append, List.cons.injEq] at h
          have := h.2.1
          rcases hd with rfl | rfl | rfl | rfl | rfl <;> exact absurd this (by decide)
        | cons y a =>
          simp only [List.cons_append, List.nil_append, List.cons.injEq] at h
          obtain ⟨u, v, e, hv⟩ := ih a b h.2.2
          exact ⟨c :: u, v, by rw [e]; rfl, hv⟩

theorem esc_clear {ps : List (Char → Bool)} (hp : PatOk ps) (hq : ∀ p ∈ ps, p '"' = false)
    (hlt : ∀ c s, c ≠ '<' → starts ps (c :: s) = false) (t rest : List Char) (h : occurs ps t = false) (a b : List Char)
    (e : a ++ b = t.flatMap escC) (hb : b ≠ []) : starts ps (b ++ '"' :: rest) = false := by
  cases b with
  | nil => exact absurd rfl hb
  | cons c b =>
    by_cases hc : c = '<'
    · subst hc
      obtain ⟨u, v, ht, hv⟩ := suffix_lt t a b e
      apply Bool.eq_false_iff.mpr
      intro hs
      rw [hv] at hs
      have := starts_esc hp v ('"' :: rest) (fun p hpm c hc => by
        rw [List.head?_cons, Option.mem_some_iff] at hc; subst hc; exact hq p hpm) hs
      have : occurs ps t = true := (occurs_iff t).mpr ⟨u, v, ht, this⟩
      rw [h] at this; exact absurd this (by decide)
    · exact hlt c _ hc

theorem scriptText_script {json : List Char} (he : occurs endTag json = false) (hc : occurs comment json = false) (after : List Char) :
    scriptText (script json ++ ("</script>".toList ++ after)) = some (script json) := by
  have hA : '<' ∉ "const data = JSON.parse(\"".toList := by decide
  have hB : '<' ∉ "\");".toList := by decide
  have h3 : scriptText ("</script>".toList ++ after) = some [] := by
    have hs : starts endTag ("</script>".toList ++ after) = true := by simp [starts, endTag, Char.toLower]
    rw [show "</script>".toList ++ after = '<' :: ("/script>".toList ++ after) from rfl] at hs ⊢
    rw [scriptText, if_pos hs]
  have h2 : scriptText ("\");".toList ++ ("</script>".toList ++ after)) = some "\");".toList := by
    rw [scriptText_nolt _ _ hB, h3]; rfl
  have h1 : scriptText (escape json ++ ("\");".toList ++ ("</script>".toList ++ after))) = some (escape json ++ "\");".toList) := by
    rw [escape_eq, scriptText_skip, h2]
    · rfl
    · intro a b e hb
      exact ⟨esc_clear endTag_ok endTag_quote (fun c s h => endTag_lt h s) json _ he a b e hb,
        esc_clear comment_ok comment_quote (fun c s h => comment_lt h s) json _ hc a b e hb⟩
  unfold script
  rw [List.append_assoc, List.append_assoc, scriptText_nolt _ _ hA, h1, Option.map_some, List.append_assoc]

theorem strip_append (p s : List Char) : strip p (p ++ s) = some s := by
  induction p with
  | nil => cases s <;> rfl
  | cons c p ih => simp only [List.cons_append, strip, if_true]; exact ih

theorem dataOf_script {json : List Char} (he : occurs endTag json = false) (hc : occurs comment json = false) (after : List Char) :
    dataOf (script json ++ ("</script>".toList ++ after)) = some json := by
  unfold dataOf
  rw [scriptText_script he hc]
  unfold script
  rw [List.append_assoc]
  simp only [strip_append]
  rw [escape_eq]
  have : jsLit (json.flatMap escC ++ "\");".toList) = some (json, ");".toList) := jsLit_esc json ");".toList
  rw [this]; rfl

theorem strip_some {p s r : List Char} (h : strip p s = some r) : s = p ++ r := by
  induction p generalizing s with
  | nil => cases s <;> simp [strip] at h <;> simp [h]
  | cons c p ih =>
    cases s with
    | nil => simp [strip] at h
    | cons x s =>
      simp only [strip] at h
      split at h
      · rename_i e; subst e; rw [ih h]; rfl
      · cases h

theorem digits_append {d s : List Char} (hd : d ≠ []) (h : ∀ c ∈ d, c.isDigit = true) (hs : ∀ c ∈ s.head?, c.isDigit = false) :
    digits (d ++ s) = some (d, s) := by
  have h1 : (d ++ s).takeWhile Char.isDigit = d := by
    rw [List.takeWhile_append_of_pos (fun c hc => h c hc)]
    cases s with
    | nil => simp
    | cons x s => rw [List.takeWhile_cons, hs x rfl]; simp
  have h2 : (d ++ s).dropWhile Char.isDigit = s := by
    rw [List.dropWhile_append_of_pos (fun c hc => h c hc)]
    cases s with
    | nil => rfl
    | cons x s => rw [List.dropWhile_cons, hs x rfl]; simp
  unfold digits
  simp only [h1, h2, if_neg hd]

theorem decStr_isDigit (n : Nat) : ∀ c ∈ decStr n, c.isDigit = true := by
  intro c hc
  obtain ⟨d, hd, rfl⟩ := decStr_digit n c hc
  have : d = 0 ∨ d = 1 ∨ d = 2 ∨ d = 3 ∨ d = 4 ∨ d = 5 ∨ d = 6 ∨ d = 7 ∨ d = 8 ∨ d = 9 := by omega
  rcases this with rfl | rfl | rfl | rfl | rfl | rfl | rfl | rfl | rfl | rfl <;> decide

theorem parseName_results {o z : Nat} (ho : o < 2 ^ 64) (hz : z < 2 ^ 64) : parseName (resultsName o z) = some (o, z) := by
  have hb1 : ∀ c ∈ ("o.".toList ++ (decStr z ++ "b.json".toList)).head?, c.isDigit = false := by
    intro c hc; injection hc with hc; subst hc; decide
  have hb2 : ∀ c ∈ ("b.json".toList).head?, c.isDigit = false := by
    intro c hc; injection hc with hc; subst hc; decide
  have hb3 : strip "b.json".toList "b.json".toList = some [] := by decide
  unfold parseName resultsName
  simp only [List.append_assoc]
  rw [strip_append]
  simp only
  rw [digits_append (decStr_ne_nil o) (decStr_isDigit o) hb1]
  simp only
  rw [strip_append]
  simp only
  rw [digits_append (decStr_ne_nil z) (decStr_isDigit z) hb2]
  simp only
  rw [hb3]
  simp only [parseU64_decStr ho, parseU64_decStr hz]

theorem digits_some {s d r : List Char} (h : digits s = some (d, r)) : s = d ++ r ∧ d ≠ [] ∧ (∀ c ∈ d, c.isDigit = true) := by
  unfold digits at h
  by_cases hd : s.takeWhile Char.isDigit = []
  · simp [hd] at h
  · simp only [if_neg hd, Option.some.injEq, Prod.mk.injEq] at h
    obtain ⟨rfl, rfl⟩ := h
    exact ⟨(List.takeWhile_append_dropWhile).symm, hd, fun c hc => by
      have := List.all_takeWhile (l := s) (p := Char.isDigit)
      rw [List.all_eq_true] at this
      exact this c hc⟩

theorem digitVal_digit {c : Char} (h : c.isDigit = true) : digitVal c = some (c.toNat - 48) := by
  unfold digitVal
  rw [if_pos]
  simp only [Char.isDigit, Bool.and_eq_true, decide_eq_true_eq] at h
  exact ⟨h.1, h.2⟩

theorem foldl_ge (l : List Char) : ∀ a : Nat, a ≤ l.foldl (fun a c => a * 10 + (c.toNat - 48)) a := by
  induction l with
  | nil => intro a; exact Nat.le_refl _
  | cons c l ih => intro a; have := ih (a * 10 + (c.toNat - 48)); simp only [List.foldl_cons]; omega

theorem parseDigits_digits {d : List Char} (hd : ∀ c ∈ d, c.isDigit = true) (a n : Nat) (ha : a < 2 ^ 64) :
    parseDigits a d = some n ↔ d.foldl (fun a c => a * 10 + (c.toNat - 48)) a = n ∧ n < 2 ^ 64 := by
  induction d generalizing a with
  | nil => simp only [parseDigits, List.foldl_nil, Option.some.injEq]; omega
  | cons c d ih =>
    simp only [parseDigits, digitVal_digit (hd c List.mem_cons_self), List.foldl_cons]
    by_cases h : a * 10 + (c.toNat - 48) < 2 ^ 64
    · rw [if_pos h, ih (fun x hx => hd x (List.mem_cons_of_mem _ hx)) _ h]
    · rw [if_neg h]
      have := foldl_ge d (a * 10 + (c.toNat - 48))
      constructor
      · intro e; cases e
      · omega

theorem parseU64_digits {d : List Char} (h0 : d ≠ []) (hd : ∀ c ∈ d, c.isDigit = true) (n : Nat) :
    parseU64 d = some n ↔ decVal d = n ∧ n < 2 ^ 64 := by
  cases d with
  | nil => exact absurd rfl h0
  | cons c d =>
    have hc : c ≠ '+' := by rintro rfl; exact absurd (hd _ List.mem_cons_self) (by decide)
    simp only [parseU64, if_neg hc]
    exact parseDigits_digits hd 0 n (by decide)

theorem parseName_iff {s : List Char} {o z : Nat} : parseName s = some (o, z) ↔ IsResults s o z := by
  constructor
  · intro h
    unfold parseName at h
    cases h1 : strip "results.".toList s with
    | none => simp only [h1] at h; cases h
    | some s1 =>
    simp only [h1] at h
    cases h2 : digits s1 with
    | none => simp only [h2] at h; cases h
    | some p =>
    obtain ⟨d, s2⟩ := p
    simp only [h2] at h
    cases h3 : strip "o.".toList s2 with
    | none => simp only [h3] at h; cases h
    | some s3 =>
    simp only [h3] at h
    cases h4 : digits s3 with
    | none => simp only [h4] at h; cases h
    | some p =>
    obtain ⟨e, s4⟩ := p
    simp only [h4] at h
    cases h5 : strip "b.json".toList s4 with
    | none => simp only [h5] at h; cases h
    | some s5 =>
    cases s5 with
    | cons x xs => simp only [h5] at h; cases h
    | nil =>
    simp only [h5] at h
    obtain ⟨q2, d0, dd⟩ := digits_some h2
    obtain ⟨q4, e0, de⟩ := digits_some h4
    cases h6 : parseU64 d with
    | none => simp only [h6] at h; cases h
    | some o' =>
    cases h7 : parseU64 e with
    | none => simp only [h6, h7] at h; cases h
    | some z' =>
    simp only [h6, h7, Option.some.injEq, Prod.mk.injEq] at h
    obtain ⟨rfl, rfl⟩ := h
    obtain ⟨a1, b1⟩ := (parseU64_digits d0 dd _).mp h6
    obtain ⟨a2, b2⟩ := (parseU64_digits e0 de _).mp h7
    refine ⟨d, e, ?_, d0, e0, dd, de, a1, a2, b1, b2⟩
    rw [strip_some h1, q2, strip_some h3, q4, strip_some h5]
    simp only [List.append_assoc, List.append_nil]
  · rintro ⟨d, e, rfl, d0, e0, dd, de, a1, a2, b1, b2⟩
    have hb1 : ∀ c ∈ ("o.".toList ++ (e ++ "b.json".toList)).head?, c.isDigit = false := by
      intro c hc; injection hc with hc; subst hc; decide
    have hb2 : ∀ c ∈ ("b.json".toList).head?, c.isDigit = false := by
      intro c hc; injection hc with hc; subst hc; decide
    have hb3 : strip "b.json".toList "b.json".toList = some [] := by decide
    unfold parseName
    simp only [List.append_assoc]
    rw [strip_append]
    simp only
    rw [digits_append d0 dd hb1]
    simp only
    rw [strip_append]
    simp only
    rw [digits_append e0 de hb2]
    simp only
    rw [hb3]
    simp only [(parseU64_digits d0 dd _).mpr ⟨a1, b1⟩, (parseU64_digits e0 de _).mpr ⟨a2, b2⟩]

variable {R : Type}

theorem shown_put (size : Nat) (r : R) (m : List (Nat × List R)) (z : Nat) (hn : (m.map (·.1)).Nodup) :
    shown (put size r m) z = shown m z ++ (if z = size then [r] else []) := by
  induction m with
  | nil =>
    by_cases h : z = size
    · subst h; simp [put, shown]
    · simp [put, shown, h, Ne.symm h]
  | cons d m ih =>
    obtain ⟨k, rs⟩ := d
    simp only [List.map_cons, List.nodup_cons] at hn
    by_cases hk : k = size
    · subst hk
      simp only [put, if_true]
      by_cases h : z = k
      · subst h
        have : m.filter (fun d => d.1 == z) = [] := by
          rw [List.filter_eq_nil_iff]
          intro d hd he
          exact hn.1 (List.mem_map.mpr ⟨d, hd, by simpa using he⟩)
        simp [shown, this]
      · simp [shown, h, Ne.symm h]
    · simp only [put, if_neg hk]
      by_cases h : z = k
      · subst h
        have := ih hn.2
        simp only [shown, List.filter_cons, beq_self_eq_true, if_true, List.flatMap_cons] at this ⊢
        rw [this, List.append_assoc]
      · have := ih hn.2
        simp only [shown, List.filter_cons] at this ⊢
        have hkz : (k == z) = false := by simp [Ne.symm h]
        simp only [hkz]
        exact this

theorem put_keys (size : Nat) (r : R) (m : List (Nat × List R)) (hn : (m.map (·.1)).Nodup) :
    ((put size r m).map (·.1)).Nodup ∧ ∀ k, k ∈ (put size r m).map (·.1) ↔ k = size ∨ k ∈ m.map (·.1) := by
  induction m with
  | nil => simp [put]
  | cons d m ih =>
    obtain ⟨k, rs⟩ := d
    simp only [List.map_cons, List.nodup_cons] at hn
    by_cases hk : k = size
    · subst hk
      simp only [put, if_true, List.map_cons, List.nodup_cons, List.mem_cons]
      exact ⟨hn, fun x => by tauto⟩
    · simp only [put, if_neg hk, List.map_cons, List.nodup_cons, List.mem_cons]
      have := ih hn.2
      refine ⟨⟨?_, this.1⟩, fun x => ?_⟩
      · rw [this.2]; exact fun h => h.elim hk hn.1
      · rw [this.2]; tauto

theorem put_full (size : Nat) (r : R) (m : List (Nat × List R)) (h : ∀ d ∈ m, d.2 ≠ []) : ∀ d ∈ put size r m, d.2 ≠ [] := by
  induction m with
  | nil => intro d hd; simp [put] at hd; subst hd; simp
  | cons e m ih =>
    obtain ⟨k, rs⟩ := e
    intro d hd
    simp only [put] at hd
    split at hd
    · rcases List.mem_cons.mp hd with rfl | hd
      · simp
      · exact h d (List.mem_cons_of_mem _ hd)
    · rcases List.mem_cons.mp hd with rfl | hd
      · exact h (k, rs) List.mem_cons_self
      · exact ih (fun d hd => h d (List.mem_cons_of_mem _ hd)) d hd

theorem load_spec (fs : List (List Char × R)) (m : List (Nat × List R)) (hn : (m.map (·.1)).Nodup) (hf : ∀ d ∈ m, d.2 ≠ []) :
    ((load fs m).map (·.1)).Nodup ∧ (∀ d ∈ load fs m, d.2 ≠ []) ∧
      ∀ z, shown (load fs m) z = shown m z ++ fs.filterMap fun f => match parseName f.1 with
        | some (_, size) => if z = size then some f.2 else none
        | none => none := by
  induction fs generalizing m with
  | nil => exact ⟨hn, hf, fun z => by simp [load]⟩
  | cons f fs ih =>
    obtain ⟨name, r⟩ := f
    simp only [load]
    cases hp : parseName name with
    | none =>
      simp only
      obtain ⟨a, b, c⟩ := ih m hn hf
      refine ⟨a, b, fun z => ?_⟩
      rw [c z, List.filterMap_cons]; simp only [hp]
    | some p =>
      obtain ⟨o, size⟩ := p
      simp only
      obtain ⟨a, b, c⟩ := ih (put size r m) (put_keys size r m hn).1 (put_full size r m hf)
      refine ⟨a, b, fun z => ?_⟩
      rw [c z, shown_put size r m z hn, List.filterMap_cons]
      simp only [hp]
      by_cases hz : z = size <;> simp [hz]

/-- strings inside the data are in its text -/
theorem jsonStr_mem_fields {k : List Char} {x : Json} : ∀ l : List (List Char × Json), (k, x) ∈ l → x.text <:+: Json.fields l := by
  intro l h
  induction l with
  | nil => cases h
  | cons p l ih =>
    obtain ⟨k', x'⟩ := p
    rcases List.mem_cons.mp h with h | h
    · injection h with h1 h2
      subst h1; subst h2
      rw [Json.fields]
      exact ⟨',' :: jsonStr k ++ [':'], Json.fields l, by simp⟩
    · obtain ⟨a, b, e⟩ := ih h
      rw [Json.fields]
      exact ⟨',' :: jsonStr k' ++ ':' :: x'.text ++ a, b, by rw [← e]; simp⟩

theorem text_obj {k : List Char} {x : Json} {l : List (List Char × Json)} (h : (k, x) ∈ l) : x.text <:+: (Json.obj l).text := by
  cases l with
  | nil => cases h
  | cons p l =>
    obtain ⟨k', x'⟩ := p
    rcases List.mem_cons.mp h with h | h
    · injection h with h1 h2
      subst h1; subst h2
      rw [Json.text]
      exact ⟨'{' :: jsonStr k ++ [':'], Json.fields l, by simp⟩
    · obtain ⟨a, b, e⟩ := jsonStr_mem_fields l h
      rw [Json.text]
      exact ⟨'{' :: jsonStr k' ++ ':' :: x'.text ++ a, b, by rw [← e]; simp⟩

theorem text_items {x : Json} : ∀ l : List Json, x ∈ l → x.text <:+: Json.items l := by
  intro l h
  induction l with
  | nil => cases h
  | cons y l ih =>
    rcases List.mem_cons.mp h with rfl | h
    · rw [Json.items]; exact ⟨[','], Json.items l, by simp⟩
    · obtain ⟨a, b, e⟩ := ih h
      rw [Json.items]
      exact ⟨',' :: y.text ++ a, b, by rw [← e]; simp⟩

theorem text_arr {x : Json} {l : List Json} (h : x ∈ l) : x.text <:+: (Json.arr l).text := by
  cases l with
  | nil => cases h
  | cons y l =>
    rcases List.mem_cons.mp h with rfl | h
    · rw [Json.text]; exact ⟨['['], Json.items l, by simp⟩
    · obtain ⟨a, b, e⟩ := text_items l h
      rw [Json.text]
      exact ⟨'[' :: y.text ++ a, b, by rw [← e]; simp⟩

theorem text_secret {ds : List (Nat × List Results)} {d : Nat × List Results} {r : Results} {s : S3} (hd : d ∈ ds) (hr : r ∈ d.2)
    (hs : r.cfg.s3 = some s) : jsonStr s.secretAccessKey <:+: (dataJson ds).text := by
  have h1 : jsonStr s.secretAccessKey <:+: s.json.text :=
    text_obj (k := "secret_access_key".toList) (x := .str s.secretAccessKey) (by simp)
  have h2 : s.json.text <:+: r.cfg.json.text := text_obj (k := "s3".toList) (by simp [hs])
  have h3 : r.cfg.json.text <:+: r.json.text := text_obj (k := "cfg".toList) (by simp)
  have h4 : r.json.text <:+: (Json.arr (d.2.map Results.json)).text := text_arr (List.mem_map_of_mem hr)
  have h5 := text_obj (k := "results".toList) (x := .arr (d.2.map Results.json))
    (l := [("object_size".toList, .raw (decStr d.1)), ("results".toList, .arr (d.2.map Results.json))]) (by simp)
  have h6 := text_arr (List.mem_map_of_mem (f := fun d : Nat × List Results => Json.obj [("object_size".toList, .raw (decStr d.1)),
    ("results".toList, .arr (d.2.map Results.json))]) hd)
  exact (((h1.trans h2).trans h3).trans h4).trans (h5.trans h6)

theorem flatMap_infix {a b : List Char} (f : Char → List Char) (h : a <:+: b) : a.flatMap f <:+: b.flatMap f := by
  obtain ⟨x, y, e⟩ := h
  exact ⟨x.flatMap f, y.flatMap f, by rw [← e]; simp⟩

theorem jsonRead_plain {c : Char} (s : List Char) (h1 : c ≠ '\\') (h2 : c ≠ '"') :
    jsonRead (c :: s) = if c.toNat < 32 then none else (jsonRead s).map fun p => (c :: p.1, p.2) := by
  rw [jsonRead.eq_def]; split <;> simp_all

/-- a control character as serde_json writes it -/
theorem jsonRead_low : ∀ n, n < 32 → ∀ s p, jsonRead s = some p →
    jsonRead (jsonChar (Char.ofNat n) ++ s) = some (Char.ofNat n :: p.1, p.2) := by
  intro n hn s p h
  have : n = 0 ∨ n = 1 ∨ n = 2 ∨ n = 3 ∨ n = 4 ∨ n = 5 ∨ n = 6 ∨ n = 7 ∨ n = 8 ∨ n = 9 ∨ n = 10 ∨ n = 11 ∨ n = 12 ∨ n = 13 ∨ n = 14 ∨
      n = 15 ∨ n = 16 ∨ n = 17 ∨ n = 18 ∨ n = 19 ∨ n = 20 ∨ n = 21 ∨ n = 22 ∨ n = 23 ∨ n = 24 ∨ n = 25 ∨ n = 26 ∨ n = 27 ∨ n = 28 ∨
      n = 29 ∨ n = 30 ∨ n = 31 := by omega
  rcases this with rfl | rfl | rfl | rfl | rfl | rfl | rfl | rfl | rfl | rfl | rfl | rfl | rfl | rfl | rfl | rfl | rfl | rfl | rfl | rfl |
    rfl | rfl | rfl | rfl | rfl | rfl | rfl | rfl | rfl | rfl | rfl | rfl
  all_goals (simp [jsonChar, jsonRead, hex, hexVal, h]; try decide)

theorem jsonRead_chars (s rest : List Char) : jsonRead (s.flatMap jsonChar ++ '"' :: rest) = some (s, rest) := by
  induction s with
  | nil => simp [jsonRead]
  | cons c s ih =>
    simp only [List.flatMap_cons, List.append_assoc]
    by_cases hl : c.toNat < 32
    · have := jsonRead_low c.toNat hl _ _ ih
      rwa [Char.ofNat_toNat] at this
    · generalize s.flatMap jsonChar ++ '"' :: rest = u at ih ⊢
      by_cases h1 : c = '"'
      · subst h1; simp [jsonChar, jsonRead, ih]
      by_cases h2 : c = '\\'
      · subst h2; simp [jsonChar, jsonRead, ih]
      have hne : ∀ n, n < 32 → c ≠ Char.ofNat n := by
        rintro n hn rfl
        have hv : n.isValidChar := by unfold Nat.isValidChar; omega
        apply hl
        rw [show (Char.ofNat n).toNat = n from by rw [Char.ofNat, dif_pos hv]; rfl]; exact hn
      have h3 : c ≠ '\n' := hne 10 (by omega)
      have h4 : c ≠ '\r' := hne 13 (by omega)
      have h5 : c ≠ '\t' := hne 9 (by omega)
      have h6 := hne 8 (by omega)
      have h7 := hne 12 (by omega)
      have : jsonChar c = [c] := by
        unfold jsonChar
        rw [if_neg h1, if_neg h2, if_neg h3, if_neg h4, if_neg h5, if_neg h6, if_neg h7, if_neg hl]
      rw [this, List.singleton_append, jsonRead_plain _ h2 h1, if_neg hl, ih]; rfl

theorem starts_len {ps : List (Char → Bool)} {s : List Char} (h : starts ps s = true) : ps.length ≤ s.length := by
  induction ps generalizing s with
  | nil => simp
  | cons p ps ih =>
    cases s with
    | nil => simp [starts] at h
    | cons c s =>
      simp only [starts, Bool.and_eq_true] at h
      have := ih h.2
      simp only [List.length_cons]; omega

theorem starts_long {ps : List (Char → Bool)} {s : List Char} (rest : List Char) (h : ps.length ≤ s.length) :
    starts ps (s ++ rest) = starts ps s := by
  induction ps generalizing s with
  | nil => simp [starts]
  | cons p ps ih =>
    cases s with
    | nil => simp at h
    | cons c s =>
      simp only [List.length_cons] at h
      simp only [List.cons_append, starts, ih (s := s) (by omega)]

theorem scriptText_len {s b : List Char} (h : scriptText s = some b) : 9 ≤ s.length := by
  induction s generalizing b with
  | nil => simp [scriptText] at h
  | cons c s ih =>
    rw [scriptText] at h
    by_cases h1 : starts endTag (c :: s) = true
    · exact starts_len h1
    · rw [if_neg h1] at h
      by_cases h2 : starts comment (c :: s) = true
      · rw [if_pos h2] at h; cases h
      · rw [if_neg h2, Option.map_eq_some_iff] at h
        obtain ⟨b', hb, -⟩ := h
        have := ih hb
        simp only [List.length_cons]; omega

/-- what comes after the first end tag makes no difference -/
theorem scriptText_first {s b : List Char} (rest : List Char) (h : scriptText s = some b) : scriptText (s ++ rest) = some b := by
  induction s generalizing b with
  | nil => simp [scriptText] at h
  | cons c s ih =>
    have hl := scriptText_len h
    rw [scriptText] at h
    rw [List.cons_append, scriptText, ← List.cons_append,
      starts_long (ps := endTag) (s := c :: s) rest hl, starts_long (ps := comment) (s := c :: s) rest (Nat.le_trans (by decide) hl)]
    by_cases h1 : starts endTag (c :: s) = true
    · rwa [if_pos h1] at h ⊢
    · rw [if_neg h1] at h ⊢
      by_cases h2 : starts comment (c :: s) = true
      · rw [if_pos h2] at h; cases h
      · rw [if_neg h2, Option.map_eq_some_iff] at h
        obtain ⟨b', hb, e⟩ := h
        rw [if_neg h2, ih hb, ← e]; rfl

end Plot
end Blobd
