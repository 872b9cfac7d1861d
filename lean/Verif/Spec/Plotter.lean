import Verif.Model.Plotter
/-!
# What a browser makes of the page (C82)
-/
set_option autoImplicit false
namespace Blobd
namespace Plot

/-- the number these decimal digits write -/
def decVal (d : List Char) : Nat := d.foldl (fun a c => a * 10 + (c.toNat - 48)) 0

/-- `s` is the name of a results file: `results.`, the number of objects, `o.`, the object size, `b.json`, and nothing else -/
def IsResults (s : List Char) (objects size : Nat) : Prop :=
  ∃ d e : List Char, s = "results.".toList ++ d ++ "o.".toList ++ e ++ "b.json".toList ∧ d ≠ [] ∧ e ≠ [] ∧
    (∀ c ∈ d, c.isDigit = true) ∧ (∀ c ∈ e, c.isDigit = true) ∧ decVal d = objects ∧ decVal e = size ∧ objects < 2 ^ 64 ∧ size < 2 ^ 64

/-- the value of a JavaScript string literal, read from after its opening `"`, and what follows its closing one. Line breaks are not allowed in one;
`\n`, `\r`, `\t`, `\b`, `\f`, `\v` are control characters; escapes with digits, `\x`, `\u` and line continuations are left out (`none`);
`\` before anything else is that character. -/
def jsLit : List Char → Option (List Char × List Char)
  | [] => none
  | '"' :: s => some ([], s)
  | '\n' :: _ => none
  | '\r' :: _ => none
  | '\\' :: c :: s =>
    if c = 'n' then (jsLit s).map fun p => ('\n' :: p.1, p.2)
    else if c = 'r' then (jsLit s).map fun p => ('\r' :: p.1, p.2)
    else if c = 't' then (jsLit s).map fun p => ('\t' :: p.1, p.2)
    else if c = 'b' then (jsLit s).map fun p => (Char.ofNat 8 :: p.1, p.2)
    else if c = 'f' then (jsLit s).map fun p => (Char.ofNat 12 :: p.1, p.2)
    else if c = 'v' then (jsLit s).map fun p => (Char.ofNat 11 :: p.1, p.2)
    else if c = 'x' ∨ c = 'u' ∨ c.isDigit ∨ c = '\n' ∨ c = '\r' then none
    else (jsLit s).map fun p => (c :: p.1, p.2)
  | c :: s => (jsLit s).map fun p => (c :: p.1, p.2)

/-- `s` begins with characters that satisfy these conditions, in order -/
def starts : List (Char → Bool) → List Char → Bool
  | [], _ => true
  | _ :: _, [] => false
  | p :: ps, c :: s => p c && starts ps s

/-- an end tag of a script: `</script` in any case, then a space, a tab, a line feed, a form feed, `/` or `>` -/
def endTag : List (Char → Bool) :=
  [(· == '<'), (· == '/'), fun c => c.toLower == 's', fun c => c.toLower == 'c', fun c => c.toLower == 'r', fun c => c.toLower == 'i',
    fun c => c.toLower == 'p', fun c => c.toLower == 't',
    fun c => c == ' ' || c == '\t' || c == '\n' || c == Char.ofNat 12 || c == '/' || c == '>']

/-- `<!--`, after which an end tag may no longer be one -/
def comment : List (Char → Bool) := [(· == '<'), (· == '!'), (· == '-'), (· == '-')]

/-- such characters occur somewhere in `s` -/
def occurs (ps : List (Char → Bool)) : List Char → Bool
  | [] => starts ps []
  | c :: s => starts ps (c :: s) || occurs ps s

/-- the text of a script element, read from after its start tag: what is before the first end tag. With `<!--` in it: left out (`none`). -/
def scriptText : List Char → Option (List Char)
  | [] => none
  | c :: s => if starts endTag (c :: s) then some [] else if starts comment (c :: s) then none else (scriptText s).map (c :: ·)

/-- the text the page's script gives to `JSON.parse`, if the script is one statement `const data = JSON.parse("…");` -/
def dataOf (afterTag : List Char) : Option (List Char) :=
  match scriptText afterTag with
  | none => none
  | some body => match strip "const data = JSON.parse(\"".toList body with
    | none => none
    | some lit => match jsLit lit with
      | some (v, rest) => if rest = ");".toList then some v else none
      | none => none

/-- the value of a JSON string, read from after its opening `"` (RFC 8259, section 7; `\u` only up to `\u00ff`) -/
def hexVal (c : Char) : Option Nat :=
  if '0' ≤ c ∧ c ≤ '9' then some (c.toNat - 48) else if 'a' ≤ c ∧ c ≤ 'f' then some (c.toNat - 87) else if 'A' ≤ c ∧ c ≤ 'F' then some (c.toNat - 55)
  else none

/-- see `hexVal` -/
def jsonRead : List Char → Option (List Char × List Char)
  | [] => none
  | '"' :: s => some ([], s)
  | '\\' :: '"' :: s => (jsonRead s).map fun p => ('"' :: p.1, p.2)
  | '\\' :: '\\' :: s => (jsonRead s).map fun p => ('\\' :: p.1, p.2)
  | '\\' :: '/' :: s => (jsonRead s).map fun p => ('/' :: p.1, p.2)
  | '\\' :: 'b' :: s => (jsonRead s).map fun p => (Char.ofNat 8 :: p.1, p.2)
  | '\\' :: 'f' :: s => (jsonRead s).map fun p => (Char.ofNat 12 :: p.1, p.2)
  | '\\' :: 'n' :: s => (jsonRead s).map fun p => ('\n' :: p.1, p.2)
  | '\\' :: 'r' :: s => (jsonRead s).map fun p => ('\r' :: p.1, p.2)
  | '\\' :: 't' :: s => (jsonRead s).map fun p => ('\t' :: p.1, p.2)
  | '\\' :: 'u' :: '0' :: '0' :: a :: b :: s => match hexVal a, hexVal b with
    | some a, some b => (jsonRead s).map fun p => (Char.ofNat (a * 16 + b) :: p.1, p.2)
    | _, _ => none
  | '\\' :: _ => none
  | c :: s => if c.toNat < 32 then none else (jsonRead s).map fun p => (c :: p.1, p.2)

/-- the results shown for one object size -/
def shown {R : Type} (ds : List (Nat × List R)) (size : Nat) : List R := (ds.filter fun d => d.1 == size).flatMap (·.2)

end Plot
end Blobd
