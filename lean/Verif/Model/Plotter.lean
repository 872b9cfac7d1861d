import Verif.Model.HttpRead
/-!
# The benchmark plotter

benchmark-plotter/src/main.rs: reads the result files of all benchmarks, groups them by object size and writes one HTML page with the data in it.
Texts are lists of characters. Reading the files (JSON to records) is left out: a file here is its name and the record in it.
-/
set_option autoImplicit false
namespace Blobd
namespace Plot
open Http

/-! ## Result files -/

/-- benchmark-runner/src/main.rs:288 `format!("results.{}o.{}b.json", objects, object_size)` -/
def resultsName (objects size : Nat) : List Char :=
  "results.".toList ++ decStr objects ++ "o.".toList ++ decStr size ++ "b.json".toList

/-- `s` without the prefix `p` -/
def strip : List Char → List Char → Option (List Char)
  | [], s => some s
  | p :: ps, c :: s => if p = c then strip ps s else none
  | _ :: _, [] => none

/-- the digits `s` begins with, at least one (benchmark-plotter/src/main.rs:14 `(\d+)`). `\d` also matches digits that are not ASCII,
but then `parse` (benchmark-plotter/src/main.rs:24-25) fails and the answer is the same. -/
def digits (s : List Char) : Option (List Char × List Char) :=
  let d := s.takeWhile Char.isDigit
  if d = [] then none else some (d, s.dropWhile Char.isDigit)

/-- benchmark-plotter/src/main.rs:22-27 `parse_filename` -/
def parseName (s : List Char) : Option (Nat × Nat) :=
  match strip "results.".toList s with
  | none => none
  | some s => match digits s with
    | none => none
    | some (d1, s) => match strip "o.".toList s with
      | none => none
      | some s => match digits s with
        | none => none
        | some (d2, s) => match strip "b.json".toList s with
          | some [] => match parseU64 d1, parseU64 d2 with
            | some o, some z => some (o, z)
            | _, _ => none
          | _ => none

variable {R : Type}

/-- benchmark-plotter/src/main.rs:49-52 `entry(object_size).or_insert_with(Vec::new).push(result)`. The map's order is unspecified;
here the order of insertion. -/
def put (size : Nat) (r : R) : List (Nat × List R) → List (Nat × List R)
  | [] => [(size, [r])]
  | (z, rs) :: m => if z = size then (z, rs ++ [r]) :: m else (z, rs) :: put size r m

/-- benchmark-plotter/src/main.rs:29-64 `load_results`: `files` are the files of the benchmark directories, with the record each has -/
def load : List (List Char × R) → List (Nat × List R) → List (Nat × List R)
  | [], m => m
  | (name, r) :: fs, m => match parseName name with
    | none => load fs m
    | some (_, size) => load fs (put size r m)

/-! ## The data as JSON -/

/-- what serde_json writes -/
inductive Json
  | null
  /-- a number or boolean, as text -/
  | raw (t : List Char)
  | str (s : List Char)
  | arr (l : List Json)
  | obj (l : List (List Char × Json))

/-- one digit of `\u00xx` (serde_json 1 `format_escaped_str`) -/
def hex (n : Nat) : Char := if n < 10 then Char.ofNat (48 + n) else Char.ofNat (87 + n)

/-- a character in a JSON string (serde_json 1 `format_escaped_str`, called from benchmark-plotter/src/main.rs:67) -/
def jsonChar (c : Char) : List Char :=
  if c = '"' then ['\\', '"'] else if c = '\\' then ['\\', '\\'] else if c = '\n' then ['\\', 'n'] else if c = '\r' then ['\\', 'r']
  else if c = '\t' then ['\\', 't'] else if c = Char.ofNat 8 then ['\\', 'b'] else if c = Char.ofNat 12 then ['\\', 'f']
  else if c.toNat < 32 then ['\\', 'u', '0', '0', hex (c.toNat / 16), hex (c.toNat % 16)] else [c]

/-- a JSON string -/
def jsonStr (s : List Char) : List Char := '"' :: s.flatMap jsonChar ++ ['"']

mutual
/-- benchmark-plotter/src/main.rs:67 `serde_json::to_string` -/
def Json.text : Json → List Char
  | .null => "null".toList
  | .raw t => t
  | .str s => jsonStr s
  | .arr [] => "[]".toList
  | .arr (x :: l) => '[' :: x.text ++ Json.items l
  | .obj [] => "{}".toList
  | .obj ((k, x) :: l) => '{' :: jsonStr k ++ ':' :: x.text ++ Json.fields l
/-- the rest of an array -/
def Json.items : List Json → List Char
  | [] => [']']
  | x :: l => ',' :: x.text ++ Json.items l
/-- the rest of an object -/
def Json.fields : List (List Char × Json) → List Char
  | [] => ['}']
  | (k, x) :: l => ',' :: jsonStr k ++ ':' :: x.text ++ Json.fields l
end

/-- benchmark-types/src/lib.rs:10-17 -/
structure S3 where
  region : List Char
  endpoint : List Char
  accessKeyId : List Char
  secretAccessKey : List Char
  bucket : List Char
  partSize : Nat

/-- benchmark-types/src/lib.rs:10 `derive(Serialize)` -/
def S3.json (s : S3) : Json := .obj [("region".toList, .str s.region), ("endpoint".toList, .str s.endpoint),
  ("access_key_id".toList, .str s.accessKeyId), ("secret_access_key".toList, .str s.secretAccessKey), ("bucket".toList, .str s.bucket),
  ("part_size".toList, .raw (decStr s.partSize))]

/-- benchmark-types/src/lib.rs:56-113 `Config`: `prefix` is a path; the fields after `s3` are `more` -/
structure Config where
  target : List Char
  pathPrefix : Option (List Char)
  tiering : Option Nat
  s3 : Option S3
  more : List (List Char × Json)

/-- benchmark-types/src/lib.rs:56 `derive(Serialize)` -/
def Config.json (c : Config) : Json := .obj ([("target".toList, .str c.target),
  ("prefix".toList, match c.pathPrefix with | none => .null | some p => .str p),
  ("tiering".toList, match c.tiering with | none => .null | some n => .raw (decStr n)),
  ("s3".toList, match c.s3 with | none => .null | some s => s.json)] ++ c.more)

/-- benchmark-types/src/lib.rs:158-170 `BenchmarkResults`: the fields after `cfg` are `more` -/
structure Results where
  name : List Char
  cfg : Config
  more : List (List Char × Json)

/-- benchmark-types/src/lib.rs:158 `derive(Serialize)` -/
def Results.json (r : Results) : Json :=
  .obj ([("benchmark_name".toList, .str r.name), ("cfg".toList, r.cfg.json)] ++ r.more)

/-- benchmark-plotter/src/main.rs:16-20, 67 -/
def dataJson (ds : List (Nat × List Results)) : Json :=
  .arr (ds.map fun d => .obj [("object_size".toList, .raw (decStr d.1)), ("results".toList, .arr (d.2.map Results.json))])

/-! ## The page -/

/-- Rust's `str::replace(char, &str)` -/
def replaceC (c : Char) (by_ : List Char) (s : List Char) : List Char := s.flatMap fun x => if x = c then by_ else [x]

/-- benchmark-plotter/src/main.rs:69-74 -/
def escape (s : List Char) : List Char :=
  replaceC '\t' ['\\', 't'] (replaceC '\r' ['\\', 'r'] (replaceC '\n' ['\\', 'n'] (replaceC '"' ['\\', '"'] (replaceC '\\' ['\\', '\\'] s))))

/-- benchmark-plotter/src/main.rs:89 -/
def script (json : List Char) : List Char := "const data = JSON.parse(\"".toList ++ escape json ++ "\");".toList

/-- benchmark-plotter/src/main.rs:76-110: what is before and after the script is fixed -/
def page (before after : List Char) (json : List Char) : List Char :=
  before ++ "<script>".toList ++ script json ++ "</script>".toList ++ after

end Plot
end Blobd
