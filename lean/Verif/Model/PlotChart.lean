import Verif.Model.Plotter
/-!
# The chart of the benchmark page

benchmark-plotter/src/index.js: from the data sets in the page to the lines of the chart. Numbers are exact (JavaScript's are doubles) and
`NaN` does not occur; colours, axes, texts shown on hovering, the address bar and the drop-down are left out.
-/
set_option autoImplicit false
namespace Blobd
namespace Plot

/-- the phases of a benchmark with results of their own (benchmark-types/src/lib.rs:132-146 `OpResults`) -/
inductive Op
  | create | write | commit | inspect | randomRead | read | delete
deriving DecidableEq

/-- benchmark-types/src/lib.rs:115-121 `LatencyStats`: what the chart uses of it, in milliseconds -/
structure Lat where
  avgMs : Rat
  p99Ms : Rat
deriving DecidableEq

/-- benchmark-types/src/lib.rs:123-130 `OpResult` without the starting time -/
structure OpRes where
  secs : Rat
  latency : Lat
  ttfb : Option Lat

/-- benchmark-types/src/lib.rs:148-157 `FinalSystemMetrics` -/
structure Sys where
  peakMemory : Nat
  cpuUser : Rat
  cpuSystem : Rat
  diskRead : Nat
  diskWrite : Nat
  diskReadOps : Nat
  diskWriteOps : Nat

/-- benchmark-types/src/lib.rs:159-171 `BenchmarkResults`: what the chart uses of it -/
structure Run where
  name : List Char
  target : List Char
  objects : Nat
  size : Nat
  op : Op → Option OpRes
  waitForEnd : Rat
  sys : Sys

/-- benchmark-plotter/src/index.js:19-324 `metrics` -/
inductive Metric
  | opsPerSecond (o : Op)
  | writeMbs | writeMbsNormalized | readMbs | randomReadMbs
  | waitForEnd
  | readTtfb | randomReadTtfb
  | cpu | diskRead | diskWrite | diskReadOps | diskWriteOps | peakMemory
  | latency (o : Op)
deriving DecidableEq

/-- a number, or an average with a 99th percentile -/
inductive Val
  | num (x : Rat)
  | spread (avg p99 : Rat)
deriving DecidableEq

/-- benchmark-plotter/src/index.js:25-322 `compute` of each metric; `none` is `null`. A phase that is there has its latencies (they are
not optional in benchmark-types/src/lib.rs:127), and the system's figures are always there. -/
def compute (r : Run) : Metric → Option Val
  | .opsPerSecond o => (r.op o).map fun e => .num (r.objects / e.secs)
  | .writeMbs => (r.op .write).map fun e => .num ((r.objects * r.size : Nat) / e.secs)
  | .writeMbsNormalized => (r.op .write).map fun e => .num ((r.objects * r.size : Nat) / e.secs)
  | .readMbs => (r.op .read).map fun e => .num ((r.objects * r.size : Nat) / e.secs)
  | .randomReadMbs => (r.op .randomRead).map fun e => .num ((r.objects * min 4000 r.size : Nat) / e.secs)
  | .waitForEnd => some (.num r.waitForEnd)
  | .readTtfb => (r.op .read).bind fun e => e.ttfb.map fun l => .spread (l.avgMs / 1000) (l.p99Ms / 1000)
  | .randomReadTtfb => (r.op .randomRead).bind fun e => e.ttfb.map fun l => .spread (l.avgMs / 1000) (l.p99Ms / 1000)
  | .cpu => some (.num (r.sys.cpuUser + r.sys.cpuSystem))
  | .diskRead => some (.num (r.sys.diskRead : Nat))
  | .diskWrite => some (.num (r.sys.diskWrite : Nat))
  | .diskReadOps => some (.num (r.sys.diskReadOps : Nat))
  | .diskWriteOps => some (.num (r.sys.diskWriteOps : Nat))
  | .peakMemory => some (.num (r.sys.peakMemory : Nat))
  | .latency o => (r.op o).map fun e => .spread (e.latency.avgMs / 1000) (e.latency.p99Ms / 1000)

/-- benchmark-plotter/src/index.js:547-549 `data.find(…)`, then `results.find(…)` -/
def firstRun (ds : List (Nat × List Run)) (name : List Char) (size : Nat) : Option Run :=
  (ds.find? fun d => d.1 == size).bind fun d => d.2.find? fun r => r.name == name

/-- benchmark-plotter/src/index.js:523-537 `directValues` -/
def directValue (ds : List (Nat × List Run)) (m : Metric) (size : Nat) : Option Rat :=
  match (firstRun ds "direct".toList size).bind (compute · m) with
  | some (.num d) => some d
  | _ => none

/-- benchmark-plotter/src/index.js:547-573: the point of one benchmark at one size -/
def pointAt (ds : List (Nat × List Run)) (m : Metric) (name : List Char) (size : Nat) : Option Val :=
  match (firstRun ds name size).bind (compute · m) with
  | none => none
  | some v => if m = .writeMbsNormalized then
      match v, directValue ds m size with
      | .num x, some d => if d = 0 then none else some (.num (x / d))
      | _, _ => none
    else some v

/-- benchmark-plotter/src/index.js:543 -/
def sizes (ds : List (Nat × List Run)) : List Nat := (ds.map (·.1)).mergeSort fun a b => decide (a ≤ b)

/-- benchmark-plotter/src/index.js:539-574: `x` and `y_avg` (with `y_p99`) of one benchmark -/
def line (ds : List (Nat × List Run)) (m : Metric) (name : List Char) : List (Nat × Val) :=
  (sizes ds).filterMap fun z => (pointAt ds m name z).map fun v => (z, v)

/-- benchmark-plotter/src/index.js:476-478 `benchmarkNames`. JavaScript orders texts by their UTF-16 units, this by characters. -/
def names (ds : List (Nat × List Run)) : List (List Char) :=
  (((ds.flatMap (·.2)).map (·.name)).eraseDups).mergeSort fun a b => decide (a ≤ b)

/-- benchmark-plotter/src/index.js:480-509: benchmarks of stores that have no such operation are left out -/
def supported (ds : List (Nat × List Run)) (m : Metric) (name : List Char) : Bool :=
  if m = .opsPerSecond .create ∨ m = .latency .create ∨ m = .opsPerSecond .commit ∨ m = .latency .commit then
    match (ds.flatMap (·.2)).find? fun r => r.name == name with
    | none => true
    | some r => if m = .opsPerSecond .create ∨ m = .latency .create then r.target != "RocksDB".toList
      else r.target != "RocksDB".toList && r.target != "FS".toList
  else true

/-- benchmark-plotter/src/index.js:470-677 `updateMainChart`: the lines, each under its benchmark's name -/
def chart (ds : List (Nat × List Run)) (m : Metric) : List (List Char × List (Nat × Val)) :=
  (((names ds).filter (supported ds m)).map fun n => (n, line ds m n)).filter fun l => !l.2.isEmpty

/-- benchmark-plotter/src/index.js:400-406 `getDisplayName`: the line's label. (For a name that every JavaScript object has as a property,
such as `constructor`, the label is not a text; left out.) -/
def displayName (name : List Char) : List Char :=
  if name = "direct".toList then "blobd".toList else if name = "lite".toList then "blobd-lite".toList else name

end Plot
end Blobd
