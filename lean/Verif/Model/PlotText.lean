import Verif.Model.HttpRead
import Verif.Model.PlotChart
/-!
# The texts at the axes of the chart

benchmark-plotter/src/index.js: how sizes, rates, times and ratios are written, and where the marks of the vertical axis are. Numbers are exact
(JavaScript's are doubles), not negative, and below 10^21 (from there on `toFixed` writes an exponent).
-/
set_option autoImplicit false
namespace Blobd
namespace Plot

/-- the integer nearest to `x`, of two the larger -/
def nearest (x : Rat) : Nat := (x + 1 / 2).floor.toNat

/-- `toFixed(0)` -/
def fixed0 (x : Rat) : List Char := Http.decStr (nearest x)

/-- `toFixed(1)` -/
def fixed1 (x : Rat) : List Char :=
  Http.decStr (nearest (x * 10) / 10) ++ '.' :: Http.decStr (nearest (x * 10) % 10)

/-- benchmark-plotter/src/index.js:328-333 `formatBytes` (of the size of an object) -/
def formatBytes (n : Nat) : List Char :=
  if n ≥ 1000000000 then fixed1 ((n : Rat) / 1000000000) ++ " GB".toList
  else if n ≥ 1000000 then fixed1 ((n : Rat) / 1000000) ++ " MB".toList
  else if n ≥ 1000 then fixed1 ((n : Rat) / 1000) ++ " KB".toList
  else Http.decStr n ++ " B".toList

/-- benchmark-plotter/src/index.js:353-358 `formatBytesAxis` -/
def formatBytesAxis (x : Rat) : List Char :=
  if x ≥ 1000000000 then fixed1 (x / 1000000000) ++ " GB".toList
  else if x ≥ 1000000 then fixed1 (x / 1000000) ++ " MB".toList
  else if x ≥ 1000 then fixed1 (x / 1000) ++ " KB".toList
  else fixed0 x ++ " B".toList

/-- benchmark-plotter/src/index.js:361-366 `formatBytesPerSecAxis` -/
def formatBytesPerSecAxis (x : Rat) : List Char :=
  if x ≥ 1000000000 then fixed1 (x / 1000000000) ++ " GB/s".toList
  else if x ≥ 1000000 then fixed1 (x / 1000000) ++ " MB/s".toList
  else if x ≥ 1000 then fixed1 (x / 1000) ++ " KB/s".toList
  else fixed1 x ++ " B/s".toList

/-- `Array.prototype.join(' ')` -/
def joinSp : List (List Char) → List Char
  | [] => []
  | [a] => a
  | a :: b :: l => a ++ ' ' :: joinSp (b :: l)

/-- benchmark-plotter/src/index.js:369-383 `formatTimeAxis`. (`formatTime` in 336-350 is not used.) -/
def formatTimeAxis (x : Rat) : List Char :=
  if x < 60 then fixed1 x ++ ['s']
  else
    let hours := (x / 3600).floor.toNat
    let minutes := ((x - 3600 * (hours : Rat)) / 60).floor.toNat
    let secs := x - 60 * ((x / 60).floor.toNat : Rat)
    let parts := (if hours > 0 then [Http.decStr hours ++ ['h']] else []) ++ (if minutes > 0 then [Http.decStr minutes ++ ['m']] else []) ++
      (if secs > 0 ∧ hours = 0 then [fixed0 secs ++ ['s']] else [])
    if parts.isEmpty then "0s".toList else joinSp parts

/-- benchmark-plotter/src/index.js:386-388 `formatPercentageAxis` -/
def formatPercentageAxis (x : Rat) : List Char := fixed0 (x * 100) ++ ['%']

/-- benchmark-plotter/src/index.js:656 -/
def formatOps (x : Rat) : List Char := fixed1 x ++ " op/s".toList

/-- benchmark-plotter/src/index.js:728-740: the marks of the vertical axis of a chart with these values -/
def ticks : List Rat → List Rat
  | [] => []
  | y :: ys =>
    let lo := ys.foldl min y
    let hi := ys.foldl max y
    (List.range 5).map fun i : Nat => lo + (i : Rat) * ((hi - lo) / 4)

/-- benchmark-plotter/src/index.js:19-324: `type` of the metrics -/
inductive Kind
  | ops | storage | storageRate | time | latency | ratio

/-- benchmark-plotter/src/index.js:19-324: `type` of each metric -/
def kind : Metric → Kind
  | .opsPerSecond _ => .ops
  | .writeMbs => .storageRate
  | .writeMbsNormalized => .ratio
  | .readMbs => .storageRate
  | .randomReadMbs => .storageRate
  | .waitForEnd => .time
  | .readTtfb => .latency
  | .randomReadTtfb => .latency
  | .cpu => .time
  | .diskRead => .storage
  | .diskWrite => .storage
  | .diskReadOps => .ops
  | .diskWriteOps => .ops
  | .peakMemory => .storage
  | .latency _ => .latency

/-- benchmark-plotter/src/index.js:391-397 `getTickFormatter` -/
def tickFormatter : Kind → Option (Rat → List Char)
  | .storage => some formatBytesAxis
  | .storageRate => some formatBytesPerSecAxis
  | .time => some formatTimeAxis
  | .latency => some formatTimeAxis
  | .ratio => some formatPercentageAxis
  | .ops => none

/-- benchmark-plotter/src/index.js:642-662 `formattedValue`: the value in the text shown over a point. Those of latencies are written by Plotly
(`none`). -/
def hoverText (m : Metric) (x : Rat) : Option (List Char) :=
  match kind m with
  | .storageRate => some (formatBytesPerSecAxis x)
  | .storage => some (formatBytesAxis x)
  | .time => some (formatTimeAxis x)
  | .ratio => some (formatPercentageAxis x)
  | .ops => some (formatOps x)
  | .latency => none

/-- benchmark-plotter/src/index.js:726 `allYValues`: of a line with spread first the percentiles, then the averages -/
def lineValues (l : List (Nat × Val)) : List Rat :=
  (l.filterMap fun p => match p.2 with | .spread _ y => some y | .num _ => none) ++ l.map fun p => match p.2 with | .spread x _ => x | .num x => x

/-- benchmark-plotter/src/index.js:713-746: the marks of the vertical axis with their texts; `none` leaves them to Plotly -/
def marks (ds : List (Nat × List Run)) (m : Metric) : Option (List (Rat × List Char)) :=
  (tickFormatter (kind m)).map fun f => (ticks ((chart ds m).flatMap fun l => lineValues l.2)).map fun x => (x, f x)

end Plot
end Blobd
