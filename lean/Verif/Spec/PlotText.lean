import Verif.Spec.PlotChart
/-!
# What the texts at the axes of the chart say (C86)
-/
set_option autoImplicit false
namespace Blobd
namespace Plot

/-- decimal digits, possibly with one after a point, write a number -/
def Num (t : List Char) (y : Rat) : Prop :=
  ∃ d, d ≠ [] ∧ (∀ c ∈ d, c.isDigit = true) ∧
    ((t = d ∧ y = (decVal d : Rat)) ∨ ∃ c : Char, c.isDigit = true ∧ t = d ++ ['.', c] ∧ y * 10 = (decVal (d ++ [c]) : Rat))

/-- a number and one of these units say an amount -/
def Amount (units : List (List Char × Rat)) (t : List Char) (y : Rat) : Prop :=
  ∃ n z u f, (u, f) ∈ units ∧ Num n z ∧ t = n ++ u ∧ y = z * f

/-- units of sizes, in bytes -/
def byteUnits : List (List Char × Rat) := [(" B".toList, 1), (" KB".toList, 10 ^ 3), (" MB".toList, 10 ^ 6), (" GB".toList, 10 ^ 9)]

/-- units of rates, in bytes each second -/
def rateUnits : List (List Char × Rat) := [(" B/s".toList, 1), (" KB/s".toList, 10 ^ 3), (" MB/s".toList, 10 ^ 6), (" GB/s".toList, 10 ^ 9)]

/-- units of time, in seconds -/
def timeUnits : List (List Char × Rat) := [(['s'], 1), (['m'], 60), (['h'], 3600)]

/-- a time: amounts, with spaces between them, that have to be added up -/
inductive Dur : List Char → Rat → Prop
  | one {t : List Char} {y : Rat} : Amount timeUnits t y → Dur t y
  | more {t u : List Char} {y z : Rat} : Amount timeUnits t y → Dur u z → Dur (t ++ ' ' :: u) (y + z)

/-- the two differ by at most `e` -/
def Within (e x y : Rat) : Prop := y - x ≤ e ∧ x - y ≤ e

/-- a text says that the value of a metric is `y`, in the unit of the metric -/
inductive Says : Metric → List Char → Rat → Prop
  | ops {o : Op} {t : List Char} {y : Rat} : Amount [(" op/s".toList, 1)] t y → Says (.opsPerSecond o) t y
  | rate {m : Metric} {t : List Char} {y : Rat} : m = .writeMbs ∨ m = .readMbs ∨ m = .randomReadMbs → Amount rateUnits t y → Says m t y
  | ratio {t : List Char} {y : Rat} : Amount [(['%'], 1 / 100)] t y → Says .writeMbsNormalized t y
  | time {m : Metric} {t : List Char} {y : Rat} : m = .waitForEnd ∨ m = .cpu ∨ m = .readTtfb ∨ m = .randomReadTtfb ∨ (∃ o, m = .latency o) →
      Dur t y → Says m t y
  | size {m : Metric} {t : List Char} {y : Rat} : m = .diskRead ∨ m = .diskWrite ∨ m = .peakMemory → Amount byteUnits t y → Says m t y
  | count {m : Metric} {t : List Char} {y : Rat} : m = .diskReadOps ∨ m = .diskWriteOps → Amount [([], 1), (" op".toList, 1), (" ops".toList, 1)] t y →
      Says m t y

/-- by how much the number said may differ from the value: 5 per cent, and for small values a fixed amount -/
def slack (m : Metric) (x : Rat) : Rat :=
  match m with
  | .opsPerSecond _ => 1 / 20
  | .writeMbs => if x < 1000 then 1 / 20 else x / 20
  | .readMbs => if x < 1000 then 1 / 20 else x / 20
  | .randomReadMbs => if x < 1000 then 1 / 20 else x / 20
  | .writeMbsNormalized => 1 / 200
  | .diskRead => if x < 1000 then 1 / 2 else x / 20
  | .diskWrite => if x < 1000 then 1 / 2 else x / 20
  | .peakMemory => if x < 1000 then 1 / 2 else x / 20
  | .diskReadOps => 1 / 20
  | .diskWriteOps => 1 / 20
  | _ => if x < 60 then 1 / 20 else if x < 3600 then 1 / 2 else 60

/-- this is one of the values the chart shows: of a point, or its average or percentile -/
def ShowsValue (ch : List (List Char × List (Nat × Val))) (y : Rat) : Prop :=
  ∃ name size v, HasPoint ch name size v ∧ (v = .num y ∨ ∃ z, v = .spread y z ∨ v = .spread z y)

end Plot
end Blobd
