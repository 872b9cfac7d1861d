import Verif.Model.PlotChart
import Verif.Spec.Plotter
/-!
# What a chart of benchmark results should show (C84)
-/
set_option autoImplicit false
namespace Blobd
namespace Plot

/-- among the files is one with the results `r` of a run of this benchmark with this object size -/
def RunOf (files : List (List Char × Run)) (name : List Char) (size : Nat) (r : Run) : Prop :=
  ∃ file objects, (file, r) ∈ files ∧ IsResults file objects size ∧ r.name = name

/-- there is at most one run of a benchmark for each object size -/
def OneRun (files : List (List Char × Run)) : Prop := ∀ name size r r', RunOf files name size r → RunOf files name size r' → r = r'

/-- all runs of a benchmark are of one kind of store -/
def OneTarget (files : List (List Char × Run)) : Prop :=
  ∀ name size size' r r', RunOf files name size r → RunOf files name size' r' → r.target = r'.target

/-- every phase took some time -/
def Timed (r : Run) : Prop := ∀ o e, r.op o = some e → e.secs ≠ 0

/-- every phase of every run took some time -/
def AllTimed (files : List (List Char × Run)) : Prop := ∀ f ∈ files, Timed f.2

/-- how many bytes of each object a phase moves that writes or reads: all of them, or at a random place at most 4000 -/
def bytesEach (r : Run) : Op → Nat
  | .randomRead => if r.size ≤ 4000 then r.size else 4000
  | _ => r.size

/-- what the metric of a run is: the number of operations in each second, or of bytes; times in seconds -/
inductive Reading (r : Run) : Metric → Val → Prop
  | ops {o : Op} {e : OpRes} {x : Rat} (h : r.op o = some e) (hx : x * e.secs = r.objects) : Reading r (.opsPerSecond o) (.num x)
  | written {e : OpRes} {x : Rat} (h : r.op .write = some e) (hx : x * e.secs = (r.objects * bytesEach r .write : Nat)) :
      Reading r .writeMbs (.num x)
  | normalized {e : OpRes} {x : Rat} (h : r.op .write = some e) (hx : x * e.secs = (r.objects * bytesEach r .write : Nat)) :
      Reading r .writeMbsNormalized (.num x)
  | read {e : OpRes} {x : Rat} (h : r.op .read = some e) (hx : x * e.secs = (r.objects * bytesEach r .read : Nat)) :
      Reading r .readMbs (.num x)
  | randomRead {e : OpRes} {x : Rat} (h : r.op .randomRead = some e)
      (hx : x * e.secs = (r.objects * bytesEach r .randomRead : Nat)) : Reading r .randomReadMbs (.num x)
  | waited : Reading r .waitForEnd (.num r.waitForEnd)
  | ttfb {e : OpRes} {l : Lat} {x y : Rat} (h : r.op .read = some e) (hl : e.ttfb = some l) (hx : x * 1000 = l.avgMs) (hy : y * 1000 = l.p99Ms) :
      Reading r .readTtfb (.spread x y)
  | randomTtfb {e : OpRes} {l : Lat} {x y : Rat} (h : r.op .randomRead = some e) (hl : e.ttfb = some l) (hx : x * 1000 = l.avgMs)
      (hy : y * 1000 = l.p99Ms) : Reading r .randomReadTtfb (.spread x y)
  | cpu : Reading r .cpu (.num (r.sys.cpuUser + r.sys.cpuSystem))
  | diskRead : Reading r .diskRead (.num (r.sys.diskRead : Nat))
  | diskWrite : Reading r .diskWrite (.num (r.sys.diskWrite : Nat))
  | diskReadOps : Reading r .diskReadOps (.num (r.sys.diskReadOps : Nat))
  | diskWriteOps : Reading r .diskWriteOps (.num (r.sys.diskWriteOps : Nat))
  | peakMemory : Reading r .peakMemory (.num (r.sys.peakMemory : Nat))
  | latency {o : Op} {e : OpRes} {x y : Rat} (h : r.op o = some e) (hx : x * 1000 = e.latency.avgMs) (hy : y * 1000 = e.latency.p99Ms) :
      Reading r (.latency o) (.spread x y)

/-- the point a run should have in the chart: its reading, or for the normalised throughput what multiple it is of the reading of a run of `direct`
with the same object size -/
def Shows (files : List (List Char × Run)) (size : Nat) (m : Metric) (r : Run) (v : Val) : Prop :=
  if m = .writeMbsNormalized then
    ∃ d x y z, RunOf files "direct".toList size d ∧ Reading d m (.num y) ∧ y ≠ 0 ∧ Reading r m (.num x) ∧ v = .num z ∧ z * y = x
  else Reading r m v

/-- stores of this kind have what the metric measures: RocksDB has no creation, RocksDB and the file system have no commit -/
def Offers (target : List Char) (m : Metric) : Prop :=
  ((m = .opsPerSecond .create ∨ m = .latency .create) → target ≠ "RocksDB".toList) ∧
  ((m = .opsPerSecond .commit ∨ m = .latency .commit) → target ≠ "RocksDB".toList ∧ target ≠ "FS".toList)

/-- the chart has this point on the line of this benchmark -/
def HasPoint (ch : List (List Char × List (Nat × Val))) (name : List Char) (size : Nat) (v : Val) : Prop :=
  ∃ l, (name, l) ∈ ch ∧ (size, v) ∈ l

end Plot
end Blobd
