import Verif.Proofs.PlotChart
import Verif.Model.Benchmark
/-!
# C84: the chart of benchmark results
-/
set_option autoImplicit false
namespace Blobd
namespace Props
open Plot

/-- **C84** (no chart misleads): a point of a line is the value of the metric for a run of that benchmark with that object size (relative to a run of
`direct` with that size, for the normalised one); a benchmark has at most one line, it is not empty, and its points are in the order of the sizes. -/
theorem C84_honest {files : List (List Char × Run)} (ht : AllTimed files) (m : Metric) :
    (∀ name size v, HasPoint (chart (load files []) m) name size v → ∃ r, RunOf files name size r ∧ Shows files size m r v) ∧
      ((chart (load files []) m).map (·.1)).Nodup ∧
      ∀ l ∈ chart (load files []) m, l.2 ≠ [] ∧ l.2.Pairwise fun a b => a.1 < b.1 := by
  refine ⟨fun n z v h => pointAt_shows ht (hasPoint_iff.mp h).2, chart_names files m, ?_⟩
  rintro ⟨n, l⟩ h
  obtain ⟨e, hne⟩ := chart_line h
  exact ⟨hne, e ▸ line_sorted files m n⟩

/-- **C84** (partial): the chart shows exactly the runs there are, for stores that have the operation. Missing: more than one run of a benchmark with
the same object size, of which it shows one (`C84_violated_one_per_size`). -/
theorem C84_shows_all_partial {files : List (List Char × Run)} (ht : AllTimed files) (h1 : OneRun files) (h2 : OneTarget files)
    (m : Metric) (name : List Char) (size : Nat) (v : Val) :
    HasPoint (chart (load files []) m) name size v ↔ ∃ r, RunOf files name size r ∧ Offers r.target m ∧ Shows files size m r v := by
  rw [hasPoint_iff, pointAt_one ht h1]
  constructor
  · rintro ⟨hs, r, hr, hv⟩; exact ⟨r, hr, (supported_offers h2 hr).mp hs, hv⟩
  · rintro ⟨r, hr, ho, hv⟩; exact ⟨(supported_offers h2 hr).mpr ho, r, hr, hv⟩

/-- **C84** (partial): the chart does not depend on the order in which the files are found. Missing: as in `C84_shows_all_partial`, and there it does
depend on it (`C84_violated_order`). -/
theorem C84_any_order_partial {files files' : List (List Char × Run)} (ht : AllTimed files) (h1 : OneRun files) (h2 : OneTarget files)
    (hp : files.Perm files') (m : Metric) : chart (load files []) m = chart (load files' []) m := by
  have hm : ∀ f, f ∈ files ↔ f ∈ files' := fun f => hp.mem_iff
  have hrun : ∀ {n z r}, RunOf files n z r ↔ RunOf files' n z r := by
    intro n z r
    constructor <;> rintro ⟨f, o, a, b, c⟩
    · exact ⟨f, o, (hm _).mp a, b, c⟩
    · exact ⟨f, o, (hm _).mpr a, b, c⟩
  have ht' : AllTimed files' := fun f h => ht f ((hm f).mpr h)
  have h1' : OneRun files' := fun n z r r' a b => h1 n z r r' (hrun.mpr a) (hrun.mpr b)
  have h2' : OneTarget files' := fun n z z' r r' a b => h2 n z z' r r' (hrun.mpr a) (hrun.mpr b)
  have hshow : ∀ {z r v}, Shows files z m r v ↔ Shows files' z m r v := by
    intro z r v
    unfold Shows
    by_cases h : m = .writeMbsNormalized
    · rw [if_pos h, if_pos h]
      constructor <;> rintro ⟨d, x, y, q, a, b⟩
      · exact ⟨d, x, y, q, hrun.mp a, b⟩
      · exact ⟨d, x, y, q, hrun.mpr a, b⟩
    · rw [if_neg h, if_neg h]
  have hline : ∀ n, line (load files []) m n = line (load files' []) m n := by
    intro n
    refine line_ext (line_sorted _ _ _) (line_sorted _ _ _) ?_
    rintro ⟨z, v⟩
    rw [mem_line, mem_line, pointAt_one ht h1, pointAt_one ht' h1']
    constructor <;> rintro ⟨r, a, b⟩
    · exact ⟨r, hrun.mp a, hshow.mp b⟩
    · exact ⟨r, hrun.mpr a, hshow.mpr b⟩
  have hsup : ∀ n ∈ names (load files []), supported (load files []) m n = supported (load files' []) m n := by
    intro n hn
    obtain ⟨z, r, hr⟩ := mem_names.mp hn
    rw [Bool.eq_iff_iff, supported_offers h2 hr, supported_offers h2' (hrun.mp hr)]
  unfold chart
  rw [← names_ext hm, List.filter_congr hsup, show (fun n => (n, line (load files []) m n)) = fun n => (n, line (load files' []) m n) from
    funext fun n => by rw [hline n]]

/-- **C84**: in the chart of normalised throughput the points of `direct` itself are at 100%, if there is at most one run of each kind. -/
theorem C84_direct_is_one {files : List (List Char × Run)} (ht : AllTimed files) (h1 : OneRun files) {size : Nat} {v : Val}
    (h : HasPoint (chart (load files []) .writeMbsNormalized) "direct".toList size v) : v = .num 1 := by
  obtain ⟨r, hr, hs⟩ := pointAt_shows ht (hasPoint_iff.mp h).2
  unfold Shows at hs
  rw [if_pos rfl] at hs
  obtain ⟨d, x, y, q, hd, hrd, h0, hrx, rfl, hq⟩ := hs
  have e := h1 _ _ _ _ hd hr
  subst e
  have ex := (compute_reading (hd.timed ht)).mpr hrd
  rw [(compute_reading (hd.timed ht)).mpr hrx] at ex
  injection ex with ex
  injection ex with ex
  subst ex
  rw [(rat_div h0).mpr hq, Rat.div_def, Rat.mul_inv_cancel _ h0]

/-- **C84**: the throughput of random reads is that of the bytes the benchmark reads: as many from each object as it asks for. -/
theorem C84_random_bytes (c : Bench.Cfg) (r : Run) (hs : r.size = c.size) : bytesEach r .randomRead = Bench.randomLen c := by
  unfold bytesEach Bench.randomLen
  rw [hs, min_4000]

/-- **C84** violated: of two runs of a benchmark with the same object size (and other numbers of objects, say) whose values differ, the chart does not
show both, whatever else there is. -/
theorem C84_violated_one_per_size {files : List (List Char × Run)} {m : Metric} {name : List Char} {size : Nat} {v v' : Val} (hv : v ≠ v') :
    ¬ (HasPoint (chart (load files []) m) name size v ∧ HasPoint (chart (load files []) m) name size v') := by
  rintro ⟨h, h'⟩
  have e := (hasPoint_iff.mp h).2
  rw [(hasPoint_iff.mp h').2] at e
  injection e with e
  exact hv e.symm

/-- the results of a run in which every phase took this long -/
def chartRun (name target : List Char) (objects size : Nat) (secs : Rat) : Run :=
  ⟨name, target, objects, size, fun _ => some ⟨secs, ⟨2, 7⟩, some ⟨1, 3⟩⟩, 0, ⟨0, 0, 0, 0, 0, 0, 0⟩⟩

/-- a run with 1000 objects and one with 3000 -/
def chartSmall : List Char × Run := ("results.1000o.4096b.json".toList, chartRun "direct".toList "Direct".toList 1000 4096 2)
/-- see `chartSmall` -/
def chartLarge : List Char × Run := ("results.3000o.4096b.json".toList, chartRun "direct".toList "Direct".toList 3000 4096 4)

/-- **C84** violated: two runs of one benchmark with the same object size; which of them the chart shows depends on the order in which the directory
lists their files. -/
theorem C84_violated_order :
    chart (load [chartSmall, chartLarge] []) (.opsPerSecond .read) = [("direct".toList, [(4096, .num 500)])] ∧
    chart (load [chartLarge, chartSmall] []) (.opsPerSecond .read) = [("direct".toList, [(4096, .num 750)])] := by
  constructor <;> decide +kernel

/-- **C84** (partial): lines of different benchmarks have different labels. Missing: benchmarks called `blobd` or `blobd-lite`. -/
theorem C84_labels_partial {a b : List Char} (ha : a ≠ "blobd".toList ∧ a ≠ "blobd-lite".toList) (hb : b ≠ "blobd".toList ∧ b ≠ "blobd-lite".toList)
    (h : displayName a = displayName b) : a = b := by
  unfold displayName at h
  by_cases h1 : a = "direct".toList
  · rw [if_pos h1] at h
    by_cases h2 : b = "direct".toList
    · rw [h1, h2]
    · rw [if_neg h2] at h
      by_cases h3 : b = "lite".toList
      · rw [if_pos h3] at h; exact absurd h (by decide)
      · rw [if_neg h3] at h; exact absurd h.symm hb.1
  · rw [if_neg h1] at h
    by_cases h3 : a = "lite".toList
    · rw [if_pos h3] at h
      by_cases h2 : b = "direct".toList
      · rw [if_pos h2] at h; exact absurd h (by decide)
      · rw [if_neg h2] at h
        by_cases h4 : b = "lite".toList
        · rw [h3, h4]
        · rw [if_neg h4] at h; exact absurd h.symm hb.2
    · rw [if_neg h3] at h
      by_cases h2 : b = "direct".toList
      · rw [if_pos h2] at h; exact absurd h ha.1
      · rw [if_neg h2] at h
        by_cases h4 : b = "lite".toList
        · rw [if_pos h4] at h; exact absurd h ha.2
        · rw [if_neg h4] at h; exact h

/-- **C84** violated: the lines of `direct` and of a benchmark called `blobd` have the same label. -/
theorem C84_violated_label : displayName "direct".toList = displayName "blobd".toList := by decide +kernel

/-- three benchmarks, of which one cannot commit, and two sizes -/
def chartFiles : List (List Char × Run) := [("results.10o.8192b.json".toList, chartRun "lite".toList "Lite".toList 10 8192 4), chartSmall,
  ("results.10o.4096b.json".toList, chartRun "lite".toList "Lite".toList 10 4096 1),
  ("results.100o.4096b.json".toList, chartRun "rocks".toList "RocksDB".toList 100 4096 1), ("cfg.yaml".toList, chartRun "x".toList "FS".toList 1 1 1)]

/-- the hypotheses of `C84_shows_all_partial` and of `C84_any_order_partial` are met, and what the charts are -/
example : AllTimed chartFiles ∧ OneRun chartFiles ∧ OneTarget chartFiles ∧
    chart (load chartFiles []) (.opsPerSecond .commit) =
      [("direct".toList, [(4096, .num 500)]), ("lite".toList, [(4096, .num 10), (8192, .num (5 / 2))])] ∧
    chart (load chartFiles []) .writeMbsNormalized =
      [("direct".toList, [(4096, .num 1)]), ("lite".toList, [(4096, .num (1 / 50))]), ("rocks".toList, [(4096, .num (1 / 5))])] ∧
    chart (load chartFiles []) .randomReadMbs = [("direct".toList, [(4096, .num 2000000)]),
      ("lite".toList, [(4096, .num 40000), (8192, .num 10000)]), ("rocks".toList, [(4096, .num 400000)])] := by
  have hp : ∀ {n z r}, RunOf chartFiles n z r → ∃ f ∈ chartFiles, f.2 = r ∧ r.name = n ∧ (parseName f.1).map (·.2) = some z := by
    rintro n z r ⟨f, o, a, b, c⟩
    exact ⟨(f, r), a, rfl, c, by rw [show parseName (f, r).1 = some (o, z) from parseName_iff.mpr b]; rfl⟩
  have hns : names (load chartFiles []) = ["direct".toList, "lite".toList, "rocks".toList] := by
    refine List.Perm.eq_of_pairwise (le := (· ≤ ·)) (fun a b _ _ h1 h2 => List.le_antisymm h1 h2) (names_sorted _) (by decide +kernel)
      ((List.mergeSort_perm _ _).trans ?_)
    rw [show ((List.flatMap (·.2) (load chartFiles [])).map (·.name)).eraseDups = ["lite".toList, "direct".toList, "rocks".toList] from by decide +kernel]
    decide +kernel
  have hsz : sizes (load chartFiles []) = [4096, 8192] := by
    refine List.Perm.eq_of_pairwise (le := (· < ·)) (fun a b _ _ h1 h2 => absurd h1 (by omega)) (sizes_sorted _) (by decide)
      ((List.mergeSort_perm _ _).trans ?_)
    decide +kernel
  refine ⟨?_, ?_, ?_, ?_, ?_, ?_⟩
  case refine_4 => unfold chart line; rw [hns, hsz]; decide +kernel
  case refine_5 => unfold chart line; rw [hns, hsz]; decide +kernel
  case refine_6 => unfold chart line; rw [hns, hsz]; decide +kernel
  · intro f hf o e he
    have : ∀ f ∈ chartFiles, ∃ n t a b s, f.2 = chartRun n t a b s ∧ s ≠ 0 := by
      intro f hf
      simp only [chartFiles, List.mem_cons, List.not_mem_nil, or_false] at hf
      rcases hf with rfl | rfl | rfl | rfl | rfl <;> exact ⟨_, _, _, _, _, rfl, by decide⟩
    obtain ⟨n, t, a, b, s, h, hs⟩ := this f hf
    rw [h] at he
    injection he with he
    rw [← he]
    exact hs
  · intro n z r r' h h'
    obtain ⟨f, hf, e, hn, hz⟩ := hp h
    obtain ⟨f', hf', e', hn', hz'⟩ := hp h'
    have key : ∀ f ∈ chartFiles, ∀ f' ∈ chartFiles, f.2.name = f'.2.name → (parseName f.1).map (·.2) = (parseName f'.1).map (·.2) → f.1 = f'.1 := by
      decide +kernel
    have inj : ∀ f ∈ chartFiles, ∀ f' ∈ chartFiles, f.1 = f'.1 → f.2 = f'.2 := by
      intro f hf f' hf' he
      simp only [chartFiles, List.mem_cons, List.not_mem_nil, or_false] at hf hf'
      rcases hf with rfl | rfl | rfl | rfl | rfl <;> rcases hf' with rfl | rfl | rfl | rfl | rfl <;> first | rfl | exact absurd he (by decide)
    rw [← e, ← e']
    exact inj f hf f' hf' (key f hf f' hf' (by rw [e, e', hn, hn']) (by rw [hz, hz']))
  · intro n z z' r r' h h'
    obtain ⟨f, hf, e, hn, -⟩ := hp h
    obtain ⟨f', hf', e', hn', -⟩ := hp h'
    have key : ∀ f ∈ chartFiles, ∀ f' ∈ chartFiles, f.2.name = f'.2.name → f.2.target = f'.2.target := by decide +kernel
    rw [← e, ← e']
    exact key f hf f' hf' (by rw [e, e', hn, hn'])

end Props
end Blobd
