import Verif.Proofs.PlotText
import Verif.Props.PlotChart
/-!
# C86: what the texts at the axes of the chart say
-/
set_option autoImplicit false
namespace Blobd
namespace Props
open Plot

/-- **C86**: the size of an object is written so that it can be read back: exactly below 1000 bytes, else to within 5 per cent. -/
theorem C86_size (n : Nat) : ∃ y, Amount byteUnits (formatBytes n) y ∧ (n < 1000 → y = n) ∧ Within ((n : Rat) / 20) n y := by
  have h0 : (0 : Rat) ≤ n := by have := nat_rat_le.2 (Nat.zero_le n); simpa using this
  unfold formatBytes
  split
  · rename_i h
    obtain ⟨y, h1, h2⟩ := amount_fixed1 (units := byteUnits) (u := " GB".toList) (f := 1000000000) (by decide) (by decide) h0
    have := nat_rat_le.2 h
    exact ⟨y, h1, fun h => by omega, within_mono (by grind) h2⟩
  · split
    · rename_i h
      obtain ⟨y, h1, h2⟩ := amount_fixed1 (units := byteUnits) (u := " MB".toList) (f := 1000000) (by decide) (by decide) h0
      have := nat_rat_le.2 h
      exact ⟨y, h1, fun h => by omega, within_mono (by grind) h2⟩
    · split
      · rename_i h
        obtain ⟨y, h1, h2⟩ := amount_fixed1 (units := byteUnits) (u := " KB".toList) (f := 1000) (by decide) (by decide) h0
        have := nat_rat_le.2 h
        exact ⟨y, h1, fun h => by omega, within_mono (by grind) h2⟩
      · refine ⟨_, amount_dec (units := byteUnits) (u := " B".toList) (f := 1) (by decide) n, fun _ => by grind, ?_⟩
        unfold Within
        constructor <;> grind

/-- **C86**: amounts of storage (and the sizes at the horizontal axis) are written to within 5 per cent, or half a byte below 1000. -/
theorem C86_storage {x : Rat} (h0 : 0 ≤ x) :
    ∃ y, Amount byteUnits (formatBytesAxis x) y ∧ Within (if x < 1000 then 1 / 2 else x / 20) x y := by
  unfold formatBytesAxis
  split
  · obtain ⟨y, h1, h2⟩ := amount_fixed1 (units := byteUnits) (u := " GB".toList) (f := 1000000000) (by decide) (by decide) h0
    exact ⟨y, h1, within_mono (by grind) h2⟩
  · split
    · obtain ⟨y, h1, h2⟩ := amount_fixed1 (units := byteUnits) (u := " MB".toList) (f := 1000000) (by decide) (by decide) h0
      exact ⟨y, h1, within_mono (by grind) h2⟩
    · split
      · obtain ⟨y, h1, h2⟩ := amount_fixed1 (units := byteUnits) (u := " KB".toList) (f := 1000) (by decide) (by decide) h0
        exact ⟨y, h1, within_mono (by grind) h2⟩
      · obtain ⟨y, h1, h2⟩ := amount_fixed0 (units := byteUnits) (u := " B".toList) (by decide) h0
        exact ⟨y, h1, within_mono (by grind) h2⟩

/-- **C86**: rates are written to within 5 per cent, or a twentieth of a byte each second below 1000. -/
theorem C86_rate {x : Rat} (h0 : 0 ≤ x) :
    ∃ y, Amount rateUnits (formatBytesPerSecAxis x) y ∧ Within (if x < 1000 then 1 / 20 else x / 20) x y := by
  unfold formatBytesPerSecAxis
  split
  · obtain ⟨y, h1, h2⟩ := amount_fixed1 (units := rateUnits) (u := " GB/s".toList) (f := 1000000000) (by decide) (by decide) h0
    exact ⟨y, h1, within_mono (by grind) h2⟩
  · split
    · obtain ⟨y, h1, h2⟩ := amount_fixed1 (units := rateUnits) (u := " MB/s".toList) (f := 1000000) (by decide) (by decide) h0
      exact ⟨y, h1, within_mono (by grind) h2⟩
    · split
      · obtain ⟨y, h1, h2⟩ := amount_fixed1 (units := rateUnits) (u := " KB/s".toList) (f := 1000) (by decide) (by decide) h0
        exact ⟨y, h1, within_mono (by grind) h2⟩
      · obtain ⟨y, h1, h2⟩ := amount_fixed1 (units := rateUnits) (u := " B/s".toList) (f := 1) (by decide) (by decide) h0
        rw [show x / 1 = x from by grind] at h1
        exact ⟨y, h1, within_mono (by grind) h2⟩

/-- **C86** (partial): a time is written to within a twentieth of a second below a minute, half a second below an hour, and a minute from there on.
Missing: a bound relative to the time itself, which does not hold for short ones (`C86_violated_latency`). -/
theorem C86_time_partial {x : Rat} (h0 : 0 ≤ x) :
    ∃ y, Dur (formatTimeAxis x) y ∧ Within (if x < 60 then 1 / 20 else if x < 3600 then 1 / 2 else 60) x y := by
  by_cases h1 : x < 60
  · rw [if_pos h1]; exact time_seconds h0 h1
  · rw [if_neg h1]
    by_cases h2 : x < 3600
    · rw [if_pos h2]; exact time_minutes (by grind) h2
    · rw [if_neg h2]
      obtain ⟨y, h3, h4, h5⟩ := time_hours (x := x) (by grind)
      exact ⟨y, h3, by grind, by grind⟩

/-- **C86**: ratios are written to within half a per cent (of the whole). -/
theorem C86_ratio {x : Rat} (h0 : 0 ≤ x) : ∃ y, Amount [(['%'], 1 / 100)] (formatPercentageAxis x) y ∧ Within (1 / 200) x y := by
  obtain ⟨z, h1, h2⟩ := num_fixed0 (x := x * 100) (by grind)
  refine ⟨z * (1 / 100), ⟨_, z, ['%'], 1 / 100, by simp, h1, rfl, rfl⟩, ?_⟩
  unfold Within at h2 ⊢
  constructor <;> grind

/-- **C86**: operations in each second are written to within a twentieth. -/
theorem C86_ops {x : Rat} (h0 : 0 ≤ x) : ∃ y, Amount [(" op/s".toList, 1)] (formatOps x) y ∧ Within (1 / 20) x y := by
  obtain ⟨z, h1, h2⟩ := num_fixed1 h0
  exact ⟨z, ⟨_, z, " op/s".toList, 1, by simp, h1, rfl, by grind⟩, h2⟩

/-- **C86**: the marks of the vertical axis begin at the smallest value and end at the largest, at equal distances. -/
theorem C86_marks {ys : List Rat} (h : ys ≠ []) : ∃ a b c d e, ticks ys = [a, b, c, d, e] ∧ a ∈ ys ∧ e ∈ ys ∧ (∀ y ∈ ys, a ≤ y ∧ y ≤ e) ∧
    b - a = c - b ∧ c - b = d - c ∧ d - c = e - d := by
  match ys, h with
  | y :: ys, _ =>
    have m1 := foldl_min_mem ys y
    have m2 := foldl_max_mem ys y
    have m3 := foldl_min_le ys y
    have m4 := le_foldl_max ys y
    refine ⟨_, _, _, _, _, rfl, ?_, ?_, ?_, ?_, ?_, ?_⟩
    · dsimp only
      rw [show ys.foldl min y + ((0 : Nat) : Rat) * _ = ys.foldl min y from by grind]; exact m1
    · dsimp only
      rw [show ys.foldl min y + ((4 : Nat) : Rat) * ((ys.foldl max y - ys.foldl min y) / 4) = ys.foldl max y from by grind]; exact m2
    · intro z hz
      have : ys.foldl min y ≤ z ∧ z ≤ ys.foldl max y := by
        rcases List.mem_cons.1 hz with rfl | hz
        · exact ⟨m3.1, m4.1⟩
        · exact ⟨m3.2 z hz, m4.2 z hz⟩
      grind
    all_goals grind

/-- **C86** (partial): the text shown over a point says the value there, in the unit of the metric, to within `slack`. Missing: the numbers of disk
operations, whose texts say something else (`C86_violated_count`), and latencies, whose texts Plotly writes. -/
theorem C86_hover_partial {m : Metric} {x : Rat} (h0 : 0 ≤ x) (h1 : m ≠ .diskReadOps) (h2 : m ≠ .diskWriteOps) {t : List Char}
    (ht : hoverText m x = some t) : ∃ y, Says m t y ∧ Within (slack m x) x y := by
  cases m <;> simp only [hoverText, kind, Option.some.injEq, reduceCtorEq] at ht <;> first | subst ht | contradiction
  case opsPerSecond o => obtain ⟨y, a, b⟩ := C86_ops h0; exact ⟨y, .ops a, b⟩
  case diskReadOps => exact absurd rfl h1
  case diskWriteOps => exact absurd rfl h2
  case writeMbs => obtain ⟨y, a, b⟩ := C86_rate h0; exact ⟨y, .rate (by simp) a, b⟩
  case readMbs => obtain ⟨y, a, b⟩ := C86_rate h0; exact ⟨y, .rate (by simp) a, b⟩
  case randomReadMbs => obtain ⟨y, a, b⟩ := C86_rate h0; exact ⟨y, .rate (by simp) a, b⟩
  case writeMbsNormalized => obtain ⟨y, a, b⟩ := C86_ratio h0; exact ⟨y, .ratio a, b⟩
  case waitForEnd => obtain ⟨y, a, b⟩ := C86_time_partial h0; exact ⟨y, .time (by simp) a, b⟩
  case cpu => obtain ⟨y, a, b⟩ := C86_time_partial h0; exact ⟨y, .time (by simp) a, b⟩
  case diskRead => obtain ⟨y, a, b⟩ := C86_storage h0; exact ⟨y, .size (by simp) a, b⟩
  case diskWrite => obtain ⟨y, a, b⟩ := C86_storage h0; exact ⟨y, .size (by simp) a, b⟩
  case peakMemory => obtain ⟨y, a, b⟩ := C86_storage h0; exact ⟨y, .size (by simp) a, b⟩

/-- the text at a mark -/
theorem tick_says {m : Metric} {x : Rat} (h0 : 0 ≤ x) {f : Rat → List Char} (hf : tickFormatter (kind m) = some f) :
    ∃ y, Says m (f x) y ∧ Within (slack m x) x y := by
  cases m <;> simp only [tickFormatter, kind, Option.some.injEq, reduceCtorEq] at hf <;> subst hf
  case writeMbs => obtain ⟨y, a, b⟩ := C86_rate h0; exact ⟨y, .rate (by simp) a, b⟩
  case readMbs => obtain ⟨y, a, b⟩ := C86_rate h0; exact ⟨y, .rate (by simp) a, b⟩
  case randomReadMbs => obtain ⟨y, a, b⟩ := C86_rate h0; exact ⟨y, .rate (by simp) a, b⟩
  case writeMbsNormalized => obtain ⟨y, a, b⟩ := C86_ratio h0; exact ⟨y, .ratio a, b⟩
  case waitForEnd => obtain ⟨y, a, b⟩ := C86_time_partial h0; exact ⟨y, .time (by simp) a, b⟩
  case cpu => obtain ⟨y, a, b⟩ := C86_time_partial h0; exact ⟨y, .time (by simp) a, b⟩
  case readTtfb => obtain ⟨y, a, b⟩ := C86_time_partial h0; exact ⟨y, .time (by simp) a, b⟩
  case randomReadTtfb => obtain ⟨y, a, b⟩ := C86_time_partial h0; exact ⟨y, .time (by simp) a, b⟩
  case latency o => obtain ⟨y, a, b⟩ := C86_time_partial h0; exact ⟨y, .time (by simp) a, b⟩
  case diskRead => obtain ⟨y, a, b⟩ := C86_storage h0; exact ⟨y, .size (by simp) a, b⟩
  case diskWrite => obtain ⟨y, a, b⟩ := C86_storage h0; exact ⟨y, .size (by simp) a, b⟩
  case peakMemory => obtain ⟨y, a, b⟩ := C86_storage h0; exact ⟨y, .size (by simp) a, b⟩

/-- the values a chart shows -/
theorem lineValues_mem {l : List (Nat × Val)} {y : Rat} : y ∈ lineValues l ↔ ∃ size v, (size, v) ∈ l ∧ (v = .num y ∨ ∃ z, v = .spread y z ∨ v = .spread z y) := by
  unfold lineValues
  rw [List.mem_append, List.mem_filterMap, List.mem_map]
  constructor
  · rintro (⟨⟨z, v⟩, h, e⟩ | ⟨⟨z, v⟩, h, e⟩)
    · cases v with
      | num x => cases e
      | spread a b => injection e with e; subst e; exact ⟨z, _, h, .inr ⟨a, .inr rfl⟩⟩
    · cases v with
      | num x => subst e; exact ⟨z, _, h, .inl rfl⟩
      | spread a b => subst e; exact ⟨z, _, h, .inr ⟨b, .inl rfl⟩⟩
  · rintro ⟨z, v, h, rfl | ⟨w, rfl | rfl⟩⟩
    · exact .inr ⟨_, h, rfl⟩
    · exact .inr ⟨_, h, rfl⟩
    · exact .inl ⟨_, h, rfl⟩

theorem showsValue_iff {ch : List (List Char × List (Nat × Val))} {y : Rat} : ShowsValue ch y ↔ y ∈ ch.flatMap fun l => lineValues l.2 := by
  rw [List.mem_flatMap]
  constructor
  · rintro ⟨n, z, v, ⟨l, h1, h2⟩, h3⟩; exact ⟨_, h1, lineValues_mem.2 ⟨z, v, h2, h3⟩⟩
  · rintro ⟨⟨n, l⟩, h1, h2⟩
    obtain ⟨z, v, h3, h4⟩ := lineValues_mem.1 h2
    exact ⟨n, z, v, ⟨l, h1, h3⟩, h4⟩

/-- **C86**: the marks of the vertical axis of a chart, if the page places them: from its smallest to its largest value, and each text says the value at
its mark, in the unit of the metric, to within `slack`. -/
theorem C86_axis {ds : List (Nat × List Run)} {m : Metric} {l : List (Rat × List Char)} (hl : marks ds m = some l)
    (h0 : ∀ y, ShowsValue (chart ds m) y → 0 ≤ y) :
    (∀ p ∈ l, ∃ y, Says m p.2 y ∧ Within (slack m p.1) p.1 y) ∧
    ((∃ y, ShowsValue (chart ds m) y) → ∃ a b c d e, l.map (·.1) = [a, b, c, d, e] ∧ ShowsValue (chart ds m) a ∧ ShowsValue (chart ds m) e ∧
      (∀ y, ShowsValue (chart ds m) y → a ≤ y ∧ y ≤ e) ∧ b - a = c - b ∧ c - b = d - c ∧ d - c = e - d) := by
  simp only [showsValue_iff] at h0 ⊢
  unfold marks at hl
  obtain ⟨f, hf, rfl⟩ := Option.map_eq_some_iff.1 hl
  generalize (chart ds m).flatMap (fun l => lineValues l.2) = ys at h0
  constructor
  · intro p hp
    obtain ⟨x, hx, rfl⟩ := List.mem_map.1 hp
    refine tick_says (x := x) ?_ hf
    by_cases hne : ys = []
    · subst hne; cases hx
    · obtain ⟨a, b, c, d, e, e1, ha, he, hb, e2, e3, e4⟩ := C86_marks hne
      have ha0 := h0 a ha
      have := hb a ha
      rw [e1] at hx
      simp only [List.mem_cons, List.not_mem_nil, or_false] at hx
      rcases hx with rfl | rfl | rfl | rfl | rfl <;> grind
  · rintro ⟨y, hy⟩
    obtain ⟨a, b, c, d, e, e1, h⟩ := C86_marks (List.ne_nil_of_mem hy)
    refine ⟨a, b, c, d, e, ?_, h⟩
    rw [List.map_map, show ((fun p : Rat × List Char => p.1) ∘ fun x => (x, f x)) = id from rfl, List.map_id, e1]

theorem num_last {n : List Char} {y : Rat} (h : Num n y) : ∃ n' c, n = n' ++ [c] ∧ c.isDigit = true := by
  obtain ⟨d, h1, h2, h | ⟨c, h3, h4, -⟩⟩ := h
  · obtain ⟨rfl, -⟩ := h
    exact ⟨n.dropLast, n.getLast h1, (List.dropLast_concat_getLast h1).symm, h2 _ (List.getLast_mem h1)⟩
  · exact ⟨d ++ ['.'], c, by rw [h4]; simp, h3⟩

/-- **C86** violated: over the points of the numbers of disk operations the page says a rate: `op/s` after the total number, which no one can read as a
number of operations. -/
theorem C86_violated_count {m : Metric} (hm : m = .diskReadOps ∨ m = .diskWriteOps) {x : Rat} :
    hoverText m x = hoverText (.opsPerSecond .read) x ∧ ∃ t, hoverText m x = some t ∧ ∀ y, ¬ Says m t y := by
  have e : hoverText m x = some (formatOps x) := by rcases hm with rfl | rfl <;> rfl
  refine ⟨e.trans rfl, _, e, ?_⟩
  intro y hs
  have key : ¬ Amount [([], 1), (" op".toList, 1), (" ops".toList, 1)] (formatOps x) y := by
    rintro ⟨n, z, u, f, hu, hn, ht, -⟩
    obtain ⟨n', c, rfl, hc⟩ := num_last hn
    have hr := congrArg List.reverse ht
    simp only [List.mem_cons, Prod.mk.injEq, List.not_mem_nil, or_false] at hu
    rcases hu with ⟨rfl, -⟩ | ⟨rfl, -⟩ | ⟨rfl, -⟩
    · simp [formatOps] at hr
      rw [← hr.1] at hc
      cases hc
    · simp [formatOps] at hr
    · simp [formatOps] at hr
  rcases hm with rfl | rfl <;> cases hs with
  | count _ h => exact key h
  | rate h _ => simp at h
  | time h _ => simp at h
  | size h _ => simp at h

/-- times below a twentieth of a second are all written alike -/
theorem short_times {x : Rat} (h0 : 0 ≤ x) (h : x < 1 / 20) : formatTimeAxis x = "0.0s".toList := by
  unfold formatTimeAxis
  rw [if_pos (by grind)]
  unfold fixed1 nearest
  rw [whole (x := x * 10 + 1 / 2) (n := 0) (by grind) (by grind) (by grind), Nat.zero_div, Nat.zero_mod, decStr_small (by decide)]
  rfl

/-- **C86** violated: in a chart of latencies that are all below 50 milliseconds every mark of the vertical axis says `0.0s`. -/
theorem C86_violated_latency {ds : List (Nat × List Run)} {m : Metric} (hm : m = .readTtfb ∨ m = .randomReadTtfb ∨ ∃ o, m = .latency o)
    (h : ∀ y, ShowsValue (chart ds m) y → 0 ≤ y ∧ y < 1 / 20) :
    ∃ l, marks ds m = some l ∧ (∀ p ∈ l, p.2 = "0.0s".toList) ∧ ((∃ y, ShowsValue (chart ds m) y) → l.length = 5) := by
  have hf : tickFormatter (kind m) = some formatTimeAxis := by rcases hm with rfl | rfl | ⟨o, rfl⟩ <;> rfl
  simp only [showsValue_iff] at h ⊢
  unfold marks
  rw [hf]
  refine ⟨_, rfl, ?_, ?_⟩
  · intro p hp
    obtain ⟨x, hx, rfl⟩ := List.mem_map.1 hp
    generalize (chart ds m).flatMap (fun l => lineValues l.2) = ys at h hx
    by_cases hne : ys = []
    · subst hne; cases hx
    · obtain ⟨a, b, c, d, e, e1, ha, he, hb, e2, e3, e4⟩ := C86_marks hne
      have := h a ha
      have := h e he
      have := hb a ha
      rw [e1] at hx
      simp only [List.mem_cons, List.not_mem_nil, or_false] at hx
      rcases hx with rfl | rfl | rfl | rfl | rfl <;> exact short_times (by grind) (by grind)
  · rintro ⟨y, hy⟩
    obtain ⟨a, b, c, d, e, e1, -⟩ := C86_marks (List.ne_nil_of_mem hy)
    rw [List.length_map, e1]
    rfl

/-- the texts of some values; `1m 60s` is two minutes less a little -/
example : formatBytes 999 = "999 B".toList ∧ formatBytes 4096 = "4.1 KB".toList ∧ formatBytesAxis 999999 = "1000.0 KB".toList ∧
    formatBytesPerSecAxis (5 / 2) = "2.5 B/s".toList ∧ formatTimeAxis (1199 / 10) = "1m 60s".toList ∧ formatTimeAxis 5465 = "1h 31m".toList ∧
    formatPercentageAxis (3 / 2) = "150%".toList ∧ formatOps (1 / 3) = "0.3 op/s".toList := by
  have n1 : nearest ((4096 : Nat) / 1000 * 10) = 41 := by decide +kernel
  have n2 : nearest (999999 / 1000 * 10) = 10000 := by decide +kernel
  have n3 : nearest (5 / 2 * 10) = 25 := by decide +kernel
  have n4 : nearest (1199 / 10 - 60 * (((1199 / 10 : Rat) / 60).floor.toNat : Rat)) = 60 := by decide +kernel
  have n5 : nearest (3 / 2 * 100) = 150 := by decide +kernel
  have n6 : nearest (1 / 3 * 10) = 3 := by decide +kernel
  have n7 : ((1199 / 10 : Rat) / 3600).floor.toNat = 0 := by decide +kernel
  have n8 : ((1199 / 10 - 3600 * ((0 : Nat) : Rat)) / 60).floor.toNat = 1 := by decide +kernel
  have n9 : ((5465 : Rat) / 3600).floor.toNat = 1 := by decide +kernel
  have n10 : ((5465 - 3600 * ((1 : Nat) : Rat)) / 60).floor.toNat = 31 := by decide +kernel
  refine ⟨?_, ?_, ?_, ?_, ?_, ?_, ?_, ?_⟩
  · unfold formatBytes
    rw [if_neg (by decide), if_neg (by decide), if_neg (by decide)]
    simp [Http.decStr]
  · unfold formatBytes
    rw [if_neg (by decide), if_neg (by decide), if_pos (by decide)]
    unfold fixed1
    rw [n1]
    simp [Http.decStr]
  · unfold formatBytesAxis
    rw [if_neg (by decide +kernel), if_neg (by decide +kernel), if_pos (by decide +kernel)]
    unfold fixed1
    rw [n2]
    simp [Http.decStr]
  · unfold formatBytesPerSecAxis
    rw [if_neg (by decide +kernel), if_neg (by decide +kernel), if_neg (by decide +kernel)]
    unfold fixed1
    rw [n3]
    simp [Http.decStr]
  · unfold formatTimeAxis
    rw [if_neg (by decide +kernel)]
    simp only [n7, n8]
    unfold fixed0
    rw [n4, if_pos (show _ > (0 : Rat) ∧ True from ⟨by decide +kernel, trivial⟩)]
    simp [Http.decStr, joinSp]
  · unfold formatTimeAxis
    rw [if_neg (by decide +kernel)]
    simp only [n9, n10]
    simp [Http.decStr, joinSp]
  · unfold formatPercentageAxis fixed0
    rw [n5]
    simp [Http.decStr]
  · unfold formatOps fixed1
    rw [n6]
    simp [Http.decStr]

/-- Hypotheses of `C86_axis` and `C86_violated_latency` met: a run of which the read latencies are 2 milliseconds on average, 7 at the 99th percentile. -/
example : (∀ y, ShowsValue (chart (load [chartSmall] []) (.latency .read)) y → 0 ≤ y ∧ y < 1 / 20) ∧
    ShowsValue (chart (load [chartSmall] []) (.latency .read)) (7 / 1000) ∧
    (marks (load [chartSmall] []) (.latency .read)).map (·.map (·.1)) = some [2 / 1000, 13 / 4000, 18 / 4000, 23 / 4000, 7 / 1000] := by
  have e : chart (load [chartSmall] []) (.latency .read) = [("direct".toList, [(4096, .spread (2 / 1000) (7 / 1000))])] := by decide +kernel
  refine ⟨?_, ?_, ?_⟩
  · intro y hy
    rw [showsValue_iff, e] at hy
    simp only [List.flatMap_cons, lineValues, List.filterMap_cons, List.filterMap_nil, List.map_cons, List.map_nil, List.flatMap_nil, List.mem_append,
      List.mem_cons, List.not_mem_nil, or_false] at hy
    rcases hy with rfl | rfl <;> decide +kernel
  · rw [showsValue_iff, e]
    simp [lineValues]
  · unfold marks
    rw [e]
    decide +kernel

end Props
end Blobd
