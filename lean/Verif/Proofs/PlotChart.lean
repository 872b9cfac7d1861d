import Verif.Spec.PlotChart
import Verif.Proofs.Plotter
/-!
# Proofs about the chart (C84)
-/
set_option autoImplicit false
namespace Blobd
namespace Plot

theorem eraseDups_nodup {α : Type} [BEq α] [LawfulBEq α] : ∀ (n : Nat) (l : List α), l.length ≤ n → l.eraseDups.Nodup := by
  intro n
  induction n with
  | zero => intro l h; rw [List.length_eq_zero_iff.mp (Nat.le_zero.mp h)]; simp
  | succ n ih =>
    intro l h
    cases l with
    | nil => simp
    | cons a l =>
      rw [List.eraseDups_cons, List.nodup_cons]
      have hl := List.length_filter_le (fun b => !b == a) l
      simp only [List.length_cons] at h
      refine ⟨?_, ih _ (by omega)⟩
      rw [List.mem_eraseDups]
      simp

theorem find_key {R : Type} {ds : List (Nat × List R)} (hn : (ds.map (·.1)).Nodup) {d : Nat × List R} (hd : d ∈ ds) :
    ds.find? (fun e => e.1 == d.1) = some d := by
  induction ds with
  | nil => cases hd
  | cons e ds ih =>
    rw [List.map_cons, List.nodup_cons] at hn
    rw [List.find?_cons]
    rcases List.mem_cons.mp hd with rfl | hd
    · simp
    · have : (e.1 == d.1) = false := by
        rw [beq_eq_false_iff_ne]
        intro h
        exact hn.1 (h ▸ List.mem_map.mpr ⟨d, hd, rfl⟩)
      rw [this]
      exact ih hn.2 hd

variable {files : List (List Char × Run)}

theorem load_nodup (files : List (List Char × Run)) : ((load files []).map (·.1)).Nodup := (load_spec files [] (by simp) (by simp)).1

theorem mem_load {z : Nat} {r : Run} : (∃ d ∈ load files [], d.1 = z ∧ r ∈ d.2) ↔ RunOf files r.name z r := by
  have h := (load_spec files [] (by simp) (by simp)).2.2 z
  rw [show shown ([] : List (Nat × List Run)) z = [] from rfl, List.nil_append] at h
  have h1 : (∃ d ∈ load files [], d.1 = z ∧ r ∈ d.2) ↔ r ∈ shown (load files []) z := by
    unfold shown
    rw [List.mem_flatMap]
    constructor
    · rintro ⟨d, hd, e, hr⟩; exact ⟨d, List.mem_filter.mpr ⟨hd, by simp [e]⟩, hr⟩
    · rintro ⟨d, hd, hr⟩
      rw [List.mem_filter] at hd
      exact ⟨d, hd.1, by simpa using hd.2, hr⟩
  rw [h1, h, List.mem_filterMap]
  constructor
  · rintro ⟨f, hf, e⟩
    cases hp : parseName f.1 with
    | none => rw [hp] at e; simp at e
    | some p =>
      rw [hp] at e
      dsimp only at e
      by_cases hz : z = p.2
      · rw [if_pos hz] at e
        injection e with e
        subst e
        exact ⟨f.1, p.1, hf, hz ▸ parseName_iff.mp hp, rfl⟩
      · rw [if_neg hz] at e; cases e
  · rintro ⟨file, o, hf, hi, -⟩
    exact ⟨(file, r), hf, by rw [show parseName (file, r).1 = some (o, z) from parseName_iff.mpr hi]; simp⟩

theorem firstRun_some {n : List Char} {z : Nat} {r : Run} (h : firstRun (load files []) n z = some r) : RunOf files n z r := by
  unfold firstRun at h
  cases hd : (load files []).find? fun d => d.1 == z with
  | none => rw [hd] at h; cases h
  | some d =>
    rw [hd] at h
    have e1 : d.1 = z := by simpa using List.find?_some hd
    have e2 : r.name = n := by simpa using List.find?_some h
    rw [← e2]
    exact mem_load.mp ⟨d, List.mem_of_find?_eq_some hd, e1, List.mem_of_find?_eq_some h⟩

theorem RunOf.named {n : List Char} {z : Nat} {r : Run} (h : RunOf files n z r) : RunOf files r.name z r := by
  obtain ⟨f, o, a, b, c⟩ := h
  exact ⟨f, o, a, b, rfl⟩

theorem firstRun_of {n : List Char} {z : Nat} {r : Run} (h : RunOf files n z r) : ∃ r', firstRun (load files []) n z = some r' := by
  obtain ⟨d, hd, e, hr⟩ := mem_load.mpr h.named
  obtain ⟨-, -, -, -, hn⟩ := h
  unfold firstRun
  subst e
  rw [find_key (load_nodup files) hd]
  show ∃ r', d.2.find? _ = some r'
  rw [← Option.isSome_iff_exists, List.find?_isSome]
  exact ⟨r, hr, by simp [hn]⟩

theorem firstRun_one (h1 : OneRun files) {n : List Char} {z : Nat} {r : Run} : firstRun (load files []) n z = some r ↔ RunOf files n z r := by
  refine ⟨firstRun_some, fun h => ?_⟩
  obtain ⟨r', h'⟩ := firstRun_of h
  rw [h', h1 _ _ _ _ (firstRun_some h') h]

/-! ## The value of a run -/

theorem rat_div {a b x : Rat} (hb : b ≠ 0) : x = a / b ↔ x * b = a := by
  constructor
  · rintro rfl; exact Rat.div_mul_cancel hb
  · rintro rfl
    rw [Rat.div_def, Rat.mul_assoc, Rat.mul_inv_cancel _ hb, Rat.mul_one]

theorem min_4000 (n : Nat) : min 4000 n = if n ≤ 4000 then n else 4000 := by split <;> omega

theorem compute_reading {r : Run} (ht : Timed r) {m : Metric} {v : Val} : compute r m = some v ↔ Reading r m v := by
  have k : (1000 : Rat) ≠ 0 := by decide
  constructor
  · intro h
    cases m with
    | opsPerSecond o =>
      cases ho : r.op o with
      | none => simp [compute, ho] at h
      | some e => simp only [compute, ho, Option.map_some, Option.some.injEq] at h; subst h; exact .ops ho (Rat.div_mul_cancel (ht o e ho))
    | writeMbs =>
      cases ho : r.op .write with
      | none => simp [compute, ho] at h
      | some e => simp only [compute, ho, Option.map_some, Option.some.injEq] at h; subst h; exact .written ho (Rat.div_mul_cancel (ht _ e ho))
    | writeMbsNormalized =>
      cases ho : r.op .write with
      | none => simp [compute, ho] at h
      | some e => simp only [compute, ho, Option.map_some, Option.some.injEq] at h; subst h; exact .normalized ho (Rat.div_mul_cancel (ht _ e ho))
    | readMbs =>
      cases ho : r.op .read with
      | none => simp [compute, ho] at h
      | some e => simp only [compute, ho, Option.map_some, Option.some.injEq] at h; subst h; exact .read ho (Rat.div_mul_cancel (ht _ e ho))
    | randomReadMbs =>
      cases ho : r.op .randomRead with
      | none => simp [compute, ho] at h
      | some e =>
        simp only [compute, ho, Option.map_some, Option.some.injEq] at h; subst h
        exact .randomRead ho (by rw [Rat.div_mul_cancel (ht _ e ho), min_4000]; rfl)
    | readTtfb =>
      cases ho : r.op .read with
      | none => simp [compute, ho] at h
      | some e =>
        cases hl : e.ttfb with
        | none => simp [compute, ho, hl] at h
        | some l =>
          simp only [compute, ho, hl, Option.bind_some, Option.map_some, Option.some.injEq] at h; subst h
          exact .ttfb ho hl (Rat.div_mul_cancel k) (Rat.div_mul_cancel k)
    | randomReadTtfb =>
      cases ho : r.op .randomRead with
      | none => simp [compute, ho] at h
      | some e =>
        cases hl : e.ttfb with
        | none => simp [compute, ho, hl] at h
        | some l =>
          simp only [compute, ho, hl, Option.bind_some, Option.map_some, Option.some.injEq] at h; subst h
          exact .randomTtfb ho hl (Rat.div_mul_cancel k) (Rat.div_mul_cancel k)
    | latency o =>
      cases ho : r.op o with
      | none => simp [compute, ho] at h
      | some e =>
        simp only [compute, ho, Option.map_some, Option.some.injEq] at h; subst h
        exact .latency ho (Rat.div_mul_cancel k) (Rat.div_mul_cancel k)
    | waitForEnd => simp only [compute, Option.some.injEq] at h; subst h; exact .waited
    | cpu => simp only [compute, Option.some.injEq] at h; subst h; exact .cpu
    | diskRead => simp only [compute, Option.some.injEq] at h; subst h; exact .diskRead
    | diskWrite => simp only [compute, Option.some.injEq] at h; subst h; exact .diskWrite
    | diskReadOps => simp only [compute, Option.some.injEq] at h; subst h; exact .diskReadOps
    | diskWriteOps => simp only [compute, Option.some.injEq] at h; subst h; exact .diskWriteOps
    | peakMemory => simp only [compute, Option.some.injEq] at h; subst h; exact .peakMemory
  · intro h
    cases h with
    | ops ho hx => rw [compute, ho, Option.map_some, ← (rat_div (ht _ _ ho)).mpr hx]
    | written ho hx =>
      rw [show bytesEach r .write = r.size from rfl] at hx
      rw [compute, ho, Option.map_some, ← (rat_div (ht _ _ ho)).mpr hx]
    | normalized ho hx =>
      rw [show bytesEach r .write = r.size from rfl] at hx
      rw [compute, ho, Option.map_some, ← (rat_div (ht _ _ ho)).mpr hx]
    | read ho hx =>
      rw [show bytesEach r .read = r.size from rfl] at hx
      rw [compute, ho, Option.map_some, ← (rat_div (ht _ _ ho)).mpr hx]
    | randomRead ho hx =>
      rw [bytesEach, ← min_4000] at hx
      rw [compute, ho, Option.map_some, ← (rat_div (ht _ _ ho)).mpr hx]
    | ttfb ho hl hx hy => rw [compute, ho, Option.bind_some, hl, Option.map_some, ← (rat_div k).mpr hx, ← (rat_div k).mpr hy]
    | randomTtfb ho hl hx hy => rw [compute, ho, Option.bind_some, hl, Option.map_some, ← (rat_div k).mpr hx, ← (rat_div k).mpr hy]
    | latency ho hx hy => rw [compute, ho, Option.map_some, ← (rat_div k).mpr hx, ← (rat_div k).mpr hy]
    | waited => rfl
    | cpu => rfl
    | diskRead => rfl
    | diskWrite => rfl
    | diskReadOps => rfl
    | diskWriteOps => rfl
    | peakMemory => rfl

/-! ## Points -/

theorem RunOf.timed (ht : AllTimed files) {n : List Char} {z : Nat} {r : Run} (h : RunOf files n z r) : Timed r := by
  obtain ⟨f, o, a, -, -⟩ := h; exact ht _ a

theorem directValue_some {m : Metric} {z : Nat} {d : Rat} (h : directValue (load files []) m z = some d) :
    ∃ r, firstRun (load files []) "direct".toList z = some r ∧ compute r m = some (.num d) := by
  unfold directValue at h
  cases hf : firstRun (load files []) "direct".toList z with
  | none => rw [hf] at h; simp at h
  | some r =>
    rw [hf, Option.bind_some] at h
    refine ⟨r, rfl, ?_⟩
    cases hc : compute r m with
    | none => rw [hc] at h; cases h
    | some v =>
      rw [hc] at h
      cases v with
      | num x => injection h with h; rw [h]
      | spread a b => cases h

theorem pointAt_shows (ht : AllTimed files) {m : Metric} {n : List Char} {z : Nat} {v : Val} (h : pointAt (load files []) m n z = some v) :
    ∃ r, RunOf files n z r ∧ Shows files z m r v := by
  unfold pointAt at h
  cases hf : firstRun (load files []) n z with
  | none => rw [hf] at h; simp at h
  | some r =>
    have hr := firstRun_some hf
    rw [hf, Option.bind_some] at h
    refine ⟨r, hr, ?_⟩
    cases hc : compute r m with
    | none => rw [hc] at h; cases h
    | some w =>
      rw [hc] at h
      dsimp only at h
      have hrd := (compute_reading (hr.timed ht)).mp hc
      unfold Shows
      by_cases hm : m = .writeMbsNormalized
      · rw [if_pos hm] at h ⊢
        cases w with
        | spread a b => simp at h
        | num x =>
          cases hd : directValue (load files []) m z with
          | none => rw [hd] at h; simp at h
          | some d =>
            rw [hd] at h
            dsimp only at h
            by_cases h0 : d = 0
            · rw [if_pos h0] at h; cases h
            · rw [if_neg h0] at h
              injection h with h
              obtain ⟨r', hf', hc'⟩ := directValue_some hd
              have hr' := firstRun_some hf'
              exact ⟨r', x, d, x / d, hr', (compute_reading (hr'.timed ht)).mp hc', h0, hrd, h.symm, Rat.div_mul_cancel h0⟩
      · rw [if_neg hm] at h ⊢
        injection h with h
        exact h ▸ hrd

theorem pointAt_one (ht : AllTimed files) (h1 : OneRun files) {m : Metric} {n : List Char} {z : Nat} {v : Val} :
    pointAt (load files []) m n z = some v ↔ ∃ r, RunOf files n z r ∧ Shows files z m r v := by
  refine ⟨pointAt_shows ht, ?_⟩
  rintro ⟨r, hr, hs⟩
  unfold pointAt
  rw [(firstRun_one h1).mpr hr, Option.bind_some]
  unfold Shows at hs
  by_cases hm : m = .writeMbsNormalized
  · rw [if_pos hm] at hs
    obtain ⟨d, x, y, q, hd, hrd, h0, hrx, rfl, hq⟩ := hs
    rw [(compute_reading (hr.timed ht)).mpr hrx]
    dsimp only
    rw [if_pos hm]
    have : directValue (load files []) m z = some y := by
      unfold directValue
      rw [(firstRun_one h1).mpr hd, Option.bind_some, (compute_reading (hd.timed ht)).mpr hrd]
    rw [this]
    dsimp only
    rw [if_neg h0, (rat_div h0).mpr hq]
  · rw [if_neg hm] at hs
    rw [(compute_reading (hr.timed ht)).mpr hs]
    dsimp only
    rw [if_neg hm]

theorem sizes_sorted (files : List (List Char × Run)) : (sizes (load files [])).Pairwise (· < ·) := by
  have h1 : (sizes (load files [])).Pairwise (fun a b => decide (a ≤ b) = true) :=
    List.pairwise_mergeSort (le := fun a b => decide (a ≤ b)) (fun a b c h1 h2 => by simp at *; omega) (fun a b => by simp; omega) _
  have h2 : (sizes (load files [])).Nodup := (List.mergeSort_perm _ _).nodup_iff.mpr (load_nodup files)
  refine (h1.and h2).imp ?_
  intro a b ⟨h, hn⟩
  have : a ≤ b := by simpa using h
  have hn : a ≠ b := hn
  omega

theorem mem_sizes {z : Nat} : z ∈ sizes (load files []) ↔ ∃ n r, RunOf files n z r := by
  unfold sizes
  rw [List.mem_mergeSort, List.mem_map]
  constructor
  · rintro ⟨d, hd, rfl⟩
    have h := (load_spec files [] (by simp) (by simp)).2.1 d hd
    obtain ⟨r, hr⟩ := List.exists_mem_of_ne_nil _ h
    exact ⟨r.name, r, mem_load.mp ⟨d, hd, rfl, hr⟩⟩
  · rintro ⟨n, r, h⟩
    obtain ⟨d, hd, e, -⟩ := mem_load.mpr h.named
    exact ⟨d, hd, e⟩

theorem mem_line {m : Metric} {n : List Char} {z : Nat} {v : Val} :
    (z, v) ∈ line (load files []) m n ↔ pointAt (load files []) m n z = some v := by
  unfold line
  rw [List.mem_filterMap]
  constructor
  · rintro ⟨z', hz, h⟩
    cases hp : pointAt (load files []) m n z' with
    | none => rw [hp] at h; cases h
    | some w =>
      rw [hp] at h
      simp only [Option.map_some, Option.some.injEq, Prod.mk.injEq] at h
      obtain ⟨rfl, rfl⟩ := h
      exact hp
  · intro h
    refine ⟨z, ?_, by rw [h]; rfl⟩
    unfold pointAt at h
    cases hf : firstRun (load files []) n z with
    | none => rw [hf] at h; simp at h
    | some r => exact mem_sizes.mpr ⟨n, r, firstRun_some hf⟩

theorem line_sorted (files : List (List Char × Run)) (m : Metric) (n : List Char) :
    (line (load files []) m n).Pairwise fun a b => a.1 < b.1 := by
  unfold line
  rw [List.pairwise_filterMap]
  refine (sizes_sorted files).imp ?_
  intro a b hab x hx y hy
  cases hp : pointAt (load files []) m n a with
  | none => rw [hp] at hx; cases hx
  | some v =>
    cases hq : pointAt (load files []) m n b with
    | none => rw [hq] at hy; cases hy
    | some w =>
      rw [hp] at hx; rw [hq] at hy
      injection hx with hx; injection hy with hy
      subst hx; subst hy
      exact hab

/-! ## Benchmarks -/

theorem mem_runs {r : Run} : r ∈ (load files []).flatMap (·.2) ↔ ∃ z, RunOf files r.name z r := by
  rw [List.mem_flatMap]
  constructor
  · rintro ⟨d, hd, hr⟩; exact ⟨d.1, mem_load.mp ⟨d, hd, rfl, hr⟩⟩
  · rintro ⟨z, h⟩; obtain ⟨d, hd, -, hr⟩ := mem_load.mpr h; exact ⟨d, hd, hr⟩

theorem mem_names {n : List Char} : n ∈ names (load files []) ↔ ∃ z r, RunOf files n z r := by
  unfold names
  rw [List.mem_mergeSort, List.mem_eraseDups, List.mem_map]
  constructor
  · rintro ⟨r, hr, rfl⟩; obtain ⟨z, h⟩ := mem_runs.mp hr; exact ⟨z, r, h⟩
  · rintro ⟨z, r, h⟩
    exact ⟨r, mem_runs.mpr ⟨z, h.named⟩, by obtain ⟨-, -, -, -, e⟩ := h; exact e⟩

theorem names_nodup (ds : List (Nat × List Run)) : (names ds).Nodup :=
  (List.mergeSort_perm _ _).nodup_iff.mpr (eraseDups_nodup _ _ (Nat.le_refl _))

theorem names_sorted (ds : List (Nat × List Run)) : (names ds).Pairwise (· ≤ ·) := by
  have h : (names ds).Pairwise (fun a b => decide (a ≤ b) = true) :=
    List.pairwise_mergeSort (le := fun (a b : List Char) => decide (a ≤ b))
      (fun a b c h1 h2 => decide_eq_true (List.le_trans (of_decide_eq_true h1) (of_decide_eq_true h2)))
      (fun a b => by
        rcases List.le_total a b with h | h
        · simp [h]
        · simp [h]) _
  exact h.imp fun h => of_decide_eq_true h

theorem supported_offers (h1 : OneTarget files) {m : Metric} {n : List Char} {z : Nat} {r : Run} (hr : RunOf files n z r) :
    supported (load files []) m n = true ↔ Offers r.target m := by
  unfold supported Offers
  have hs : ∃ r', ((load files []).flatMap (·.2)).find? (fun r => r.name == n) = some r' ∧ r'.target = r.target := by
    have : (((load files []).flatMap (·.2)).find? (fun r => r.name == n)).isSome := by
      rw [List.find?_isSome]
      refine ⟨r, mem_runs.mpr ⟨z, hr.named⟩, ?_⟩
      obtain ⟨-, -, -, -, e⟩ := hr
      simp [e]
    obtain ⟨r', h'⟩ := Option.isSome_iff_exists.mp this
    refine ⟨r', h', ?_⟩
    have e : r'.name = n := by simpa using List.find?_some h'
    obtain ⟨z', h2⟩ := mem_runs.mp (List.mem_of_find?_eq_some h')
    rw [e] at h2
    exact h1 _ _ _ _ _ h2 hr
  obtain ⟨r', hf, ht⟩ := hs
  rw [hf]
  dsimp only
  rw [ht]
  cases m with
  | opsPerSecond o => cases o <;> simp
  | latency o => cases o <;> simp
  | _ => simp

theorem hasPoint_iff {m : Metric} {n : List Char} {z : Nat} {v : Val} : HasPoint (chart (load files []) m) n z v ↔
    supported (load files []) m n = true ∧ pointAt (load files []) m n z = some v := by
  unfold HasPoint chart
  constructor
  · rintro ⟨l, hl, hv⟩
    rw [List.mem_filter, List.mem_map] at hl
    obtain ⟨⟨n', hn, e⟩, -⟩ := hl
    injection e with e1 e2
    subst e1; subst e2
    exact ⟨(List.mem_filter.mp hn).2, mem_line.mp hv⟩
  · rintro ⟨hs, hp⟩
    refine ⟨line (load files []) m n, ?_, mem_line.mpr hp⟩
    rw [List.mem_filter, List.mem_map]
    refine ⟨⟨n, List.mem_filter.mpr ⟨?_, hs⟩, rfl⟩, ?_⟩
    · unfold pointAt at hp
      cases hf : firstRun (load files []) n z with
      | none => rw [hf] at hp; simp at hp
      | some r => exact mem_names.mpr ⟨z, r, firstRun_some hf⟩
    · have h := mem_line.mpr hp
      cases hl : line (load files []) m n with
      | nil => rw [hl] at h; cases h
      | cons a b => simp

theorem chart_names (files : List (List Char × Run)) (m : Metric) : ((chart (load files []) m).map (·.1)).Nodup := by
  unfold chart
  have h : ((((names (load files [])).filter (supported (load files []) m)).map fun n => (n, line (load files []) m n)).map (·.1)).Nodup := by
    rw [List.map_map, show ((fun x : List Char × List (Nat × Val) => x.1) ∘ fun n => (n, line (load files []) m n)) = id from rfl, List.map_id]
    exact (names_nodup _).filter _
  exact h.sublist ((List.filter_sublist).map _)

theorem chart_line {m : Metric} {n : List Char} {l : List (Nat × Val)} (h : (n, l) ∈ chart (load files []) m) :
    l = line (load files []) m n ∧ l ≠ [] := by
  unfold chart at h
  rw [List.mem_filter, List.mem_map] at h
  obtain ⟨⟨n', -, e⟩, hne⟩ := h
  injection e with e1 e2
  subst e1
  exact ⟨e2.symm, by intro h0; rw [h0] at hne; simp at hne⟩

theorem line_ext {l l' : List (Nat × Val)} (h : l.Pairwise fun a b => a.1 < b.1) (h' : l'.Pairwise fun a b => a.1 < b.1)
    (hm : ∀ p, p ∈ l ↔ p ∈ l') : l = l' := by
  have hn : ∀ {l : List (Nat × Val)}, l.Pairwise (fun a b => a.1 < b.1) → l.Nodup := fun h =>
    h.imp fun {a b} hab e => by rw [e] at hab; exact Nat.lt_irrefl _ hab
  refine List.Perm.eq_of_pairwise (le := fun a b : Nat × Val => a.1 < b.1) ?_ h h' ((List.perm_ext_iff_of_nodup (hn h) (hn h')).mpr hm)
  intro a b _ _ h1 h2
  exact absurd h2 (by omega)

theorem names_ext {files files' : List (List Char × Run)} (h : ∀ f, f ∈ files ↔ f ∈ files') :
    names (load files []) = names (load files' []) := by
  refine List.Perm.eq_of_pairwise (le := (· ≤ ·)) (fun a b _ _ h1 h2 => List.le_antisymm h1 h2) (names_sorted _) (names_sorted _)
    ((List.perm_ext_iff_of_nodup (names_nodup _) (names_nodup _)).mpr fun n => ?_)
  rw [mem_names, mem_names]
  constructor <;> rintro ⟨z, r, f, o, a, b, c⟩
  · exact ⟨z, r, f, o, (h _).mp a, b, c⟩
  · exact ⟨z, r, f, o, (h _).mpr a, b, c⟩

end Plot
end Blobd
