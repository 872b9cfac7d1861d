import Verif.Proofs.Plotter
/-!
# C82: the benchmark plotter
-/
set_option autoImplicit false
namespace Blobd
namespace Props
open Plot

/-- **C82**: whatever benchmark, objects and object size a run has, the plotter takes the file it writes for its results, under that object size;
two runs of a benchmark with other objects or another size do not overwrite each other's. -/
theorem C82_file_names {o z o' z' : Nat} (ho : o < 2 ^ 64) (hz : z < 2 ^ 64) (ho' : o' < 2 ^ 64) (hz' : z' < 2 ^ 64) :
    parseName (resultsName o z) = some (o, z) ∧ (resultsName o z = resultsName o' z' → o = o' ∧ z = z') := by
  refine ⟨parseName_results ho hz, fun h => ?_⟩
  have h1 := parseName_results ho hz
  rw [h, parseName_results ho' hz'] at h1
  injection h1 with h1
  injection h1 with a b
  exact ⟨a.symm, b.symm⟩

/-- **C82**: a file is taken for the results of that many objects of that size if and only if its name is that of such a results file. -/
theorem C82_only_results (name : List Char) (o z : Nat) : parseName name = some (o, z) ↔ IsResults name o z := parseName_iff

/-- names that are those of results files, and some that are not: too much at the end, nothing where the size should be, a sign, a size too large -/
example : IsResults "results.10o.4096b.json".toList 10 4096 ∧ parseName "results.10o.4096b.json.bak".toList = none ∧
    parseName "results.10o.b.json".toList = none ∧ parseName "results.+1o.4b.json".toList = none ∧ parseName "old-results.10o.4b.json".toList = none ∧
    parseName "results.10o.18446744073709551616b.json".toList = none :=
  ⟨⟨"10".toList, "4096".toList, by decide +kernel, by decide, by decide, by decide +kernel, by decide +kernel, by decide +kernel,
    by decide +kernel, by decide, by decide⟩, by decide +kernel, by decide +kernel, by decide +kernel, by decide +kernel, by decide +kernel⟩

/-- **C82**: of any files, exactly the results files are plotted, each once, under the object size in its name, in the order they were found;
a size has one group, and no group is empty. -/
theorem C82_groups {R : Type} (files : List (List Char × R)) :
    ((load files []).map (·.1)).Nodup ∧ (∀ d ∈ load files [], d.2 ≠ []) ∧
      ∀ size, shown (load files []) size =
        (files.filter fun f => (parseName f.1).map (·.2) == some size).map (·.2) := by
  obtain ⟨a, b, c⟩ := load_spec files [] (by simp) (by simp)
  refine ⟨a, b, fun z => ?_⟩
  rw [c z, show shown ([] : List (Nat × List R)) z = [] from rfl, List.nil_append]
  clear a b c
  induction files with
  | nil => rfl
  | cons f fs ih =>
    rw [List.filterMap_cons, List.filter_cons]
    cases hp : parseName f.1 with
    | none => simpa [hp] using ih
    | some p =>
      by_cases hz : z = p.2
      · subst hz; simpa [hp] using ih
      · have : p.2 ≠ z := fun e => hz e.symm
        simpa [hp, hz, this] using ih

/-- **C82** (partial): the page's script gives `JSON.parse` exactly the data's text, whatever characters are in it. Missing: texts with `</script`
and the like in them, for which it does not (`C82_violated_script`), and those with `<!--`. -/
theorem C82_script_partial (json after : List Char) (he : occurs endTag json = false) (hc : occurs comment json = false) :
    dataOf (script json ++ ("</script>".toList ++ after)) = some json := dataOf_script he hc after

/-- **C82**: every string of the data (names, paths, keys of the metrics) is read back as it was, and reading it ends where it does. -/
theorem C82_strings (s rest : List Char) : jsonRead ((jsonStr s).tail ++ rest) = some (s, rest) := by
  have : (jsonStr s).tail ++ rest = s.flatMap jsonChar ++ '"' :: rest := by simp [jsonStr]
  rw [this]; exact jsonRead_chars s rest

/-- a replacement that changes no character of the text -/
theorem flatMap_id (f : Char → List Char) : ∀ s : List Char, (∀ c ∈ s, f c = [c]) → s.flatMap f = s := by
  intro s
  induction s with
  | nil => intro _; rfl
  | cons c s ih =>
    intro h
    rw [List.flatMap_cons, h c List.mem_cons_self, ih fun x hx => h x (List.mem_cons_of_mem _ hx)]; rfl

/-- **C82** violated: a page with the results of a benchmark of an S3 store has the store's secret key in it, whatever the results.
(The escaping leaves letters, digits, `+`, `/` and `=`, which such keys are made of, as they are.) -/
theorem C82_violated_secret (before after : List Char) (files : List (List Char × Results)) (name : List Char) (r : Results) (s : S3) (o z : Nat)
    (hf : (name, r) ∈ files) (hn : parseName name = some (o, z)) (hs : r.cfg.s3 = some s)
    (hk : ∀ c ∈ s.secretAccessKey, c.isAlphanum = true ∨ c = '+' ∨ c = '/' ∨ c = '=') :
    s.secretAccessKey <:+: page before after (dataJson (load files [])).text := by
  obtain ⟨-, -, hg⟩ := C82_groups files
  have hr : r ∈ shown (load files []) z := by
    rw [hg z, List.mem_map]
    exact ⟨(name, r), List.mem_filter.mpr ⟨hf, by simp [hn]⟩, rfl⟩
  unfold shown at hr
  obtain ⟨d, hd, hrd⟩ := List.mem_flatMap.mp hr
  have h1 := text_secret (List.mem_filter.mp hd).1 hrd hs
  have plain : ∀ c ∈ s.secretAccessKey, c ≠ '\\' ∧ c ≠ '"' ∧ ¬ c.toNat < 32 := by
    intro c hc
    refine ⟨?_, ?_, ?_⟩
    · rintro rfl; rcases hk _ hc with h | h | h | h <;> exact absurd h (by decide)
    · rintro rfl; rcases hk _ hc with h | h | h | h <;> exact absurd h (by decide)
    · rcases hk _ hc with h | rfl | rfl | rfl
      · intro hl
        simp only [Char.isAlphanum, Char.isAlpha, Char.isUpper, Char.isLower, Char.isDigit, Bool.or_eq_true, Bool.and_eq_true,
          decide_eq_true_eq, ge_iff_le, UInt32.le_iff_toNat_le] at h
        have hl' : c.val.toNat < 32 := hl
        simp at h
        omega
      · decide
      · decide
      · decide
  have low : ∀ c ∈ s.secretAccessKey, ∀ n, n < 32 → c ≠ Char.ofNat n := by
    rintro c hc n hn rfl
    have hv : n.isValidChar := by unfold Nat.isValidChar; omega
    exact (plain _ hc).2.2 (by rw [show (Char.ofNat n).toNat = n from by rw [Char.ofNat, dif_pos hv]; rfl]; exact hn)
  have h2 : s.secretAccessKey.flatMap jsonChar = s.secretAccessKey := by
    refine flatMap_id _ _ fun c hc => ?_
    · obtain ⟨a, b, l⟩ := plain c hc
      unfold jsonChar
      rw [if_neg b, if_neg a, if_neg (low c hc 10 (by omega)), if_neg (low c hc 13 (by omega)), if_neg (low c hc 9 (by omega)),
        if_neg (low c hc 8 (by omega)), if_neg (low c hc 12 (by omega)), if_neg l]
  have h3 : s.secretAccessKey.flatMap escC = s.secretAccessKey := by
    refine flatMap_id _ _ fun c hc => ?_
    · obtain ⟨a, b, l⟩ := plain c hc
      unfold escC
      rw [if_neg a, if_neg b, if_neg (low c hc 10 (by omega)), if_neg (low c hc 13 (by omega)), if_neg (low c hc 9 (by omega))]
  have h4 : s.secretAccessKey <:+: jsonStr s.secretAccessKey := by
    rw [jsonStr, h2]; exact ⟨['"'], ['"'], by simp⟩
  have h5 := flatMap_infix escC (h4.trans h1)
  rw [h3, ← escape_eq] at h5
  refine h5.trans ?_
  unfold page script
  exact ⟨before ++ "<script>".toList ++ "const data = JSON.parse(\"".toList, "\");".toList ++ "</script>".toList ++ after, by simp⟩

/-- a run of a benchmark of an S3 store -/
def plotS3 : Results := ⟨"s3".toList, ⟨"S3".toList, none, none, some ⟨"us-east-1".toList, "http://127.0.0.1:9000".toList, "user".toList,
  "Qx7/pass+word=".toList, "bench".toList, 8388608⟩, []⟩, []⟩

/-- a run of a benchmark in a directory with an unusual name -/
def plotFs : Results := ⟨"fs".toList, ⟨"FS".toList, some "/mnt/</script>/x".toList, none, none, []⟩, []⟩

/-- the hypotheses of `C82_violated_secret` and of `C82_script_partial` are met, with characters that need escaping -/
example : ("results.1000o.4096b.json".toList, plotS3) ∈ [("results.1000o.4096b.json".toList, plotS3), ("conf.yaml".toList, plotFs)] ∧
    parseName "results.1000o.4096b.json".toList = some (1000, 4096) ∧ parseName "conf.yaml".toList = none ∧
    (∀ c ∈ "Qx7/pass+word=".toList, c.isAlphanum = true ∨ c = '+' ∨ c = '/' ∨ c = '=') ∧
    occurs endTag (dataJson [(4096, [plotS3])]).text = false ∧ occurs comment (dataJson [(4096, [plotS3])]).text = false ∧
    '"' ∈ (dataJson [(4096, [plotS3])]).text := by
  refine ⟨by simp, by decide +kernel, by decide +kernel, by decide +kernel, by decide +kernel, by decide +kernel, by decide +kernel⟩

/-- **C82** violated: a path with `</script>` in it ends the script early: the page's script is not a statement any more, and the rest of the
data becomes part of the page. -/
theorem C82_violated_script (after : List Char) :
    dataOf (script (dataJson [(4096, [plotFs])]).text ++ ("</script>".toList ++ after)) = none := by
  have h : scriptText (script (dataJson [(4096, [plotFs])]).text) =
      some ("const data = JSON.parse(\"".toList ++ escape "[{\"object_size\":4096,\"results\":[{\"benchmark_name\":\"fs\",\"cfg\":{\"target\":\"FS\",\"prefix\":\"/mnt/".toList) := by
    decide +kernel
  unfold dataOf
  rw [scriptText_first _ h]
  decide +kernel

end Props
end Blobd
