import Verif.Model.KvFlushMetrics
import Verif.Spec.KvFlushMetrics
import Verif.Proofs.KvLogInv
import Verif.Proofs.KvDiscipline
/-!
# C87: the counters of log flushes
-/
set_option autoImplicit false
namespace Blobd
namespace Props
open Kv

/-- what a flush is made of -/
theorem plan_facts {c : LogCfg} {s s' : LogSt} {j1 j2 : Nat → Byte} {ts : List Task} {f : Flush} {buf : List Byte}
    (he : encodeTasks ts = some buf) (h : planFlush c s j1 j2 ts = some (s', f)) :
    f.tasks = ts ∧ ((f.writes.map fun w => w.2.length).sum = ceilPow2 buf.length c.spage ∧ ¬ Wrapped f ∨
      (f.writes.map fun w => w.2.length).sum = 2 ^ c.spage + ceilPow2 buf.length c.spage ∧ Wrapped f) := by
  unfold planFlush at h
  rw [he] at h
  simp only at h
  split at h
  · split at h
    · split at h
      · split at h
        · cases h
        · injection h with h
          injection h with h1 h2
          subst h2
          refine ⟨rfl, .inr ⟨?_, rfl⟩⟩
          have := Nat.two_pow_pos c.spage
          simp only [List.map_cons, List.map_nil, List.sum_cons, List.sum_nil, List.length_cons, List.length_map, List.length_range, padFlush_length,
            Nat.shiftLeft_eq, Nat.one_mul]
          omega
      · cases h
    · split at h
      · cases h
      · injection h with h
        injection h with h1 h2
        subst h2
        refine ⟨rfl, .inl ⟨?_, by simp [Wrapped]⟩⟩
        simp [padFlush_length]
  · cases h

/-- with a byte more, a length that does not fill its pages takes no more pages -/
theorem ceil_succ {n p : Nat} (h : n % 2 ^ p > 0) : ceilPow2 (n + 1) p = ceilPow2 n p := by
  rw [ceilPow2_eq, ceilPow2_eq]
  have hp := Nat.two_pow_pos p
  have h1 := Nat.div_add_mod n (2 ^ p)
  have h2 := Nat.mod_lt n hp
  rw [if_pos (by omega : n % 2 ^ p ≠ 0)]
  by_cases h3 : n % 2 ^ p + 1 = 2 ^ p
  · have e : n + 1 = 2 ^ p * (n / 2 ^ p + 1) := by rw [Nat.mul_add]; omega
    rw [e, Nat.mul_mod_right, Nat.mul_div_cancel_left _ hp, if_neg (by simp)]
  · have e : n + 1 = 2 ^ p * (n / 2 ^ p) + (n % 2 ^ p + 1) := by omega
    have e1 : (n + 1) % 2 ^ p = n % 2 ^ p + 1 := by
      conv => lhs; rw [e, Nat.mul_add_mod]
      exact Nat.mod_eq_of_lt (by omega)
    have e2 : (n + 1) / 2 ^ p = n / 2 ^ p := by
      conv => lhs; rw [e, Nat.mul_add_div hp, Nat.div_eq_of_lt (show n % 2 ^ p + 1 < 2 ^ p by omega)]
      rfl
    rw [e1, e2, if_pos (by omega)]

/-- the length counted for entries of this length -/
def countedLen (p n : Nat) : Nat := if n % 2 ^ p > 0 then n + 1 else n

/-- it is at most a multiple of the page size exactly if the entries are -/
theorem counted_le {p n b : Nat} (hb : 2 ^ p ∣ b) : countedLen p n ≤ b ↔ n ≤ b := by
  unfold countedLen
  split
  · rename_i h
    constructor
    · omega
    · intro h1
      rcases Nat.lt_or_eq_of_le h1 with h2 | h2
      · omega
      · subst h2
        have := Nat.mod_eq_zero_of_dvd hb
        omega
  · rfl

theorem countFlush_eq (c : LogCfg) (m : FlushMetrics) (ts : List Task) (buf : List Byte) : countFlush c m ts buf =
    { entries := m.entries + ts.length
      dataBytes := m.dataBytes + countedLen c.spage buf.length
      count := m.count + 1
      upTo4k := m.upTo4k + if countedLen c.spage buf.length ≤ 4096 then 1 else 0
      upTo64k := m.upTo64k + if 4096 < countedLen c.spage buf.length ∧ countedLen c.spage buf.length ≤ 65536 then 1 else 0
      upTo1m := m.upTo1m + if 65536 < countedLen c.spage buf.length ∧ countedLen c.spage buf.length ≤ 1048576 then 1 else 0
      upTo8m := m.upTo8m + if 1048576 < countedLen c.spage buf.length ∧ countedLen c.spage buf.length ≤ 8388608 then 1 else 0
      paddingBytes := m.paddingBytes + (ceilPow2 buf.length c.spage - countedLen c.spage buf.length) } := by
  have e : (if modPow2 buf.length c.spage > 0 then buf.length + 1 else buf.length) = countedLen c.spage buf.length := by
    unfold countedLen; rw [modPow2_eq]
  have e2 : ceilPow2 (countedLen c.spage buf.length) c.spage = ceilPow2 buf.length c.spage := by
    unfold countedLen
    split
    · exact ceil_succ (by assumption)
    · rfl
  unfold countFlush
  simp only [e, e2]
  generalize countedLen c.spage buf.length = n
  congr 1 <;> grind

theorem counted_le_ceil (p n : Nat) : countedLen p n ≤ ceilPow2 n p := (counted_le (ceilPow2_dvd n p)).2 (le_ceilPow2 n p)

/-- **C87**: the flushes and their entries are all counted, once each. -/
theorem C87_counted {c : StoreCfg} {s : St} {m : FlushMetrics} {fl : List Flush} (h : FReach c s m fl) :
    m.count = fl.length ∧ m.entries = (fl.map fun f => f.tasks.length).sum := by
  induction h with
  | opened _ => exact ⟨rfl, rfl⟩
  | other _ _ _ ih => exact ih
  | flush j1 j2 _ _ he hp _ _ _ ih =>
    rw [countFlush_eq]
    obtain ⟨h1, -⟩ := plan_facts he hp
    simp only [List.length_append, List.length_cons, List.length_nil, List.map_append, List.map_cons, List.map_nil, List.sum_append, List.sum_cons,
      List.sum_nil, h1, ih.1, ih.2]
    exact ⟨trivial, rfl⟩

/-- **C87**: data and padding together are what the flushes write, but for the page before each new round of the log. -/
theorem C87_bytes_written {c : StoreCfg} {s : St} {m : FlushMetrics} {fl : List Flush} (h : FReach c s m fl) :
    written fl = m.dataBytes + m.paddingBytes + 2 ^ c.log.spage * fl.countP (fun f => decide (Wrapped f)) := by
  induction h with
  | opened _ => rfl
  | other _ _ _ ih => exact ih
  | @flush s m fl log' f buf s' j1 j2 _ _ he hp _ _ _ ih =>
    rw [countFlush_eq]
    obtain ⟨-, h2⟩ := plan_facts he hp
    have hc := counted_le_ceil c.log.spage buf.length
    unfold written at ih ⊢
    simp only [List.map_append, List.map_cons, List.map_nil, List.sum_append, List.sum_cons, List.sum_nil, List.countP_append, List.countP_cons,
      List.countP_nil, ih, Nat.mul_add]
    rcases h2 with ⟨h3, h4⟩ | ⟨h3, h4⟩
    · simp only [h3, h4, decide_false, Bool.false_eq_true, if_false]; omega
    · simp only [h3, h4, decide_true, if_true]; omega

/-- **C87**: the data counted are the bytes of the entries, and one more for each flush that does not end with a page. -/
theorem C87_data_bytes {c : StoreCfg} {s : St} {m : FlushMetrics} {fl : List Flush} (h : FReach c s m fl) :
    m.dataBytes = (fl.map entryBytes).sum + fl.countP (fun f => decide (entryBytes f % 2 ^ c.log.spage ≠ 0)) := by
  induction h with
  | opened _ => rfl
  | other _ _ _ ih => exact ih
  | @flush s m fl log' f buf s' j1 j2 _ _ he hp _ _ _ ih =>
    rw [countFlush_eq]
    obtain ⟨h1, -⟩ := plan_facts he hp
    have hb : entryBytes f = buf.length := by unfold entryBytes; rw [h1, he]; rfl
    simp only [List.map_append, List.map_cons, List.map_nil, List.sum_append, List.sum_cons, List.sum_nil, List.countP_append, List.countP_cons,
      List.countP_nil, ih, hb]
    unfold countedLen
    by_cases h3 : buf.length % 2 ^ c.log.spage > 0
    · rw [if_pos h3, if_pos (by simp; omega)]; omega
    · rw [if_neg h3, if_neg (by simp; omega)]; omega

/-- **C87** (partial): with small pages of at most 4 KiB the four counters are the numbers of flushes of those sizes, without padding. Missing: larger pages
(`C87_violated_large_page`), and a counter for flushes of more than 8 MiB (`C87_violated_large_flush`). -/
theorem C87_sizes_partial {c : StoreCfg} (hp : c.log.spage ≤ 12) {s : St} {m : FlushMetrics} {fl : List Flush} (h : FReach c s m fl) :
    m.upTo4k = fl.countP (fun f => decide (entryBytes f ≤ 4 * 1024)) ∧ m.upTo64k = between (4 * 1024) (64 * 1024) fl ∧
      m.upTo1m = between (64 * 1024) (1024 * 1024) fl ∧ m.upTo8m = between (1024 * 1024) (8 * 1024 * 1024) fl := by
  have d : ∀ k, 12 ≤ k → 2 ^ c.log.spage ∣ 2 ^ k := fun k hk => Nat.pow_dvd_pow 2 (by omega)
  induction h with
  | opened _ => exact ⟨rfl, rfl, rfl, rfl⟩
  | other _ _ _ ih => exact ih
  | @flush s m fl log' f buf s' j1 j2 _ _ he hpl _ _ _ ih =>
    rw [countFlush_eq]
    obtain ⟨h1, -⟩ := plan_facts he hpl
    have hb : entryBytes f = buf.length := by unfold entryBytes; rw [h1, he]; rfl
    have a1 := counted_le (n := buf.length) (d 12 (by decide))
    have a2 := counted_le (n := buf.length) (d 16 (by decide))
    have a3 := counted_le (n := buf.length) (d 20 (by decide))
    have a4 := counted_le (n := buf.length) (d 23 (by decide))
    simp only [Nat.reducePow] at a1 a2 a3 a4
    unfold between at ih ⊢
    simp only [List.countP_append, List.countP_cons, List.countP_nil, ih, hb]
    simp only [decide_eq_true_eq, ← Nat.not_le, a1, a2, a3, a4]
    simp

/-- the four counters together are never more than all flushes, and fewer by those of more than 8 MiB -/
theorem sizes_sum {c : StoreCfg} {s : St} {m : FlushMetrics} {fl : List Flush} (h : FReach c s m fl) :
    m.upTo4k + m.upTo64k + m.upTo1m + m.upTo8m + fl.countP (fun f => decide (8 * 1024 * 1024 < entryBytes f)) ≤ m.count := by
  induction h with
  | opened _ => exact Nat.le_refl _
  | other _ _ _ ih => exact ih
  | @flush s m fl log' f buf s' j1 j2 _ _ he hpl _ _ _ ih =>
    rw [countFlush_eq]
    obtain ⟨h1, -⟩ := plan_facts he hpl
    have hb : entryBytes f = buf.length := by unfold entryBytes; rw [h1, he]; rfl
    have hn : buf.length ≤ countedLen c.log.spage buf.length := by unfold countedLen; split <;> omega
    simp only [List.countP_append, List.countP_cons, List.countP_nil, hb, decide_eq_true_eq]
    generalize countedLen c.log.spage buf.length = n at hn
    generalize buf.length = k at hn
    repeat' split
    all_goals omega

/-- **C87** violated: once a flush had more than 8 MiB, the four counters together show fewer flushes than there were, for good. -/
theorem C87_violated_large_flush {c : StoreCfg} {s : St} {m : FlushMetrics} {fl : List Flush} (h : FReach c s m fl) {f : Flush} (hf : f ∈ fl)
    (hl : 8 * 1024 * 1024 < entryBytes f) : m.upTo4k + m.upTo64k + m.upTo1m + m.upTo8m < m.count := by
  have h1 := sizes_sum h
  have h2 : 0 < fl.countP (fun f => decide (8 * 1024 * 1024 < entryBytes f)) := List.countP_pos_iff.2 ⟨f, hf, by simpa using hl⟩
  omega

/-- **C87** violated: with small pages of more than 4 KiB a flush of exactly 4 KiB of entries is counted as one of more. -/
theorem C87_violated_large_page {c : StoreCfg} (hp : 12 < c.log.spage) {s s' : St} {m : FlushMetrics} {fl : List Flush} {log' : LogSt} {f : Flush}
    {buf : List Byte} {j1 j2 : Nat → Byte} (h : FReach c s m fl) (hne : s.pending ≠ []) (he : encodeTasks s.pending = some buf)
    (hpl : planFlush c.log s.log j1 j2 s.pending = some (log', f)) (hs : Step c s s') (he' : s'.pending = []) (hl : s'.log = log')
    (hb : entryBytes f = 4 * 1024) :
    ∃ m', FReach c s' m' (fl ++ [f]) ∧ m'.upTo4k = m.upTo4k ∧ m'.upTo64k = m.upTo64k + 1 := by
  refine ⟨_, .flush j1 j2 h hne he hpl hs he' hl, ?_⟩
  obtain ⟨h1, -⟩ := plan_facts he hpl
  have hb' : entryBytes f = buf.length := by unfold entryBytes; rw [h1, he]; rfl
  rw [countFlush_eq, ← hb', hb]
  have hm : 2 ^ 13 ≤ 2 ^ c.log.spage := Nat.pow_le_pow_right (by decide) hp
  have hc : countedLen c.log.spage (4 * 1024) = 4097 := by
    unfold countedLen
    rw [Nat.mod_eq_of_lt (by omega)]
    rfl
  rw [hc]
  exact ⟨rfl, rfl⟩

/-- Hypotheses met: a delete goes through the log of the store of the other examples: one flush of a few bytes and a page of padding. -/
example : ∃ s m f, FReach wcfg s m [f] ∧ wcfg.log.spage ≤ 12 ∧ f.tasks.length = 1 ∧ m.count = 1 ∧ m.upTo4k = 1 ∧ m.dataBytes + m.paddingBytes = 512 ∧
    m.dataBytes = entryBytes f + 1 := by
  have h0 : FReach wcfg (qfresh wcfg (fun _ => 0) (fun _ => 0) a0).st .zero [] := .opened (.fresh (fresh_q new_a0))
  have h1 := FReach.other h0 (.delete [1]) (.inl rfl)
  have h2 := FReach.other h1 (.recv (t := ⟨Key.fromRaw wcfg.H [1], none, none⟩) (q := []) rfl) (.inl rfl)
  obtain ⟨buf, hbuf⟩ : ∃ b, encodeTasks [⟨Key.fromRaw wcfg.H [1], none, none⟩] = some b := Option.isSome_iff_exists.1 (by decide +kernel)
  obtain ⟨⟨l, f⟩, hf⟩ : ∃ x, planFlush wcfg.log (qfresh wcfg (fun _ => 0) (fun _ => 0) a0).st.log (fun _ => 0) (fun _ => 0)
      [⟨Key.fromRaw wcfg.H [1], none, none⟩] = some x := Option.isSome_iff_exists.1 (by decide +kernel)
  have h3 := FReach.flush (fun _ => 0) (fun _ => 0) h2 (by simp) hbuf hf (.flush (fun _ => 0) (fun _ => 0) (by simp) hf) rfl rfl
  have ht := (plan_facts hbuf hf).1
  have hl : buf.length < 512 ∧ 0 < buf.length := by
    have : ((encodeTasks [⟨Key.fromRaw wcfg.H [1], none, none⟩]).map (fun b => decide (b.length < 512 ∧ 0 < b.length))) = some true := by decide +kernel
    rw [hbuf] at this
    simpa using this
  have hb : entryBytes f = buf.length := by unfold entryBytes; rw [ht, hbuf]; rfl
  have hc : countedLen wcfg.log.spage buf.length = buf.length + 1 := by
    unfold countedLen
    rw [show wcfg.log.spage = 9 from rfl, Nat.mod_eq_of_lt (by omega), if_pos hl.2]
  have hce : ceilPow2 buf.length wcfg.log.spage = 512 := by
    rw [show wcfg.log.spage = 9 from rfl, ceilPow2_eq, Nat.mod_eq_of_lt (by omega), Nat.div_eq_of_lt (by omega), if_pos (by omega)]
  refine ⟨_, _, f, h3, by decide, by rw [ht]; rfl, ?_⟩
  rw [countFlush_eq, hc, hce, hb]
  refine ⟨rfl, ?_, ?_, ?_⟩
  · simp only [FlushMetrics.zero]; rw [if_pos (by omega)]
  · simp only [FlushMetrics.zero]; omega
  · simp only [FlushMetrics.zero]; omega

theorem encode_copies {t : Task} {a : List Byte} (h : encodeTask t = some a) (n : Nat) :
    ∃ b, encodeTasks (List.replicate n t) = some b ∧ b.length = n * a.length := by
  induction n with
  | zero => exact ⟨[], rfl, by simp⟩
  | succ n ih =>
    obtain ⟨b, h1, h2⟩ := ih
    refine ⟨a ++ b, ?_, ?_⟩
    · rw [List.replicate_succ, encodeTasks, h, h1]
    · rw [List.length_append, h2, Nat.succ_mul]; omega

/-- a flush of an empty log that is large enough -/
theorem plan_some {c : LogCfg} {s : LogSt} {ts : List Task} {buf : List Byte} (he : encodeTasks ts = some buf) (h0 : s.vtail = 0) (h1 : s.head = 0)
    (hl : ceilPow2 buf.length c.spage < c.dataLen) (j1 j2 : Nat → Byte) : ∃ s' f, planFlush c s j1 j2 ts = some (s', f) ∧ entryBytes f = buf.length := by
  have : ∃ s' f, planFlush c s j1 j2 ts = some (s', f) := by
    unfold planFlush
    rw [he]
    simp only [h0, h1, modPow2_eq, Nat.zero_mod, padFlush_length, if_true, Nat.zero_add, Nat.sub_zero]
    rw [if_neg (by omega), if_neg (by omega)]
    exact ⟨_, _, rfl⟩
  obtain ⟨s', f, h⟩ := this
  refine ⟨s', f, h, ?_⟩
  unfold entryBytes
  rw [(plan_facts he h).1, he]
  rfl

/-- The sizes of the two violations occur: 250000 deletes of keys of more than 32 bytes at once, in a log of 16 MiB; and 1024 deletes of keys of two bytes
with pages of 8 KiB. -/
example : (∃ s' f, planFlush ⟨9, 2 ^ 24, 2 ^ 20⟩ ⟨fun _ => 0, 0, 0, 0, []⟩ (fun _ => 0) (fun _ => 0)
      (List.replicate 250000 ⟨.hash (List.replicate 32 7), none, none⟩) = some (s', f) ∧ 8 * 1024 * 1024 < entryBytes f) ∧
    ∃ s' f, planFlush ⟨13, 2 ^ 20, 2 ^ 20⟩ ⟨fun _ => 0, 0, 0, 0, []⟩ (fun _ => 0) (fun _ => 0)
      (List.replicate 1024 ⟨.literal [1, 2], none, none⟩) = some (s', f) ∧ entryBytes f = 4 * 1024 := by
  constructor
  · obtain ⟨b, h1, h2⟩ := encode_copies (t := ⟨.hash (List.replicate 32 7), none, none⟩) (a := 2 :: 255 :: List.replicate 32 7) (by decide) 250000
    obtain ⟨s', f, h3, h4⟩ := plan_some (c := ⟨9, 2 ^ 24, 2 ^ 20⟩) (s := ⟨fun _ => 0, 0, 0, 0, []⟩) h1 rfl rfl
      (by rw [h2]; decide) (fun _ => 0) (fun _ => 0)
    exact ⟨s', f, h3, by rw [h4, h2]; decide⟩
  · obtain ⟨b, h1, h2⟩ := encode_copies (t := ⟨.literal [1, 2], none, none⟩) (a := [2, 2, 1, 2]) (by decide) 1024
    obtain ⟨s', f, h3, h4⟩ := plan_some (c := ⟨13, 2 ^ 20, 2 ^ 20⟩) (s := ⟨fun _ => 0, 0, 0, 0, []⟩) h1 rfl rfl
      (by rw [h2]; decide) (fun _ => 0) (fun _ => 0)
    exact ⟨s', f, h3, by rw [h4, h2]; decide⟩

end Props
end Blobd
