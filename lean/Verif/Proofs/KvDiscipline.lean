import Verif.Spec.KvDiscipline
import Verif.Props.KvStore
/-! # KV store: the client's discipline excludes every fault -/
set_option autoImplicit false
namespace Blobd
namespace Kv
open Spec KvAlloc Props

variable {c : StoreCfg} {s s' : St}

/-- what a call sends, in terms of its value -/
def Shape (c : StoreCfg) (t : Task) : Prop :=
  t.op = none ∨ (∃ d, t.op = some (.inline d) ∧ t.val = some d ∧ d.length ≤ c.inlineThreshold) ∨
  ∃ d off, t.op = some (.heap d.length off) ∧ t.val = some d ∧ c.inlineThreshold < d.length

theorem reach_shape (h : Reach c s) : ∀ t ∈ s.issued, Shape c t := by
  induction h with
  | fresh h =>
    unfold fresh at h
    split at h
    · cases h
    · cases h; simp
  | step h hs ih =>
    cases hs with
    | writeInline raw data h1 h2 =>
      intro t ht
      rcases List.mem_append.1 ht with ht | ht
      · exact ih t ht
      · rw [List.mem_singleton] at ht
        subst ht
        exact .inr (.inl ⟨data, rfl, rfl, h2⟩)
    | writeHeap raw data junk h1 h2 h3 =>
      intro t ht
      rcases List.mem_append.1 ht with ht | ht
      · exact ih t ht
      · rw [List.mem_singleton] at ht
        subst ht
        exact .inr (.inr ⟨data, _, rfl, rfl, h2⟩)
    | delete raw =>
      intro t ht
      rcases List.mem_append.1 ht with ht | ht
      · exact ih t ht
      · rw [List.mem_singleton] at ht
        subst ht
        exact .inl rfl
    | _ => exact ih
  | restart h hl ih =>
    rw [(load_mono hl).2]; exact ih

/-! ### The size of a flush -/

theorem key_len {k : Key} (hk : KeyOk k) {b : List Byte} (h : k.serialise = some b) : b.length = keyBytes k := by
  cases k with
  | hash x => simp only [Key.serialise, Option.some.injEq] at h; subst h; simp only [KeyOk] at hk; simp [keyBytes, hk]
  | literal l =>
    simp only [Key.serialise] at h
    split at h
    · cases h; simp [keyBytes]; omega
    · cases h

theorem data_len {d : Data} {b : List Byte} (h : d.serialise = some b) : b.length = dataBytes d := by
  cases d with
  | inline l =>
    simp only [Data.serialise] at h
    split at h
    · rename_i h1
      cases h; simp [dataBytes, h1]; omega
    · rename_i h1
      split at h
      · cases h; simp [dataBytes, h1, leBytes]; omega
      · cases h
  | heap n o =>
    simp only [Data.serialise] at h
    split at h
    · split at h
      · cases h; simp [dataBytes, leBytes, beBytes]
      · cases h
    · cases h

theorem encode_len {t : Task} (hg : TaskGood t) (hs : Shape c t) {b : List Byte} (h : encodeTask t = some b) :
    b.length ≤ callBytes c t := by
  unfold encodeTask at h
  unfold callBytes
  rcases hs with h0 | ⟨d, h0, h1, h2⟩ | ⟨d, off, h0, h1, h2⟩
  · rw [h0] at h
    simp only at h
    split at h
    · rename_i a ha
      cases h
      have := key_len hg.key ha
      simp only [List.length_cons]; omega
    · cases h
  · rw [h0] at h
    simp only at h
    split at h
    · rename_i a b' ha hb
      cases h
      have := key_len hg.key ha
      have h4 := data_len hb
      rw [h1]
      simp only [h2, if_true, List.length_cons, List.length_append]
      simp only [dataBytes] at h4
      split at h4 <;> omega
    · cases h
  · rw [h0] at h
    simp only at h
    split at h
    · rename_i a b' ha hb
      cases h
      have := key_len hg.key ha
      have h4 := data_len hb
      simp only [dataBytes] at h4
      simp only [List.length_cons, List.length_append]
      omega
    · cases h

theorem encodes_len {ts : List Task} (hg : ∀ t ∈ ts, TaskGood t) (hs : ∀ t ∈ ts, Shape c t) :
    ∀ {b : List Byte}, encodeTasks ts = some b → b.length ≤ (ts.map (callBytes c)).sum := by
  induction ts with
  | nil => intro b h; cases h; simp
  | cons t ts ih =>
    intro b h
    simp only [encodeTasks] at h
    split at h
    · rename_i x y hx hy
      cases h
      have h1 := encode_len (c := c) (hg t (by simp)) (hs t (by simp)) hx
      have h2 := ih (fun t ht => hg t (by simp [ht])) (fun t ht => hs t (by simp [ht])) hy
      simp only [List.length_append, List.map_cons, List.sum_cons]
      omega
    · cases h

theorem pad_len {c : LogCfg} (j : Nat → Byte) {b : List Byte} (h : b.length < c.bufSize) (hb : 2 ^ c.spage ∣ c.bufSize) :
    (padFlush c j b).length ≤ c.bufSize := by
  unfold padFlush
  simp only
  split
  · have := ceilPow2_le_of_dvd (v := (b ++ [3]).length) hb (by simp; omega)
    simp only [List.length_append, List.length_map, List.length_range] at this ⊢
    simp only [List.length_singleton] at this ⊢
    omega
  · have := ceilPow2_le_of_dvd (v := b.length) hb (by omega)
    simp only [List.length_append, List.length_map, List.length_range] at this ⊢
    omega

/-! ### What the bundles hold -/

def SmallMap (m : List (Key × Data)) : Prop := ∀ t ∈ m, dataBytes t.2 ≤ 8

structure Short (pages : Nat → List Byte) (cm : Option Commit) : Prop where
  disk : ∀ i ts, bundleDeserialise (pages i) = some ts → SmallMap ts
  comp : ∀ p ∈ cmp cm, ∀ ts, bundleDeserialise p.2 = some ts → SmallMap ts
  work : ∀ w ∈ wrk cm, SmallMap w.map
  rem : ∀ e ∈ rem cm, ∀ d, e.2 = some d → dataBytes d ≤ 8

theorem moveEntry_short {junk : Nat → Byte} {a a' : KvAlloc} {e e' : Key × Option Data} {ws : List (Nat × List Byte)}
    (h : moveEntry junk a e = (a', some (e', ws))) : ∀ d, e'.2 = some d → dataBytes d ≤ 8 := by
  unfold moveEntry at h
  split at h
  · rename_i k x
    split at h
    · split at h
      · cases h; intro d hd; cases hd; simp [dataBytes]
      · cases h
    · rename_i h1
      cases h; intro d hd; cases hd
      simp only [dataBytes]
      split <;> omega
  · rename_i hne
    cases h
    intro d hd
    cases d with
    | inline x => exact (hne e.1 x (Prod.ext rfl hd)).elim
    | heap n o => simp [dataBytes]

theorem moveAll_short {junk : Nat → Byte} : ∀ {es es' : List (Key × Option Data)} {a a' : KvAlloc}
    {ws : List (Nat × List Byte)}, moveAll junk a es = (a', some (es', ws)) →
    ∀ e ∈ es', ∀ d, e.2 = some d → dataBytes d ≤ 8 := by
  intro es
  induction es with
  | nil => intro es' a a' ws h; simp only [moveAll] at h; cases h; simp
  | cons e es ih =>
    intro es' a a' ws h
    simp only [moveAll] at h
    split at h
    · cases h
    · rename_i a1 e1 ws1 h1
      split at h
      · cases h
      · rename_i a2 es2 ws2 h2
        cases h
        intro x hx
        rcases List.mem_cons.1 hx with rfl | hx
        · exact moveEntry_short h1
        · exact ih h2 x hx

theorem putEntry_short {m : List (Key × Data)} {e : Key × Option Data} (hm : SmallMap m)
    (he : ∀ d, e.2 = some d → dataBytes d ≤ 8) : SmallMap (putEntry m e) := by
  unfold putEntry
  cases h : e.2 with
  | none => intro t ht; exact hm t (List.mem_filter.1 ht).1
  | some d =>
    intro t ht
    rcases List.mem_cons.1 ht with rfl | ht
    · exact he d h
    · exact hm t (List.mem_filter.1 ht).1

theorem collect_mem (ts : List (Key × Data)) : ∀ t ∈ collectMap ts, t ∈ ts := by
  unfold collectMap
  have : ∀ (ts m : List (Key × Data)), ∀ t ∈ ts.foldl (fun m t => t :: m.filter (fun x => x.1 ≠ t.1)) m, t ∈ m ∨ t ∈ ts := by
    intro ts
    induction ts with
    | nil => intro m t ht; exact .inl ht
    | cons a ts ih =>
      intro m t ht
      rcases ih _ t ht with h | h
      · rcases List.mem_cons.1 h with rfl | h
        · exact .inr (by simp)
        · exact .inl (List.mem_filter.1 h).1
      · exact .inr (by simp [h])
  intro t ht
  simpa using this ts [] t ht

theorem applyEntry_map {a a' : KvAlloc} {m m' : List (Key × Data)} {e : Key × Option Data}
    (h : applyEntry a m e = (a', some m')) : m' = putEntry m e := by
  unfold applyEntry at h
  simp only at h
  split at h
  · split at h
    · cases h
    · cases h; rfl
  · cases h; rfl

theorem short_step (hi : Inv c s) (h : Short s.pages s.commit) (hs : Step c s s') : Short s'.pages s'.commit := by
  have hempty : ∀ {cm : Option Commit}, cmp cm = [] → wrk cm = [] → rem cm = [] → Short s.pages cm := by
    intro cm h1 h2 h3
    exact ⟨h.disk, by simp [h1], by simp [h2], by simp [h3]⟩
  cases hs with
  | commitStart h1 h2 h3 => exact hempty rfl rfl rfl
  | group junk h1 h2 h3 h4 =>
    refine ⟨h.disk, by simp [cmp], by simp [wrk], ?_⟩
    intro e he
    simp only [rem, tdo, wrk, List.flatMap_nil, List.append_nil, List.mem_flatMap] at he
    obtain ⟨g, hg, he⟩ := he
    exact moveAll_short h4 e ((groups_mem hg).2 e he).1
  | groupPanic junk h1 h2 h3 h4 => exact hempty rfl rfl rfl
  | moved h1 =>
    rw [h1] at h
    exact ⟨h.disk, by simp [cmp], by simp [wrk], h.rem⟩
  | movedAll h1 =>
    rw [h1] at h
    exact ⟨h.disk, by simp [cmp], by simp [wrk], h.rem⟩
  | bundleRead h1 h2 =>
    rw [h1] at h
    refine ⟨h.disk, h.comp, ?_, ?_⟩
    · intro w hw
      rcases List.mem_cons.1 hw with rfl | hw
      · intro t ht; exact h.disk _ _ h2 t (collect_mem _ t ht)
      · exact h.work w hw
    · intro e he
      apply h.rem e
      simp only [rem, tdo, wrk, List.flatMap_append, List.flatMap_cons, List.mem_append] at he ⊢
      grind
  | bundleEntry h1 h2 =>
    rw [h1] at h
    have hm := applyEntry_map h2
    refine ⟨h.disk, h.comp, ?_, ?_⟩
    · intro w hw
      rcases List.mem_append.1 hw with hw | hw
      · exact h.work w (List.mem_append_left _ hw)
      · rcases List.mem_cons.1 hw with rfl | hw
        · rw [hm]
          exact putEntry_short (h.work ⟨_, _, _⟩ (List.mem_append_right _ (List.mem_cons_self ..)))
            (h.rem _ (by simp [rem, tdo, wrk]))
        · exact h.work w (List.mem_append_right _ (List.mem_cons_of_mem _ hw))
    · intro e he
      apply h.rem e
      simp only [rem, tdo, wrk, List.flatMap_append, List.flatMap_cons, List.mem_append, List.mem_cons] at he ⊢
      grind
  | @bundleSerialise upTo todo pre i m post comp order page junk h1 h2 h3 =>
    have hok := hi.page.work ⟨i, m, []⟩ (by rw [h1]; simp [wrk])
    rw [h1] at h
    refine ⟨h.disk, ?_, ?_, ?_⟩
    · intro p hp
      rcases List.mem_cons.1 hp with rfl | hp
      · intro ts hts
        have := (bundle_roundtrip _ junk order (fun t ht => ⟨(hok.2 t (h2.mem_iff.1 ht)).1, (hok.2 t (h2.mem_iff.1 ht)).2.1⟩) h3).2
        simp only at hts
        rw [this] at hts
        cases hts
        intro t ht
        exact h.work ⟨i, m, []⟩ (by simp [wrk]) t (h2.mem_iff.1 ht)
      · exact h.comp p hp
    · intro w hw
      apply h.work w
      simp only [wrk, List.mem_append, List.mem_cons] at hw ⊢
      grind
    · intro e he
      apply h.rem e
      simp only [rem, tdo, wrk, List.flatMap_append, List.flatMap_cons, List.mem_append] at he ⊢
      grind
  | readPanic h1 h2 =>
    rw [h1] at h
    refine ⟨h.disk, h.comp, h.work, ?_⟩
    intro e he
    apply h.rem e
    simp only [rem, tdo, wrk, List.flatMap_append, List.flatMap_cons, List.mem_append] at he ⊢
    grind
  | entryPanic h1 h2 =>
    rw [h1] at h
    refine ⟨h.disk, h.comp, ?_, ?_⟩
    · intro w hw
      apply h.work w
      simp only [wrk, List.mem_append, List.mem_cons] at hw ⊢
      grind
    · intro e he
      apply h.rem e
      simp only [rem, tdo, wrk, List.flatMap_append, List.flatMap_cons, List.mem_append, List.mem_cons] at he ⊢
      grind
  | serialisePanic junk h1 h2 h3 =>
    rw [h1] at h
    refine ⟨h.disk, h.comp, ?_, ?_⟩
    · intro w hw
      apply h.work w
      simp only [wrk, List.mem_append, List.mem_cons] at hw ⊢
      grind
    · intro e he
      apply h.rem e
      simp only [rem, tdo, wrk, List.flatMap_append, List.flatMap_cons, List.mem_append] at he ⊢
      grind
  | @bundleWritten upTo todo work pre i page post h1 =>
    rw [h1] at h
    refine ⟨?_, ?_, h.work, h.rem⟩
    · intro j ts hts
      simp only at hts
      split at hts
      · exact h.comp (i, page) (by simp [cmp]) ts hts
      · exact h.disk j ts hts
    · intro p hp
      apply h.comp p
      simp only [cmp, List.mem_append, List.mem_cons] at hp ⊢
      grind
  | headWrite h1 => exact hempty rfl rfl rfl
  | commitEnd h1 => exact hempty rfl rfl rfl
  | _ => exact h

/-! ### No bundle task panics -/

theorem no_readPanic (hi : Inv c s) (g : Group) : bundleDeserialise (s.pages g.1) ≠ none := by
  obtain ⟨ts, h, _⟩ := hi.page.disk g.1
  rw [h]; exact nofun

theorem applyEntry_ok {c : StoreCfg} (hc : c.Ok) {a a' : KvAlloc} {m : List (Key × Data)} {e : Key × Option Data}
    {X : List (Nat × Nat)} (h : KvAlloc.Inv c.heap a X)
    (hm : ∀ size off, tget m e.1 = some (.heap size off) → (off, size) ∈ X) : applyEntry a m e ≠ (a', none) := by
  intro eq
  unfold applyEntry at eq
  simp only at eq
  split at eq
  · rename_i size off hf
    have hsp : 0 < c.heap.pages.spage := by have := hc.spage; omega
    obtain ⟨a1, e1, _⟩ := Inv.rel (h.perm (List.perm_cons_erase (hm size off hf))) hsp hc.lpage
    simp only at e1
    rw [e1] at eq
    simp at eq
  · simp at eq

theorem no_entryPanic (hc : c.Ok) (h : Inv c s) {upTo i : Nat} {todo : List Group}
    {pre post : List Work} {m : List (Key × Data)} {e : Key × Option Data} {es : List (Key × Option Data)}
    {comp : List (Nat × List Byte)} {a' : KvAlloc}
    (hcm : s.commit = some ⟨upTo, .updating todo (pre ++ ⟨i, m, e :: es⟩ :: post) comp⟩) :
    applyEntry s.alloc m e ≠ (a', none) := by
  obtain ⟨hlog, hov, hpipe, hpreps, hp, halloc, hws, hdisk, hvals⟩ := h
  rw [hcm] at hp halloc
  have hn := hp.nodup
  simp only [tdo, wrk, cmp] at hn
  obtain ⟨n1, n2, n3, n4, n5, n6⟩ := nodup_split hn
  have hilt : i < c.bundleCount := hp.below i (by simp [wrk])
  have he1 : eff s.pages (some ⟨upTo, .updating todo (pre ++ ⟨i, m, e :: es⟩ :: post) comp⟩) i = m :=
    eff_work (cm := some ⟨upTo, .updating todo (pre ++ ⟨i, m, e :: es⟩ :: post) comp⟩) (w := ⟨i, m, e :: es⟩) n2
      (by simp [wrk])
  obtain ⟨rest, hal⟩ := halloc
  refine applyEntry_ok hc hal ?_
  intro size off ht
  have : (off, size) ∈ effRegs c s.pages (some ⟨upTo, .updating todo (pre ++ ⟨i, m, e :: es⟩ :: post) comp⟩) := by
    unfold effRegs
    refine List.mem_flatMap.2 ⟨i, List.mem_range.2 hilt, ?_⟩
    rw [he1]
    exact List.mem_flatMap.2 ⟨_, tget_mem ht, by simp [dataRegs]⟩
  simp only [List.mem_append]
  exact .inr (.inr (.inr (.inr (.inl this))))

theorem tuples_len {l : List (Key × Data)} (hl : ∀ t ∈ l, KeyOk t.1 ∧ DataOk t.2) (hs : SmallMap l) :
    ∀ {b : List Byte}, serialiseTuples l = some b → b.length ≤ ((l.map (·.1)).map (fun k => keyBytes k + 8)).sum := by
  induction l with
  | nil => intro b h; cases h; simp
  | cons t l ih =>
    intro b h
    obtain ⟨k, d⟩ := t
    simp only [serialiseTuples] at h
    split at h
    · rename_i x y z hx hy hz
      cases h
      have h1 := key_len (hl (k, d) (by simp)).1 hx
      have h2 := data_len hy
      have h3 := hs (k, d) (by simp)
      have h4 := ih (fun t ht => hl t (by simp [ht])) (fun t ht => hs t (by simp [ht])) hz
      have h5 : (x ++ y ++ z).length = x.length + y.length + z.length := by simp only [List.length_append]
      rw [h5, List.map_cons, List.map_cons, List.sum_cons]
      simp only at h1 h3 ⊢
      omega
    · cases h

theorem no_serialisePanic (h : Inv c s) (hsh : Short s.pages s.commit) {upTo i : Nat} {todo : List Group}
    {pre post : List Work} {m order : List (Key × Data)} {comp : List (Nat × List Byte)} {junk : Nat → Byte}
    (hcm : s.commit = some ⟨upTo, .updating todo (pre ++ ⟨i, m, []⟩ :: post) comp⟩) (ho : order.Perm m)
    (hfit : BundlesFit c (s.base ++ s.cl)) : serialiseBundle (2 ^ c.heap.pages.spage) junk order ≠ none := by
  have hok := h.page.work ⟨i, m, []⟩ (by rw [hcm]; simp [wrk])
  have hsm := hsh.work ⟨i, m, []⟩ (by rw [hcm]; simp [wrk])
  simp only at hok hsm
  have hn := h.page.nodup
  rw [hcm] at hn
  simp only [tdo, wrk, cmp] at hn
  obtain ⟨n1, n2, n3, n4, n5, n6⟩ := nodup_split hn
  have he1 : eff s.pages s.commit i = m := by
    rw [hcm]
    exact eff_work (cm := some ⟨upTo, .updating todo (pre ++ ⟨i, m, []⟩ :: post) comp⟩) (w := ⟨i, m, []⟩) n2 (by simp [wrk])
  have hlive : ∀ t ∈ m, bundleOf c t.1 = i ∧ specMap (s.base ++ s.cl) t.1 ≠ none := by
    intro t ht
    have hb := (hok.2 t ht).2.2
    refine ⟨hb, ?_⟩
    rw [← h.vals.tup t.1, hb, he1, tget_of_mem hok.1 (k := t.1) (d := t.2) ht]
    · exact nofun
    · rw [hcm]
      simp only [Shadow, isEarly, Bool.false_eq_true, if_false]
      intro hk
      obtain ⟨e, he, hek⟩ := List.mem_map.1 hk
      simp only [rem, tdo, wrk] at he
      rw [List.mem_append, List.mem_flatMap, List.mem_flatMap] at he
      rcases he with ⟨g, hg, he⟩ | ⟨w, hw, he⟩
      · have := (h.page.ents g (by rw [hcm]; exact hg) e he).2.2
        rw [hek, hb] at this
        exact n4 i (this ▸ List.mem_map.2 ⟨g, hg, rfl⟩) (by simp)
      · have hwb := (h.page.wents w (by rw [hcm]; exact hw) e he).2.2
        rw [hek, hb] at hwb
        have : w = ⟨i, m, []⟩ := by
          have h1 := find_idx (f := fun w : Work => w.idx) n2 hw
          have h2 := find_idx (f := fun w : Work => w.idx) n2 (a := (⟨i, m, []⟩ : Work)) (by simp)
          rw [← hwb] at h1
          rw [h1] at h2
          exact Option.some.inj h2
        rw [this] at he
        cases he
  have hok' : ∀ t ∈ order, KeyOk t.1 ∧ DataOk t.2 := fun t ht =>
    ⟨(hok.2 t (ho.mem_iff.1 ht)).1, (hok.2 t (ho.mem_iff.1 ht)).2.1⟩
  obtain ⟨b, hb⟩ := serialiseTuples_some order hok'
  have hlen := tuples_len hok' (fun t ht => hsm t (ho.mem_iff.1 ht)) hb
  have hf := hfit i (order.map (·.1)) ((ho.map (·.1)).nodup_iff.2 hok.1) (by
    intro k hk
    obtain ⟨t, ht, rfl⟩ := List.mem_map.1 hk
    exact hlive t (ho.mem_iff.1 ht))
  have := (serialiseBundle_isSome_iff (2 ^ c.heap.pages.spage) junk order hb).2 (by omega)
  intro hx
  rw [hx] at this
  cases this

/-! ### No fault -/

theorem reach_of_disciplined (h : Disciplined c s) : Reach c s := by
  induction h with
  | fresh h => exact .fresh h
  | step _ h _ ih => exact .step ih h
  | restart _ h _ _ ih => exact .restart ih h

theorem fresh_within (hc : c.Ok) {heap logData : Mem} (h : fresh c heap logData = some s) : WithinLimits c s := by
  unfold fresh at h
  split at h
  · cases h
  · cases h
    refine ⟨by simp [NoEmptyKey], ?_, ?_⟩
    · intro i ks hn hk
      cases ks with
      | nil => simp
      | cons k ks => exact absurd rfl (hk k (by simp)).2
    · simp [outstanding, LogSt.fresh, hc.bufPos]

theorem disciplined_within (hc : c.Ok) (h : Disciplined c s) : WithinLimits c s := by
  cases h with
  | fresh h => exact fresh_within hc h
  | step _ _ h => exact h
  | restart _ _ _ h => exact h

structure Good (c : StoreCfg) (s : St) : Prop where
  faults : s.faults = []
  short : Short s.pages s.commit
  fit : s.commit.isSome → BundlesFit c (s.base ++ s.cl)

theorem Good.inv (hc : c.Ok) (hr : Reach c s) (hw : WithinLimits c s) (h : Good c s) : Inv c s :=
  reach_inv hc hr h.faults hw.keys

theorem good_step (hc : c.Ok) (hr : Reach c s) (hw : WithinLimits c s) (h : Good c s) (hs : Step c s s') : Good c s' := by
  have hi := h.inv hc hr hw
  refine ⟨?_, short_step hi h.short hs, ?_⟩
  · have hf := h.faults
    cases hs with
    | flush j1 j2 h1 h2 =>
      simp only [List.append_eq_nil_iff]
      refine ⟨?_, hf⟩
      rw [if_pos]
      cases he : encodeTasks s.pending with
      | none => simp
      | some b =>
        simp only [Option.map_some, Option.getD_some]
        refine pad_len j1 ?_ hc.bufPages
        have hg : ∀ t ∈ s.pending, TaskGood t := fun t ht => hi.pipe.good t (by simp [pipe, ht])
        have hsh : ∀ t ∈ s.pending, Shape c t := fun t ht =>
          reach_shape hr t (C34_applied_issued hr t (by simp [everywhere, ht]))
        have h3 := encodes_len hg hsh he
        have h4 := hw.calls
        simp only [outstanding, List.map_append, List.sum_append] at h4
        omega
    | readPanic h1 h2 => exact absurd h2 (no_readPanic hi _)
    | entryPanic h1 h2 => exact absurd h2 (no_entryPanic hc hi h1)
    | serialisePanic junk h1 h2 h3 =>
      exact absurd h3 (no_serialisePanic hi h.short h1 h2 (h.fit (by rw [h1]; rfl)))
    | _ => exact hf
  · cases hs with
    | commitStart h1 h2 h3 =>
      intro _
      have h4 := hi.ov.split
      rw [(cl_idle hi h2).2, List.append_nil] at h4
      simp only
      rw [← h4]
      exact hw.fit
    | commitEnd h1 => intro h; cases h
    | group junk h1 h2 h3 h4 => exact fun _ => h.fit (by rw [h2]; rfl)
    | groupPanic junk h1 h2 h3 h4 => exact fun _ => h.fit (by rw [h2]; rfl)
    | moved h1 => exact fun _ => h.fit (by rw [h1]; rfl)
    | movedAll h1 => exact fun _ => h.fit (by rw [h1]; rfl)
    | bundleRead h1 h2 => exact fun _ => h.fit (by rw [h1]; rfl)
    | bundleEntry h1 h2 => exact fun _ => h.fit (by rw [h1]; rfl)
    | bundleSerialise junk h1 h2 h3 => exact fun _ => h.fit (by rw [h1]; rfl)
    | readPanic h1 h2 => exact fun _ => h.fit (by rw [h1]; rfl)
    | entryPanic h1 h2 => exact fun _ => h.fit (by rw [h1]; rfl)
    | serialisePanic junk h1 h2 h3 => exact fun _ => h.fit (by rw [h1]; rfl)
    | bundleWritten h1 => exact fun _ => h.fit (by rw [h1]; rfl)
    | headWrite h1 => exact fun _ => h.fit (by rw [h1]; rfl)
    | _ => exact h.fit

theorem good_load (hc : c.Ok) (hr : Reach c s) (hw : WithinLimits c s) (h : Good c s) (hsm : OnlySmall c s)
    (hl : load c s = some s') : Good c s' := by
  have hi := h.inv hc hr hw
  obtain ⟨recs, hlg, e1, e2⟩ := hi.log.ex
  have hrep := hlg.replay hc.logOk
  have hany : ((recTasks recs).map Task.erase).any isHeapEntry = false := by
    rw [List.any_eq_false]
    intro e he
    obtain ⟨t, ht, rfl⟩ := List.mem_map.1 he
    have hin : t ∈ s.issued := by
      apply C34_applied_issued hr
      rw [e1] at ht
      have hsp := hi.ov.split
      simp only [everywhere, List.mem_append]
      simp only [List.mem_append] at ht
      rcases ht with (ht | ht) | ht
      · right; rw [hsp]
        split at ht
        · simp [ht]
        · cases ht
      · right; rw [hsp]; simp [ht]
      · left; right; exact ht
    rcases reach_shape hr t hin with h0 | ⟨d, h0, _⟩ | ⟨d, off, h0, h1, h2⟩
    · simp [isHeapEntry, Task.erase, h0]
    · simp [isHeapEntry, Task.erase, h0]
    · have := hsm t hin d h1
      omega
  unfold load at hl
  rw [hrep] at hl
  split at hl
  · rename_i heq
    cases heq
    split at hl
    · cases hl
    · cases hl
      refine ⟨?_, ⟨h.short.disk, by simp [cmp], by simp [wrk], by simp [rem, tdo, wrk]⟩, by simp⟩
      simp only [hany]
      simp [h.faults]
  · cases hl

theorem disciplined_good (hc : c.Ok) (h : Disciplined c s) : Good c s := by
  induction h with
  | @fresh heap logData s h =>
    unfold fresh at h
    split at h
    · cases h
    · cases h
      refine ⟨rfl, ⟨?_, by simp [cmp], by simp [wrk], by simp [rem, tdo, wrk]⟩, by simp⟩
      intro i ts hts
      simp only [deser_zero, Option.some.injEq] at hts
      subst hts
      simp [SmallMap]
  | step h hs _ ih => exact good_step hc (reach_of_disciplined h) (disciplined_within hc h) ih hs
  | restart h hl hsm _ ih => exact good_load hc (reach_of_disciplined h) (disciplined_within hc h) ih hsm hl

/-! ### Histories that stay within the limits as a whole -/

/-- the weight of all calls that are neither lost nor forgotten -/
def weight (c : StoreCfg) (s : St) : Nat := ((everywhere s).map (callBytes c)).sum

def issuedWeight (c : StoreCfg) (s : St) : Nat := (s.issued.map (callBytes c)).sum

theorem take_drop_tasks (l : List Flush) (n : Nat) (f : Task → Nat) :
    ((l.flatMap (·.tasks)).map f).sum = (((l.take n).flatMap (·.tasks)).map f).sum + (((l.drop n).flatMap (·.tasks)).map f).sum := by
  conv_lhs => rw [← List.take_append_drop n l]
  simp only [List.flatMap_append, List.map_append, List.sum_append]

theorem weight_step (h : weight c s ≤ issuedWeight c s) (hs : Step c s s') : weight c s' ≤ issuedWeight c s' := by
  unfold weight issuedWeight everywhere at *
  cases hs with
  | flush j1 j2 h1 h2 =>
    simp only [plan_tasks h2, List.map_append, List.sum_append, List.map_nil, List.sum_nil] at h ⊢
    omega
  | logWritten h1 h2 =>
    simp only [Props.finish_tasks]
    exact h
  | complete m h1 h2 =>
    unfold completeFlushes at h2
    simp only at h2
    split at h2
    · cases h2
    · split at h2
      · cases h2
        simp only [List.map_append, List.sum_append, h1, List.map_nil, List.sum_nil] at h ⊢
        have := take_drop_tasks s.log.inflight m (callBytes c)
        omega
      · cases h2
  | apply h1 =>
    simp only [h1, List.map_append, List.sum_append, List.map_cons, List.sum_cons, List.map_nil, List.sum_nil] at h ⊢
    omega
  | heapWritten h1 =>
    simp only [h1, List.map_append, List.sum_append, List.map_cons, List.sum_cons, List.map_nil, List.sum_nil] at h ⊢
    omega
  | send h1 =>
    simp only [h1, List.map_append, List.sum_append, List.map_cons, List.sum_cons, List.map_nil, List.sum_nil] at h ⊢
    omega
  | recv h1 =>
    simp only [h1, List.map_append, List.sum_append, List.map_cons, List.sum_cons, List.map_nil, List.sum_nil] at h ⊢
    omega
  | writeInline raw data h1 h2 =>
    simp only [List.map_append, List.sum_append, List.map_cons, List.sum_cons, List.map_nil, List.sum_nil] at h ⊢
    omega
  | writeHeap raw data junk h1 h2 h3 =>
    simp only [List.map_append, List.sum_append, List.map_cons, List.sum_cons, List.map_nil, List.sum_nil] at h ⊢
    omega
  | delete raw =>
    simp only [List.map_append, List.sum_append, List.map_cons, List.sum_cons, List.map_nil, List.sum_nil] at h ⊢
    omega
  | _ => exact h

theorem weight_reach (h : Reach c s) : weight c s ≤ issuedWeight c s := by
  induction h with
  | fresh h =>
    unfold fresh at h
    split at h
    · cases h
    · cases h; simp [weight, everywhere, LogSt.fresh]
  | step h hs ih => exact weight_step ih hs
  | restart h hl ih =>
    unfold load at hl
    split at hl
    · split at hl
      · cases hl
      · cases hl
        unfold weight issuedWeight everywhere at *
        simp only [List.map_append, List.sum_append, List.map_nil, List.sum_nil, List.flatMap_nil] at ih ⊢
        omega
    · cases hl

theorem specMap_issued {l : List Task} {k : Key} (h : specMap l k ≠ none) : ∃ t ∈ l, t.key = k := by
  cases hl : lastFor l k with
  | some t => exact ⟨t, (lastFor_key hl).2, (lastFor_key hl).1⟩
  | none =>
    have := specMap_append_none (a := []) hl
    rw [List.nil_append] at this
    rw [this] at h
    exact absurd rfl h

theorem within_of_few (hr : Reach c s) (h : FewCalls c s) : WithinLimits c s := by
  refine ⟨h.keys, ?_, ?_⟩
  · intro i ks hn hk
    refine h.fit i ks hn ?_
    intro k hk'
    obtain ⟨h1, h2⟩ := hk k hk'
    obtain ⟨t, ht, rfl⟩ := specMap_issued h2
    exact ⟨h1, t, C34_applied_issued hr t (by simp [everywhere, ht]), rfl⟩
  · have h1 := weight_reach hr
    have h2 := h.bytes
    unfold weight issuedWeight everywhere at h1
    unfold outstanding
    simp only [List.map_append, List.sum_append] at h1 ⊢
    omega

theorem few_back {y : List Task} (h : FewCalls c s') (hy : s'.issued = s.issued ++ y) : FewCalls c s := by
  refine ⟨fun t ht => h.keys t (by simp [hy, ht]), ?_, fun t ht => h.small t (by simp [hy, ht]), ?_⟩
  · intro i ks hn hk
    refine h.fit i ks hn ?_
    intro k hk'
    obtain ⟨h1, t, ht, h2⟩ := hk k hk'
    exact ⟨h1, t, by simp [hy, ht], h2⟩
  · have := h.bytes
    rw [hy, List.map_append, List.sum_append] at this
    omega

theorem disciplined_of_few (hr : Reach c s) (h : FewCalls c s) : Disciplined c s := by
  induction hr with
  | fresh h0 => exact .fresh h0
  | step hr hs ih =>
    obtain ⟨_, y, hy⟩ := step_mono hs
    exact .step (ih (few_back h hy)) hs (within_of_few (.step hr hs) h)
  | @restart s s' hr hl ih =>
    have hy := (load_mono hl).2
    have hb := few_back (s := s) (y := []) h (by rw [hy, List.append_nil])
    exact .restart (ih hb) hl hb.small (within_of_few (.restart hr hl) h)

/-! ### A disciplined execution -/

/-- twelve 32-byte keys with 7-byte values: as much as one 512-byte bundle holds -/
def fewWrites : List (List Byte × List Byte) :=
  (List.range 12).map (fun i => (UInt8.ofNat (i + 1) :: List.replicate 31 0, List.replicate 7 9))

def fewTasks : List Task :=
  fewWrites.map (fun w => ⟨Key.fromRaw wcfg.H w.1, some (.inline w.2), some w.2⟩)

theorem few_enc : (encodeTasks fewTasks).isSome = true := by decide +kernel
theorem few_len : batchLen wcfg fewTasks = 512 := by decide +kernel
theorem few_inline : ∀ e ∈ insertAll [] fewTasks, e.2 = some (.inline (List.replicate 7 9)) := by decide +kernel
theorem few_fits : (serialiseBundle 512 (fun _ => 0) ((insertAll [] fewTasks).foldl putEntry [])).isSome = true := by
  decide +kernel

/-- the twelve writes are acknowledged and then moved to their bundle -/
theorem few_run (heap logData : Mem) : ∃ s, Reach wcfg s ∧ s.applied = fewTasks ∧ s.issued = fewTasks ∧
    s.base = fewTasks ∧ s.com = none := by
  obtain ⟨buf, hbuf⟩ := Option.isSome_iff_exists.1 few_enc
  obtain ⟨page, hpage⟩ := Option.isSome_iff_exists.1 few_fits
  have h1 := put_all (c := wcfg) fewWrites (qfresh wcfg heap logData a0) [] (by
    have : ∀ w ∈ fewWrites, w.2.length = 7 := by decide +kernel
    intro w hw
    rw [this w hw]
    decide)
  have h2 := run_batch (c := wcfg) { qfresh wcfg heap logData a0 with issued := fewTasks } fewTasks (by decide +kernel)
    hbuf (show modPow2 0 9 = 0 by decide) (by rw [few_len]; exact (by decide : 0 + 512 < 2 ^ 20))
    (by rw [few_len]; decide)
  rw [few_len] at h2
  obtain ⟨q, hq⟩ : ∃ q : QSt, q = { qfresh wcfg heap logData a0 with
      issued := fewTasks
      data := logData.writeAll [(0 % 2 ^ 20, padFlush wcfg.log (fun _ => 0) buf)]
      tail := 0 + 512
      gens := fun g => if g = 0 then insertAll [] fewTasks else []
      applied := [] ++ fewTasks
      ul := [] ++ fewTasks } := ⟨_, rfl⟩
  have h3 : Steps wcfg (qfresh wcfg heap logData a0).st q.st := by
    rw [hq]; exact h1.trans h2
  have hg : q.gens q.cur = insertAll [] fewTasks := by rw [hq]; rfl
  have h4 := run_commit (c := wcfg) rfl q (by rw [hq]; exact (by decide : 0 + 512 - 0 ≥ 512))
    (by rw [hg]; decide +kernel)
    (by
      rw [hg]
      intro e he d hd
      rw [few_inline e he] at hd
      cases hd
      decide)
    (ts := []) (by rw [hq]; exact deser_zero _)
    (a' := q.alloc) (m' := (insertAll [] fewTasks).foldl putEntry [])
    (by
      rw [hg]
      apply applyAll_inline
      · simp [collectMap]
      · exact fun e he => ⟨_, few_inline e he⟩)
    hpage
  refine ⟨_, h4.reach (h3.reach (.fresh (fresh_q new_a0))), ?_, ?_, ?_, rfl⟩
  · show q.applied = _; rw [hq]; rfl
  · show q.issued = _; rw [hq]
  · show q.base ++ q.ul = _; rw [hq]; rfl

theorem few_calls {s : St} (hi : s.issued = fewTasks) : FewCalls wcfg s := by
  refine ⟨?_, ?_, ?_, ?_⟩
  · unfold NoEmptyKey; rw [hi]; decide +kernel
  · intro i ks hn hk
    have hsub : ∀ k ∈ ks, k ∈ fewTasks.map (·.key) := by
      intro k hk'
      obtain ⟨_, t, ht, rfl⟩ := hk k hk'
      rw [hi] at ht
      exact List.mem_map.2 ⟨t, ht, rfl⟩
    have hlen : ks.length ≤ 12 := (List.Nodup.subperm hn hsub).length_le
    have hall : ∀ k ∈ fewTasks.map (·.key), keyBytes k + 8 = 41 := by decide +kernel
    have hsum : (ks.map (fun k => keyBytes k + 8)).sum = ks.length * 41 := by
      clear hn hk hlen
      induction ks with
      | nil => rfl
      | cons k ks ih =>
        rw [List.map_cons, List.sum_cons, ih (fun k hk => hsub k (by simp [hk])), hall k (hsub k (by simp)), List.length_cons]
        omega
    rw [hsum]
    show _ ≤ 2 ^ 9
    omega
  · unfold OnlySmall; rw [hi]
    intro t ht v hv
    have : ∀ t ∈ fewTasks, t.val = some (List.replicate 7 9) := by decide +kernel
    rw [this t ht] at hv
    cases hv
    decide
  · rw [hi]; decide +kernel

end Kv
end Blobd
