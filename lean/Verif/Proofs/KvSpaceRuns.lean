import Verif.Proofs.KvSpace
/-! # KV store: particular executions that lose heap space -/
set_option autoImplicit false
namespace Blobd
namespace Kv
open Spec KvAlloc Props

variable {c : StoreCfg} {s s' : St}

/-! ### Staying thrifty -/

theorem large_ul (h : Inv c s) {k : Key} (hl : LargeUncommitted s k) : ∃ t ∈ s.ul, t.key = k ∧ ∃ n o, t.op = some (.heap n o) := by
  obtain ⟨n, o, hl⟩ := hl
  rw [h.ov.genCur, get_ofEntries] at hl
  cases hx : lastFor s.ul k with
  | none => rw [hx] at hl; cases hl
  | some t =>
    rw [hx] at hl
    simp only [Option.map_some, Option.some.injEq] at hl
    exact ⟨t, (lastFor_key hx).2, (lastFor_key hx).1, n, o, hl⟩

theorem small_thrifty (hc : c.Ok) (h : Reach c s) (hf : s.faults = []) (hk : NoEmptyKey s) (hs : OnlySmall c s) :
    Thrifty c s := by
  induction h with
  | fresh h => exact .fresh h
  | restart h hl => exact .restart h hl
  | @step s s' h hst ih =>
    obtain ⟨⟨x, hx⟩, y, hy⟩ := step_mono hst
    have h1 := hx ▸ hf
    rw [List.append_eq_nil_iff] at h1
    have hk' : NoEmptyKey s := fun t ht => hk t (by rw [hy]; simp [ht])
    have hs' : OnlySmall c s := fun t ht => hs t (by rw [hy]; simp [ht])
    refine .step (ih h1.2 hk' hs') hst ?_
    intro t _ hl
    have hinv := reach_inv hc h h1.2 hk'
    obtain ⟨t', ht', _, n, o, ho⟩ := large_ul hinv hl
    have hiss : t' ∈ s.issued := by
      apply C34_applied_issued h
      simp [everywhere, hinv.ov.split, ht']
    rcases reach_shape h t' hiss with e | ⟨d, e, _⟩ | ⟨d, off, _, ev, hlt⟩
    · rw [ho] at e; cases e
    · rw [ho] at e; cases e
    · have := hs' t' hiss d ev; omega

theorem step_ul (h : Step c s s') : (s'.applied = s.applied ∧ (s'.ul = s.ul ∨ s'.ul = [])) ∨
    ∃ t, s'.applied = s.applied ++ [t] := by
  cases h <;> first
    | exact .inr ⟨_, rfl⟩
    | exact .inl ⟨rfl, .inl rfl⟩
    | exact .inl ⟨rfl, .inr rfl⟩

/-- from a state without uncommitted data, one more acknowledged call cannot waste space -/
theorem Steps.thrifty (hc : c.Ok) {a b : St} (h : Steps c a b) (ha : Thrifty c a) (hu : a.ul = []) (hf : b.faults = [])
    (hk : NoEmptyKey b) (hl : b.applied.length ≤ a.applied.length + 1) : Thrifty c b := by
  have key : Thrifty c b ∧ a.applied.length ≤ b.applied.length ∧ (b.applied.length = a.applied.length → b.ul = []) := by
    induction h with
    | refl => exact ⟨ha, Nat.le_refl _, fun _ => hu⟩
    | @snoc m b hs hst ih =>
      obtain ⟨⟨x, hx⟩, y, hy⟩ := step_mono hst
      have h1 := hx ▸ hf
      rw [List.append_eq_nil_iff] at h1
      have hk' : NoEmptyKey m := fun t ht => hk t (by rw [hy]; simp [ht])
      rcases step_ul hst with ⟨e1, e2⟩ | ⟨t, e1⟩
      · obtain ⟨i1, i2, i3⟩ := ih h1.2 hk' (by rw [← e1]; exact hl)
        refine ⟨.step i1 hst ?_, by rw [e1]; exact i2, ?_⟩
        · intro t ht
          rw [e1] at ht
          simp at ht
        · intro h
          rw [e1] at h
          rcases e2 with e2 | e2
          · rw [e2]; exact i3 h
          · exact e2
      · rw [e1, List.length_append, List.length_singleton] at hl
        obtain ⟨i1, i2, i3⟩ := ih h1.2 hk' (by omega)
        refine ⟨.step i1 hst ?_, by rw [e1, List.length_append]; omega, ?_⟩
        · intro t _ hlu
          obtain ⟨t', ht', _⟩ := large_ul (reach_inv hc (thrifty_reach i1) h1.2 hk') hlu
          rw [i3 (by omega)] at ht'
          cases ht'
        · intro h
          rw [e1, List.length_append, List.length_singleton] at h
          omega
  exact key.1

theorem surv_nil {l : List Task} (h : surv l = []) : l = [] := by
  induction l using snocInd with
  | h0 => rfl
  | h1 l a ih => rw [surv_snoc] at h; cases h

/-- a restart of a store at rest -/
theorem load_rest (hc : c.Ok) (h : Inv c s) (hr : AtRest s) (hl : load c s = some s') :
    AtRest s' ∧ s'.faults = s.faults ∧ s'.applied = s.applied := by
  obtain ⟨i1, i2, i3⟩ := atRest_idle h hr
  have hout := hr.calls
  simp only [outstanding, List.append_eq_nil_iff] at hout
  obtain ⟨_, o6⟩ := hout
  obtain ⟨recs, hli, e1, e2⟩ := h.log.ex
  have hrep := hli.replay hc.logOk
  rw [e1, i1, surv_nil i3, o6] at hrep
  simp only [openAt, Option.isSome_none, Bool.false_eq_true, if_false, List.append_nil, List.map_nil] at hrep
  unfold load at hl
  rw [hrep] at hl
  split at hl
  · split at hl
    · cases hl
    · rename_i q3 _ _ _
      cases q3
      simp only [Option.some.injEq] at hl
      subst hl
      refine ⟨⟨rfl, rfl, rfl⟩, rfl, ?_⟩
      simp only [o6, List.append_nil]
  · cases hl

/-! ### A 16 MiB value: written and committed, then deleted -/

theorem keep_key {l : List Task} {v w : List Byte} (h : l = [tA v] ∨ l = [tA v, tD] ∨ l = [tA v, tD, tB w]) :
    ∀ t ∈ l, t.key ≠ .literal [] := by
  intro t ht
  rcases h with rfl | rfl | rfl <;> simp only [List.mem_cons, List.not_mem_nil, or_false] at ht
  · subst ht; simp [tA, ka]
  · rcases ht with rfl | rfl <;> simp [tA, tD, ka]
  · rcases ht with rfl | rfl | rfl <;> simp [tA, tD, tB, ka, kb]

/-- the value is committed -/
theorem commitA_run (heap logData : Mem) (v : List Byte) (hv : v.length = 2 ^ 24) :
    ∃ q : QSt, Thrifty wcfg q.st ∧ KvAlloc.Inv wcfg.heap q.alloc [(0, 2 ^ 24)] ∧
      bundleDeserialise (q.pages 0) = some [(Key.literal ka, Data.heap (2 ^ 24) 0)] ∧ q.head = 512 ∧ q.tail = 512 ∧
      (∀ g, q.cur ≤ g → q.gens g = []) ∧ q.issued = [tA v] ∧ q.applied = [tA v] ∧ q.ul = [] ∧ q.faults = [] := by
  obtain ⟨q, hr, hal, hh, hpg, hhd, htl, hg, hcur, hiss, happ, hbase, hul, hf⟩ := runA heap logData v hv
  have hgc : q.gens q.cur = [(.literal ka, some (.heap (2 ^ 24) 0))] := by rw [hg, hcur]; rfl
  obtain ⟨page, hpage⟩ : ∃ page, serialiseBundle 512 (fun _ => 0) [(Key.literal ka, Data.heap (2 ^ 24) 0)] = some page :=
    Option.isSome_iff_exists.1 (by decide +kernel)
  have hdes : bundleDeserialise page = some [(Key.literal ka, Data.heap (2 ^ 24) 0)] :=
    (bundle_roundtrip 512 _ _ (by
      intro t ht
      simp only [List.mem_singleton] at ht
      subst ht
      exact ⟨by simp [KeyOk, ka], by simp [DataOk]⟩) hpage).2
  have h1 := run_commit (c := wcfg) rfl q (by rw [hhd, htl]; decide) (by rw [hgc]; simp) (by rw [hgc]; simp) (ts := [])
    (by rw [hpg]; exact deser_zero _) (a' := q.alloc) (m' := [(Key.literal ka, Data.heap (2 ^ 24) 0)])
    (by rw [hgc]; rfl) hpage
  -- up to here a single acknowledged call
  have hth : ∀ (b : St), Reach wcfg b → b.faults = [] → NoEmptyKey b → b.applied.length ≤ 1 → Thrifty wcfg b := by
    intro b hb
    induction hb with
    | fresh h => exact fun _ _ _ => .fresh h
    | restart h hl _ => exact fun _ _ _ => .restart h hl
    | @step m b h hst ih =>
      intro hf hk hl
      obtain ⟨⟨x, hx⟩, y, hy⟩ := step_mono hst
      have h1 := hx ▸ hf
      rw [List.append_eq_nil_iff] at h1
      have hk' : NoEmptyKey m := fun t ht => hk t (by rw [hy]; simp [ht])
      have hle : m.applied.length ≤ b.applied.length := by
        rcases step_ul hst with ⟨e1, _⟩ | ⟨t, e1⟩ <;> rw [e1]; simp
      refine .step (ih h1.2 hk' (by omega)) hst ?_
      intro t ht hlu
      have hinv := reach_inv wcfg_ok h h1.2 hk'
      obtain ⟨t', ht', _⟩ := large_ul hinv hlu
      rw [ht, List.length_append, List.length_singleton] at hl
      have h0 : m.applied = [] := List.length_eq_zero_iff.1 (by omega)
      have hsp := hinv.ov.split
      rw [h0] at hsp
      have : m.ul = [] := by
        have := hsp.symm
        rw [List.append_eq_nil_iff] at this
        exact this.2
      rw [this] at ht'
      cases ht'
  refine ⟨_, hth _ (h1.reach hr) hf ?_ ?_, hal, ?_, htl, htl, ?_, hiss, happ, rfl, hf⟩
  · intro t ht
    exact keep_key (v := v) (w := v) (.inl hiss) t ht
  · show q.applied.length ≤ 1
    rw [happ]; simp
  · simp only [if_true]; exact hdes
  · intro g hg'
    have hg' : q.cur + 1 ≤ g := hg'
    have hne : g ≠ 0 := by omega
    show q.gens g = []
    rw [hg]
    exact if_neg hne

/-- then deleted, and the deletion committed: the heap is empty again -/
theorem deleteA_run (heap logData : Mem) (v : List Byte) (hv : v.length = 2 ^ 24) :
    ∃ q : QSt, Thrifty wcfg q.st ∧ KvAlloc.Inv wcfg.heap q.alloc [] ∧ q.pages 0 = List.replicate 512 0 ∧
      (∀ g, q.cur ≤ g → q.gens g = []) ∧ q.issued = [tA v, tD] ∧ q.applied = [tA v, tD] ∧ q.ul = [] ∧ q.faults = [] := by
  obtain ⟨q, hr, hal, hdes, hhd, htl, hg, hiss, happ, hul, hf⟩ := commitA_run heap logData v hv
  have h2 := put_delete (c := wcfg) q [] ka
  have h3 := run_batch (c := wcfg) { q with issued := q.issued ++ [tD] } [tD] (by simp) encD (by simp only [htl]; decide)
      (by simp only [htl, lenD]; decide) (by rw [lenD]; decide)
  rw [lenD] at h3
  obtain ⟨a2, e2, i2, _⟩ := hal.rel (by decide) (by decide)
  have hgc : insertAll (q.gens q.cur) [tD] = [(Key.literal ka, none)] := by
    rw [hg q.cur (Nat.le_refl _)]
    rfl
  have h4 := run_commit (c := wcfg) rfl { q with
      data := q.data.writeAll [(q.tail % wcfg.log.dataLen, padFlush wcfg.log (fun _ => 0) [2, 1, 1])]
      tail := q.tail + 512
      gens := fun g => if g = q.cur then insertAll (q.gens g) [tD] else q.gens g
      applied := q.applied ++ [tD]
      ul := q.ul ++ [tD]
      issued := q.issued ++ [tD] } (by simp only [htl, hhd]; decide) (by simp only [if_true, hgc]; simp)
      (by simp only [if_true, hgc]; simp) (ts := [(Key.literal ka, Data.heap (2 ^ 24) 0)])
      hdes (a' := a2) (m' := [])
      (by
        simp only [if_true, hgc]
        show applyAll q.alloc [(Key.literal ka, Data.heap (2 ^ 24) 0)] [(Key.literal ka, none)] = some (a2, [])
        unfold applyAll applyEntry
        have hfi : ((([(Key.literal ka, Data.heap (2 ^ 24) 0)] : List (Key × Data)).find?
          (fun x => x.1 = Key.literal ka)).map (fun x => x.2)) = some (Data.heap (2 ^ 24) 0) := by decide
        simp only [hfi, e2]
        rfl)
      (page := List.replicate 512 0) (by decide +kernel)
  refine ⟨_, Steps.thrifty wcfg_ok ((h2.trans h3).trans h4) hr hul hf ?_ ?_, i2, rfl, ?_, ?_, ?_, rfl, hf⟩
  · intro t ht
    have ht : t ∈ q.issued ++ [tD] := ht
    rw [hiss] at ht
    exact keep_key (v := v) (w := v) (.inr (.inl rfl)) t ht
  · show (q.applied ++ [tD]).length ≤ q.applied.length + 1
    simp
  · intro g hg'
    have hg' : q.cur + 1 ≤ g := hg'
    show (if g = q.cur then insertAll (q.gens g) [tD] else q.gens g) = []
    rw [if_neg (by omega)]
    exact hg g (by omega)
  · show q.issued ++ [tD] = _
    rw [hiss]; rfl
  · show q.applied ++ [tD] = _
    rw [happ]; rfl

/-- deleted before any commit: after the commit the heap is full of nothing -/
theorem leak_run (heap logData : Mem) (v : List Byte) (hv : v.length = 2 ^ 24) :
    ∃ q : QSt, Reach wcfg q.st ∧ KvAlloc.Inv wcfg.heap q.alloc [(0, 2 ^ 24)] ∧ q.pages 0 = List.replicate 512 0 ∧
      (∀ g, q.cur ≤ g → q.gens g = []) ∧ q.issued = [tA v, tD] ∧ q.applied = [tA v, tD] ∧ q.ul = [] ∧ q.faults = [] := by
  obtain ⟨q, hr, hal, hh, hpg, hhd, htl, hg, hcur, hiss, happ, hbase, hul, hf⟩ := runA heap logData v hv
  have hgc : q.gens q.cur = [(.literal ka, some (.heap (2 ^ 24) 0))] := by rw [hg, hcur]; rfl
  have h2 := put_delete (c := wcfg) q [] ka
  have h3 := run_batch (c := wcfg) { q with issued := q.issued ++ [tD] } [tD] (by simp) encD (by simp only [htl]; decide)
      (by simp only [htl, lenD]; decide) (by rw [lenD]; decide)
  rw [lenD] at h3
  have hgc' : insertAll (q.gens q.cur) [tD] = [(Key.literal ka, none)] := by
    rw [hgc]
    rfl
  have h4 := run_commit (c := wcfg) rfl { q with
      data := q.data.writeAll [(q.tail % wcfg.log.dataLen, padFlush wcfg.log (fun _ => 0) [2, 1, 1])]
      tail := q.tail + 512
      gens := fun g => if g = q.cur then insertAll (q.gens g) [tD] else q.gens g
      applied := q.applied ++ [tD]
      ul := q.ul ++ [tD]
      issued := q.issued ++ [tD] } (by simp only [htl, hhd]; decide) (by simp only [if_true, hgc']; simp)
      (by simp only [if_true, hgc']; simp) (ts := [])
      (by simp only [hpg]; exact deser_zero _) (a' := q.alloc) (m' := [])
      (by
        simp only [if_true, hgc']
        rfl)
      (page := List.replicate 512 0) (by decide +kernel)
  refine ⟨_, ((h2.trans h3).trans h4).reach hr, hal, rfl, ?_, ?_, ?_, rfl, hf⟩
  · intro g hg'
    have hg' : q.cur + 1 ≤ g := hg'
    show (if g = q.cur then insertAll (q.gens g) [tD] else q.gens g) = []
    have hne : g ≠ 0 := by omega
    rw [if_neg (by omega), hg]
    exact if_neg hne
  · show q.issued ++ [tD] = _
    rw [hiss]; rfl
  · show q.applied ++ [tD] = _
    rw [happ]; rfl

theorem atRest_q {q : QSt} (h : q.gens q.cur = []) : AtRest q.st := ⟨rfl, rfl, h⟩

/-- a full heap: nothing can be allocated -/
theorem alloc_full {a : KvAlloc} {live : List (Nat × Nat)} (h : KvAlloc.Inv wcfg.heap a live) (hm : (0, 2 ^ 24) ∈ live)
    {n : Nat} (h2 : n ≤ 2 ^ 24) : a.allocate n = (.err .outOfSpace, a) := by
  have hk : contPow2 wcfg.heap.pages n ≤ wcfg.heap.pages.lpage := Nat.max_le.2 ⟨by decide, nextPow2Exp_le h2⟩
  rcases h.alloc (by decide) (by decide) n hk with ⟨off, a', e, hi, ⟨m, hv, ho⟩, _⟩ | ⟨e, _⟩
  · exfalso
    rw [vac_avail_iff] at hv
    have hpos := Nat.two_pow_pos (contPow2 wcfg.heap.pages n)
    refine hv.2 (wcfg.heap.base + m * 2 ^ contPow2 wcfg.heap.pages n) (Nat.le_refl _) (by omega) _ hm ⟨?_, ?_⟩
    · exact Nat.zero_le _
    · have h3 : ceilPow2 (2 ^ 24) wcfg.heap.pages.spage = 2 ^ 24 := by decide +kernel
      unfold regionEnd
      simp only [h3]
      have hb : wcfg.heap.base = 0 := rfl
      have hh : wcfg.heap.heap = 2 ^ 24 := rfl
      have hv1 := hv.1
      rw [hh] at hv1
      rw [hb]
      omega
  · exact e

theorem read_none {q : QSt} (hg : q.gens q.cur = []) (hp : q.pages 0 = List.replicate 512 0) (k : Key) :
    readTuple wcfg q.st k = none := by
  unfold readTuple
  have h1 : (q.st.gens q.st.cur).get k = none := by
    show (q.gens q.cur).get k = none
    rw [hg]; rfl
  rw [h1]
  have h2 : bundleOf wcfg k = 0 := Nat.mod_one _
  rw [h2]
  show pageGet (q.pages 0) k = none
  rw [hp, pageGet_eq, deser_zero]
  rfl

/-! ### A store stuck for good -/

def tS : Task := ⟨.literal kb, some (.inline (List.replicate 8 9)), some (List.replicate 8 9)⟩

/-- the heap is full of a value whose deletion cannot be committed, because the commit must first find heap space for
another key's eight bytes -/
structure Wedged (s : St) : Prop where
  reach : Reach wcfg s
  faults : s.faults = []
  keys : NoEmptyKey s
  preps : s.preps = []
  ready : s.ready = []
  queue : s.queue = []
  pending : s.pending = []
  inflight : s.log.inflight = []
  inserting : s.inserting = []
  page : bundleDeserialise (s.pages 0) = some [(Key.literal ka, Data.heap (2 ^ 24) 0)]
  noHeap : ∀ t ∈ s.cl ++ s.ul, ∀ n o, t.op ≠ some (.heap n o)
  stuck : (s.commit = none ∧ lastFor s.ul (.literal kb) = some tS) ∨
    (isEarly s.commit = true ∧ lastFor s.cl (.literal kb) = some tS ∧ s.ul = [])

theorem Wedged.inv (h : Wedged s) : Inv wcfg s := reach_inv wcfg_ok h.reach h.faults h.keys

/-- whatever phase, the bundle's tuple keeps the heap full -/
theorem Wedged.full (h : Wedged s) {n : Nat} (h2 : n ≤ 2 ^ 24) : s.alloc.allocate n = (.err .outOfSpace, s.alloc) := by
  obtain ⟨rest, hal⟩ := h.inv.alloc
  refine alloc_full hal ?_ h2
  have hw : wrk s.commit = [] ∧ cmp s.commit = [] := by
    rcases h.stuck with ⟨e, _⟩ | ⟨e, _⟩
    · rw [e]; exact ⟨rfl, rfl⟩
    · revert e
      cases s.commit with
      | none => intro e; cases e
      | some cm => obtain ⟨u, ph⟩ := cm; cases ph <;> intro e <;> first | exact ⟨rfl, rfl⟩ | cases e
  have : (0, 2 ^ 24) ∈ effRegs wcfg s.pages s.commit := by
    refine mem_effRegs (i := 0) (by decide) ?_
    rw [eff_idle hw.1 hw.2, h.page]
    exact List.mem_singleton.2 rfl
  simp only [List.mem_append]
  tauto

theorem moveAll_full {junk : Nat → Byte} {a : KvAlloc} (hfull : ∀ n, n ≤ 2 ^ 24 → a.allocate n = (.err .outOfSpace, a))
    {es : List (Key × Option Data)} (hm : ∃ e ∈ es, ∃ d, e.2 = some (.inline d) ∧ 7 < d.length ∧ d.length ≤ 2 ^ 24)
    (hle : ∀ e ∈ es, ∀ d, e.2 = some (.inline d) → d.length ≤ 2 ^ 24) :
    (moveAll junk a es).2 = none := by
  have hbig : ∀ k (d : List Byte), 7 < d.length → d.length ≤ 2 ^ 24 → moveEntry junk a (k, some (.inline d)) = (a, none) := by
    intro k d h1 h2
    unfold moveEntry allocateOnHeap
    simp only
    rw [if_pos h1, hfull _ h2]
  induction es with
  | nil => obtain ⟨e, he, _⟩ := hm; cases he
  | cons e es ih =>
    unfold moveAll
    cases hx : moveEntry junk a e with
    | mk a1 r =>
      cases r with
      | none => rfl
      | some p =>
        obtain ⟨e', ws⟩ := p
        -- this entry needed no space
        have ha : a1 = a ∧ ¬ ∃ d, e.2 = some (.inline d) ∧ 7 < d.length := by
          obtain ⟨k, od⟩ := e
          constructor
          · unfold moveEntry at hx
            split at hx
            · rename_i k' d heq
              cases heq
              split at hx
              · rename_i hlen
                unfold allocateOnHeap at hx
                rw [hfull _ (hle _ List.mem_cons_self d rfl)] at hx
                simp at hx
              · simp only [Prod.mk.injEq] at hx; exact hx.1.symm
            · simp only [Prod.mk.injEq] at hx; exact hx.1.symm
          · rintro ⟨d, hd, hl⟩
            simp only at hd
            subst hd
            rw [hbig k d hl (hle _ List.mem_cons_self d rfl)] at hx
            simp at hx
        have hrest := ih (by
          obtain ⟨e0, he0, d, h1, h2, h3⟩ := hm
          rcases List.mem_cons.1 he0 with rfl | he0
          · exact absurd ⟨d, h1, h2⟩ ha.2
          · exact ⟨e0, he0, d, h1, h2, h3⟩) (fun e he => hle e (List.mem_cons_of_mem _ he))
        simp only
        rw [ha.1]
        cases hy : moveAll junk a es with
        | mk a2 r2 =>
          rw [hy] at hrest
          simp only at hrest
          subst hrest
          rfl

theorem wedged_step (h : Wedged s) (hs : Step wcfg s s') (hiss : s'.issued = s.issued) : Wedged s' := by
  have hinv := h.inv
  have hfull := fun n (h2 : n ≤ 2 ^ 24) => h.full h2
  have hr := Reach.step h.reach hs
  obtain ⟨h1, h2, h3, h4, h5, h6, h7, h8, h9, h10, h11, h12⟩ := h
  have hne : ∀ {α : Type} {pre post : List α} {x : α}, [] = pre ++ x :: post → False := by
    intro α pre post x h; cases pre <;> cases h
  have hk : NoEmptyKey s' := by unfold NoEmptyKey; rw [hiss]; exact h3
  cases hs with
  | writeInline raw data q1 q2 => simp at hiss
  | writeHeap raw data junk q1 q2 q3 => simp at hiss
  | heapDevice heap' q1 => exact ⟨hr, h2, hk, h4, h5, h6, h7, h8, h9, h10, h11, h12⟩
  | heapWritten q1 => rw [h4] at q1; exact (hne q1).elim
  | send q1 => rw [h5] at q1; exact (hne q1).elim
  | delete raw => simp at hiss
  | recv q1 => rw [h6] at q1; cases q1
  | flush j1 j2 q1 q2 => exact absurd h7 q1
  | logDevice data' q1 => exact ⟨hr, h2, hk, h4, h5, h6, h7, h8, h9, h10, h11, h12⟩
  | logWritten q1 q2 => rw [h8] at q1; simp at q1
  | complete n q1 q2 =>
    have : (completeFlushes s.log n) = none := by
      unfold completeFlushes
      simp [h8]
    rw [this] at q2
    cases q2
  | apply q1 => rw [h9] at q1; cases q1
  | commitStart q1 q2 q3 =>
    rcases h12 with ⟨e1, e2⟩ | ⟨e1, _⟩
    · refine ⟨hr, h2, hk, h4, h5, h6, h7, h8, h9, h10, ?_, .inr ⟨rfl, e2, rfl⟩⟩
      intro t ht
      simp only [List.append_nil] at ht
      exact h11 t (List.mem_append_right _ ht)
    · rw [q2] at e1; cases e1
  | @group g upTo es a' es' ws junk q1 q2 q3 q4 =>
    exfalso
    rcases h12 with ⟨e1, _⟩ | ⟨e1, e2, _⟩
    · rw [q2] at e1; cases e1
    · rw [(hinv.ov.genCom g q1).2, ofEntries_erase] at q3
      have hmem : tS ∈ surv s.cl := lastFor_mem_surv e2
      have hx := moveAll_full (junk := junk) hfull (es := es)
        ⟨tS.erase, q3.mem_iff.2 (List.mem_map.2 ⟨tS, hmem, rfl⟩), List.replicate 8 9, rfl, by simp, by simp⟩ (by
          intro e he d hd
          obtain ⟨t, ht, rfl⟩ := List.mem_map.1 (q3.mem_iff.1 he)
          exact (hinv.vals.good t ht).inl d hd)
      rw [q4] at hx
      cases hx
  | groupPanic junk q1 q2 q3 q4 =>
    rcases h12 with ⟨e1, _⟩ | ⟨e1, e2⟩
    · rw [q2] at e1; cases e1
    · exact ⟨hr, h2, hk, h4, h5, h6, h7, h8, h9, h10, h11, .inr ⟨rfl, e2⟩⟩
  | moved q1 => rcases h12 with ⟨e1, _⟩ | ⟨e1, _⟩ <;> rw [q1] at e1 <;> cases e1
  | movedAll q1 => rcases h12 with ⟨e1, _⟩ | ⟨e1, _⟩ <;> rw [q1] at e1 <;> cases e1
  | bundleRead q1 q2 => rcases h12 with ⟨e1, _⟩ | ⟨e1, _⟩ <;> rw [q1] at e1 <;> cases e1
  | bundleEntry q1 q2 => rcases h12 with ⟨e1, _⟩ | ⟨e1, _⟩ <;> rw [q1] at e1 <;> cases e1
  | bundleSerialise junk q1 q2 q3 => rcases h12 with ⟨e1, _⟩ | ⟨e1, _⟩ <;> rw [q1] at e1 <;> cases e1
  | readPanic q1 => rcases h12 with ⟨e1, _⟩ | ⟨e1, _⟩ <;> rw [q1] at e1 <;> cases e1
  | entryPanic q1 => rcases h12 with ⟨e1, _⟩ | ⟨e1, _⟩ <;> rw [q1] at e1 <;> cases e1
  | serialisePanic junk q1 => rcases h12 with ⟨e1, _⟩ | ⟨e1, _⟩ <;> rw [q1] at e1 <;> cases e1
  | bundleWritten q1 => rcases h12 with ⟨e1, _⟩ | ⟨e1, _⟩ <;> rw [q1] at e1 <;> cases e1
  | headWrite q1 => rcases h12 with ⟨e1, _⟩ | ⟨e1, _⟩ <;> rw [q1] at e1 <;> cases e1
  | commitEnd q1 => rcases h12 with ⟨e1, _⟩ | ⟨e1, _⟩ <;> rw [q1] at e1 <;> cases e1

theorem wedged_load (h : Wedged s) (hl : load wcfg s = some s') : Wedged s' := by
  have hinv := h.inv
  have hr := Reach.restart h.reach hl
  have hkeys : NoEmptyKey s' := by unfold NoEmptyKey; rw [(load_mono hl).2]; exact h.keys
  obtain ⟨h1, h2, h3, h4, h5, h6, h7, h8, h9, h10, h11, h12⟩ := h
  obtain ⟨recs, hli, e1, e2⟩ := hinv.log.ex
  have hrep := hli.replay wcfg_ok.logOk
  have hul : recTasks recs = Commit.replayed s.commit s.cl ++ s.ul ++ s.inserting := by
    rw [e1]
    congr 2
    rcases h12 with ⟨q1, _⟩ | ⟨q1, _⟩
    · rw [q1]
      simp [openAt, Commit.replayed, (cl_idle hinv q1).2]
    · revert q1
      cases s.commit with
      | none => intro e; cases e
      | some cm => obtain ⟨u, ph⟩ := cm; cases ph <;> intro e <;> first | rfl | cases e
  have hU : ∀ t ∈ Commit.replayed s.commit s.cl ++ s.ul ++ s.inserting, t ∈ s.cl ++ s.ul := by
    intro t ht
    rw [h9, List.append_nil] at ht
    rcases List.mem_append.1 ht with ht | ht
    · refine List.mem_append_left _ ?_
      unfold Commit.replayed at ht
      split at ht
      · cases ht
      · exact ht
    · exact List.mem_append_right _ ht
  have hlast : lastFor (Commit.replayed s.commit s.cl ++ s.ul ++ s.inserting) (.literal kb) = some tS := by
    rw [h9, List.append_nil, lastFor_append]
    rcases h12 with ⟨q1, q2⟩ | ⟨q1, q2, q3⟩
    · rw [q2]
      rfl
    · have : Commit.replayed s.commit s.cl = s.cl := by
        revert q1
        cases s.commit with
        | none => intro e; cases e
        | some cm => obtain ⟨u, ph⟩ := cm; cases ph <;> intro e <;> first | rfl | cases e
      rw [this, q3, q2]
      rfl
  unfold load at hl
  split at hl
  · split at hl
    · cases hl
    · rename_i a0' regs es q1 q2 q3 _ a qm
      rw [hrep, hul] at q3
      cases q3
      simp only [Option.some.injEq] at hl
      have hno : ((Commit.replayed s.commit s.cl ++ s.ul ++ s.inserting).map Task.erase).any isHeapEntry = false := by
        rw [List.any_eq_false]
        intro e he
        obtain ⟨t, ht, rfl⟩ := List.mem_map.1 he
        have := h11 t (hU t ht)
        unfold isHeapEntry Task.erase
        cases hop : t.op with
        | none => simp
        | some d =>
          cases d with
          | inline d => simp
          | heap n o => exact absurd hop (this n o)
      rw [hno] at hl
      subst hl
      exact ⟨hr, by simpa using h2, hkeys, rfl, rfl, rfl, rfl, rfl, rfl, h10, fun t ht => h11 t (hU t ht), .inl ⟨rfl, hlast⟩⟩
  · cases hl

theorem wedged_later (h : Wedged s) (hl : Later wcfg s s') (hiss : s'.issued = s.issued) : Wedged s' := by
  have mono : ∀ {a b : St}, Later wcfg a b → ∃ y, b.issued = a.issued ++ y := by
    intro a b hab
    induction hab with
    | refl => exact ⟨[], by simp⟩
    | step _ hs ih =>
      obtain ⟨y, hy⟩ := ih
      obtain ⟨_, z, hz⟩ := step_mono hs
      exact ⟨y ++ z, by rw [hz, hy, List.append_assoc]⟩
    | restart _ hs ih =>
      obtain ⟨y, hy⟩ := ih
      exact ⟨y, by rw [(load_mono hs).2, hy]⟩
  induction hl with
  | refl => exact h
  | step hl hs ih =>
    obtain ⟨y, hy⟩ := mono hl
    obtain ⟨_, z, hz⟩ := step_mono hs
    have h1 : y = [] ∧ z = [] := by
      rw [hz, hy, List.append_assoc, List.append_right_eq_self, List.append_eq_nil_iff] at hiss
      exact hiss
    have h2 := ih (by rw [hy, h1.1, List.append_nil])
    exact wedged_step h2 hs (by rw [hz, h1.2, List.append_nil])
  | restart hl hs ih =>
    have h2 := ih (by rw [← hiss, (load_mono hs).2])
    exact wedged_load h2 hs

/-- nothing is acknowledged any more either -/
theorem wedged_applied (h : Wedged s) (hl : Later wcfg s s') (hiss : s'.issued = s.issued) : s'.applied = s.applied := by
  have mono : ∀ {a b : St}, Later wcfg a b → ∃ y, b.issued = a.issued ++ y := by
    intro a b hab
    induction hab with
    | refl => exact ⟨[], by simp⟩
    | step _ hs ih =>
      obtain ⟨y, hy⟩ := ih
      obtain ⟨_, z, hz⟩ := step_mono hs
      exact ⟨y ++ z, by rw [hz, hy, List.append_assoc]⟩
    | restart _ hs ih =>
      obtain ⟨y, hy⟩ := ih
      exact ⟨y, by rw [(load_mono hs).2, hy]⟩
  induction hl with
  | refl => rfl
  | @step m b hl hs ih =>
    obtain ⟨y, hy⟩ := mono hl
    obtain ⟨_, z, hz⟩ := step_mono hs
    have h1 : y = [] ∧ z = [] := by
      rw [hz, hy, List.append_assoc, List.append_right_eq_self, List.append_eq_nil_iff] at hiss
      exact hiss
    have h2 : m.issued = s.issued := by rw [hy, h1.1, List.append_nil]
    have h3 := wedged_later h hl h2
    have h4 := wedged_step h3 hs (by rw [hz, h1.2, List.append_nil])
    have h5 := h3.inserting
    rw [← ih h2]
    cases hs with
    | apply q => rw [h5] at q; cases q
    | _ => rfl
  | @restart m b hl hs ih =>
    have h2 : m.issued = s.issued := by rw [← hiss, (load_mono hs).2]
    have h3 := wedged_later h hl h2
    rw [← ih h2]
    unfold load at hs
    split at hs
    · split at hs
      · cases hs
      · simp only [Option.some.injEq] at hs
        subst hs
        simp only [h3.inserting, List.append_nil]
    · cases hs

theorem encDS : ∃ buf, encodeTasks [tD, tS] = some buf := Option.isSome_iff_exists.1 (by decide +kernel)
theorem lenDS : batchLen wcfg [tD, tS] = 512 := by decide +kernel

theorem wedge_run (heap logData : Mem) (v : List Byte) (hv : v.length = 2 ^ 24) :
    ∃ s, Wedged s ∧ s.applied = [tA v, tD, tS] := by
  obtain ⟨q, hr, hal, hdes, hhd, htl, hg, hiss, happ, hul, hf⟩ := commitA_run heap logData v hv
  obtain ⟨buf, hbuf⟩ := encDS
  have h1 := put_delete (c := wcfg) q [] ka
  have h2 := put_inline (c := wcfg) { q with issued := q.issued ++ [tD] } [tD] kb (List.replicate 8 9) (by decide) (by decide)
  have h3 := run_batch (c := wcfg) { q with issued := q.issued ++ [tD] ++ [tS] } [tD, tS] (by simp) hbuf
    (by simp only [htl]; decide) (by simp only [htl, lenDS]; decide) (by rw [lenDS]; decide)
  refine ⟨_, ⟨((h1.trans h2).trans h3).reach (thrifty_reach hr), hf, ?_, rfl, rfl, rfl, rfl, rfl, rfl, hdes, ?_, .inl ⟨rfl, ?_⟩⟩, ?_⟩
  · intro t ht
    have ht : t ∈ q.issued ++ [tD] ++ [tS] := ht
    rw [hiss] at ht
    simp only [List.mem_append, List.mem_singleton] at ht
    rcases ht with (rfl | rfl) | rfl <;> simp [tA, tD, tS, ka, kb]
  · intro t ht n o ho
    have ht : t ∈ [] ++ (q.ul ++ [tD, tS]) := ht
    rw [hul] at ht
    simp only [List.nil_append, List.mem_cons, List.not_mem_nil, or_false] at ht
    rcases ht with rfl | rfl <;> simp [tD, tS] at ho
  · show lastFor (q.ul ++ [tD, tS]) _ = _
    rw [hul]
    decide
  · show q.applied ++ [tD, tS] = _
    rw [happ]; rfl

end Kv
end Blobd
