import Verif.Proofs.KvStoreReach
import Verif.Spec.KvRead
/-! # KV store: reads spread over time -/
namespace Blobd
namespace Kv
open Spec KvAlloc

/-- what a step does to the parts of the state reads depend on -/
theorem step_kind {c : StoreCfg} {s s' : St} (h : Step c s s') :
    (s'.gens = s.gens ∧ s'.cur = s.cur ∧ s'.com = s.com ∧ s'.pages = s.pages ∧ s'.base = s.base ∧ s'.cl = s.cl ∧
      s'.ul = s.ul ∧ s'.applied = s.applied) ∨
    (∃ t r, s.inserting = t :: r ∧ s' = { s with
        inserting := r
        gens := fun g => if g = s.cur then (s.gens g).insert t.key t.op else s.gens g
        applied := s.applied ++ [t], ul := s.ul ++ [t] }) ∨
    (s.commit = none ∧ s' = { s with
        com := some s.cur, cur := s.cur + 1
        commit := some ⟨s.log.tail, .started⟩
        cl := s.ul, ul := [] }) ∨
    (∃ upTo todo work pre i page post, s.commit = some ⟨upTo, .updating todo work (pre ++ (i, page) :: post)⟩ ∧
      s' = { s with
        pages := fun j => if j = i then page else s.pages j
        commit := some ⟨upTo, .updating todo work (pre ++ post)⟩ }) ∨
    (∃ upTo, s.commit = some ⟨upTo, .headWritten⟩ ∧
      s' = { s with com := none, commit := none, base := s.base ++ s.cl, cl := [] }) := by
  cases h <;> first
    | exact .inl ⟨rfl, rfl, rfl, rfl, rfl, rfl, rfl, rfl⟩
    | exact .inr (.inl ⟨_, _, by assumption, rfl⟩)
    | exact .inr (.inr (.inl ⟨by assumption, rfl⟩))
    | exact .inr (.inr (.inr (.inl ⟨_, _, _, _, _, _, _, by assumption, rfl⟩)))
    | exact .inr (.inr (.inr (.inr ⟨_, by assumption, rfl⟩)))

theorem step_gens {c : StoreCfg} {s s' : St} (h : Step c s s') :
    s.cur ≤ s'.cur ∧ (∀ g, g < s.cur → s'.gens g = s.gens g) ∧
    (∀ g k, (s'.gens g).get k = none → (s.gens g).get k = none) := by
  rcases step_kind h with ⟨e1, e2, _⟩ | ⟨t, r, _, rfl⟩ | ⟨_, rfl⟩ | ⟨_, _, _, _, _, _, _, _, rfl⟩ | ⟨_, _, rfl⟩
  · rw [e1, e2]; exact ⟨Nat.le_refl _, fun _ _ => rfl, fun _ _ h => h⟩
  · refine ⟨Nat.le_refl _, fun g hg => by simp [Nat.ne_of_lt hg], ?_⟩
    intro g k hk
    by_cases hg : g = s.cur
    · simp only [hg, if_true] at hk ⊢
      rw [get_insert] at hk
      split at hk
      · cases hk
      · exact hk
    · simpa [hg] using hk
  · exact ⟨Nat.le_succ _, fun _ _ => rfl, fun _ _ h => h⟩
  · exact ⟨Nat.le_refl _, fun _ _ => rfl, fun _ _ h => h⟩
  · exact ⟨Nat.le_refl _, fun _ _ => rfl, fun _ _ h => h⟩

theorem com_of_commit {c : StoreCfg} {s : St} (h : Inv c s) : s.commit.isSome = s.com.isSome := h.ov.busyIff

theorem cl_idle {c : StoreCfg} {s : St} (h : Inv c s) (hc : s.commit = none) : s.com = none ∧ s.cl = [] := by
  have := com_of_commit h
  rw [hc] at this
  have h2 : s.com = none := by
    cases hh : s.com with
    | none => rfl
    | some g => rw [hh] at this; cases this
  exact ⟨h2, h.ov.idle h2⟩

section trace
variable {c : StoreCfg} {tr : Nat → St} {n : Nat}

theorem trace_gens (ht : Trace c tr n) {a b : Nat} (hab : a ≤ b) (hb : b ≤ n) :
    (tr a).cur ≤ (tr b).cur ∧ (∀ g, g < (tr a).cur → (tr b).gens g = (tr a).gens g) ∧
    (∀ g k, ((tr b).gens g).get k = none → ((tr a).gens g).get k = none) := by
  induction b, hab using Nat.le_induction with
  | base => exact ⟨Nat.le_refl _, fun _ _ => rfl, fun _ _ h => h⟩
  | succ b hab ih =>
    obtain ⟨i1, i2, i3⟩ := ih (by omega)
    obtain ⟨j1, j2, j3⟩ := step_gens (ht b (by omega))
    exact ⟨by omega, fun g hg => by rw [j2 g (by omega), i2 g hg], fun g k h => i3 g k (j3 g k h)⟩

/-- an overlay map a reader holds: at some time it was the current one, with the content the reader sees -/
theorem trace_cur (ht : Trace c tr n) {a b : Nat} (hab : a ≤ b) (hb : b ≤ n) :
    ∃ i, a ≤ i ∧ i ≤ b ∧ (tr i).cur = (tr a).cur ∧ (tr b).gens (tr a).cur = (tr i).gens (tr a).cur := by
  induction b, hab using Nat.le_induction with
  | base => exact ⟨a, Nat.le_refl _, Nat.le_refl _, rfl, rfl⟩
  | succ b hab ih =>
    by_cases hc : (tr (b + 1)).cur = (tr a).cur
    · exact ⟨b + 1, by omega, Nat.le_refl _, hc, rfl⟩
    · obtain ⟨i, h1, h2, h3, h4⟩ := ih (by omega)
      refine ⟨i, h1, by omega, h3, ?_⟩
      have hs := ht b (by omega)
      have hm := (trace_gens ht hab (by omega)).1
      have hm2 := step_gens hs
      by_cases hc2 : (tr a).cur < (tr b).cur
      · rw [hm2.2.1 _ hc2, h4]
      · have he : (tr b).cur = (tr a).cur := by omega
        rw [← h4]
        rcases step_kind hs with ⟨e1, _⟩ | ⟨t, r, _, e⟩ | ⟨_, e⟩ | ⟨_, _, _, _, _, _, _, _, e⟩ | ⟨_, _, e⟩
        · rw [e1]
        · rw [e] at hc; exact absurd he hc
        · rw [e]
        · rw [e]
        · rw [e]

theorem trace_inv (hc : c.Ok) (ht : Trace c tr n) (h0 : Reach c (tr 0)) (hf : (tr n).faults = [])
    (hk : NoEmptyKey (tr n)) {i : Nat} (hi : i ≤ n) : Inv c (tr i) := by
  have hr : ∀ i, i ≤ n → Reach c (tr i) := by
    intro i
    induction i with
    | zero => intro _; exact h0
    | succ i ih => intro hi; exact .step (ih (by omega)) (ht i (by omega))
  have hm : ∀ d, d ≤ n → (tr (n - d)).faults = [] ∧ NoEmptyKey (tr (n - d)) := by
    intro d
    induction d with
    | zero => intro _; exact ⟨hf, hk⟩
    | succ d ih =>
      intro hd
      obtain ⟨i1, i2⟩ := ih (by omega)
      obtain ⟨⟨x, hx⟩, y, hy⟩ := step_mono (ht (n - (d + 1)) (by omega))
      have e : n - (d + 1) + 1 = n - d := by omega
      rw [e] at hx hy
      rw [hx, List.append_eq_nil_iff] at i1
      refine ⟨i1.2, fun t ht => i2 t (by rw [hy]; simp [ht])⟩
  have := hm (n - i) (by omega)
  rw [show n - (n - i) = i by omega] at this
  exact reach_inv hc (hr i hi) this.1 this.2

end trace

/-! ### The page part -/

/-- writing a bundle page: either nothing changes for the key, or the page now holds the value of the
commit's entries -/
theorem pageGet_written {c : StoreCfg} {s : St} (h : Inv c s) {upTo i : Nat} {todo : List Group}
    {work : List Work} {pre post : List (Nat × List Byte)} {page : List Byte} (k : Key)
    (hcm : s.commit = some ⟨upTo, .updating todo work (pre ++ (i, page) :: post)⟩) :
    (lastFor s.cl k = none → pageGet ((fun j => if j = i then page else s.pages j) (bundleOf c k)) k =
      pageGet (s.pages (bundleOf c k)) k) ∧
    (bundleOf c k = i → (pageGet page k).map (valueOf s.heap) = specMap (s.base ++ s.cl) k) := by
  have hp := h.page
  have hv := h.vals
  rw [hcm] at hp hv
  have hn := hp.nodup
  simp only [tdo, wrk, cmp] at hn
  obtain ⟨n1, n2, n3, n4, n5, n6⟩ := nodup_split hn
  have hiw : i ∉ work.map (·.idx) := fun hx => n6 i hx (by simp)
  have hit : i ∉ todo.map (·.1) := fun hx => n5 i hx (by simp)
  have he : eff s.pages (some ⟨upTo, .updating todo work (pre ++ (i, page) :: post)⟩) i =
      (bundleDeserialise page).getD [] :=
    eff_comp (cm := some ⟨upTo, .updating todo work (pre ++ (i, page) :: post)⟩) (p := (i, page)) hiw n3 (by simp [cmp])
  constructor
  · intro hk
    by_cases hb : bundleOf c k = i
    · simp only [hb, if_true]
      have := hp.same k hk
      rw [hb, he] at this
      rw [this]; rfl
    · simp [hb]
  · intro hb
    have := hv.tup k (by
      simp only [Shadow, isEarly, Bool.false_eq_true, if_false]
      intro hm
      obtain ⟨e, he', rfl⟩ := List.mem_map.1 hm
      unfold rem at he'
      rw [List.mem_append, List.mem_flatMap, List.mem_flatMap] at he'
      rcases he' with ⟨g, hg, he'⟩ | ⟨w, hw, he'⟩
      · have := (hp.ents g hg e he').2.2
        exact hit (List.mem_map.2 ⟨g, hg, by rw [← hb, this]⟩)
      · have := (hp.wents w hw e he').2.2
        exact hiw (List.mem_map.2 ⟨w, hw, by rw [← hb, this]⟩))
    rw [hb, he] at this
    exact this

/-- a read that finds nothing in the overlays it holds -/
theorem slow_page {c : StoreCfg} {tr : Nat → St} {n : Nat} (ht : Trace c tr n) (hi : ∀ i, i ≤ n → Inv c (tr i))
    {k : Key} {a b : Nat} (hab : a ≤ b) (hb : b ≤ n) (h1 : lastFor (tr a).ul k = none) (h2 : lastFor (tr a).cl k = none) :
    (∃ i j, a ≤ i ∧ i ≤ b ∧ a ≤ j ∧ j ≤ b ∧
      (pageGet ((tr b).pages (bundleOf c k)) k).map (valueOf (tr j).heap) = specMap (tr i).applied k) ∧
    (lastFor (tr b).cl k = none ∨ ∃ i, a ≤ i ∧ i ≤ b ∧ (tr i).applied = (tr b).base ++ (tr b).cl) := by
  induction b, hab using Nat.le_induction with
  | base =>
    refine ⟨⟨a, a, Nat.le_refl _, Nat.le_refl _, Nat.le_refl _, Nat.le_refl _, ?_⟩, .inl h2⟩
    have hI := hi a hb
    rw [page_value hI.page hI.vals h1 h2, hI.ov.split, specMap_append_none h1, specMap_append_none h2]
  | succ b hab ih =>
    obtain ⟨⟨i, j, g1, g2, g3, g4, g5⟩, ih2⟩ := ih (by omega)
    have hI := hi b (by omega)
    have keep : (tr (b + 1)).pages = (tr b).pages → ∃ i j, a ≤ i ∧ i ≤ b + 1 ∧ a ≤ j ∧ j ≤ b + 1 ∧
      (pageGet ((tr (b + 1)).pages (bundleOf c k)) k).map (valueOf (tr j).heap) = specMap (tr i).applied k := by
      intro e; rw [e]; exact ⟨i, j, g1, by omega, g3, by omega, g5⟩
    have keep2 : (tr (b + 1)).cl = (tr b).cl → (tr (b + 1)).base = (tr b).base → (lastFor (tr (b + 1)).cl k = none ∨
        ∃ i, a ≤ i ∧ i ≤ b + 1 ∧ (tr i).applied = (tr (b + 1)).base ++ (tr (b + 1)).cl) := by
      intro e1 e2
      rw [e1, e2]
      rcases ih2 with h | ⟨i, x1, x2, x3⟩
      · exact .inl h
      · exact .inr ⟨i, x1, by omega, x3⟩
    rcases step_kind (ht b (by omega)) with ⟨_, _, _, e4, e5, e6, _⟩ | ⟨t, r, _, e⟩ | ⟨hcm, e⟩ |
      ⟨upTo, todo, work, pre, bi, page, post, hcm, e⟩ | ⟨_, _, e⟩
    · exact ⟨keep e4, keep2 e6 e5⟩
    · exact ⟨keep (by rw [e]), keep2 (by rw [e]) (by rw [e])⟩
    · refine ⟨keep (by rw [e]), .inr ⟨b, hab, by omega, ?_⟩⟩
      rw [e, hI.ov.split, (cl_idle hI hcm).2]
      simp
    · refine ⟨?_, keep2 (by rw [e]) (by rw [e])⟩
      obtain ⟨w1, w2⟩ := pageGet_written hI k hcm
      rw [e]
      rcases ih2 with h | ⟨i', x1, x2, x3⟩
      · simp only
        rw [show (if bundleOf c k = bi then page else (tr b).pages (bundleOf c k)) =
          (fun j => if j = bi then page else (tr b).pages j) (bundleOf c k) from rfl, w1 h]
        exact ⟨i, j, g1, by omega, g3, by omega, g5⟩
      · by_cases hbk : bundleOf c k = bi
        · refine ⟨i', b, x1, by omega, hab, by omega, ?_⟩
          simp only [hbk, if_true]
          rw [w2 hbk, x3]
        · simp only [hbk, if_false]
          exact ⟨i, j, g1, by omega, g3, by omega, g5⟩
    · refine ⟨keep (by rw [e]), .inl (by rw [e]; rfl)⟩

theorem readTuple_cur {c : StoreCfg} {s : St} {k : Key} {e : Option Data} (h : (s.gens s.cur).get k = some e) :
    readTuple c s k = e := by unfold readTuple; rw [h]

theorem readTuple_com {c : StoreCfg} {s : St} {k : Key} {g : Nat} {e : Option Data} (h : (s.gens s.cur).get k = none)
    (hg : s.com = some g) (he : (s.gens g).get k = some e) : readTuple c s k = e := by
  unfold readTuple; rw [h, hg]; simp [he]

theorem lasts_none {c : StoreCfg} {s : St} (h : Inv c s) {k : Key} (h1 : (s.gens s.cur).get k = none)
    (h2 : s.com.bind (fun g => (s.gens g).get k) = none) : lastFor s.ul k = none ∧ lastFor s.cl k = none := by
  rw [h.ov.genCur, get_ofEntries, Option.map_eq_none_iff] at h1
  refine ⟨h1, ?_⟩
  cases hg : s.com with
  | none => rw [h.ov.idle hg]; rfl
  | some g =>
    rw [hg, Option.bind_some, (h.ov.genCom g hg).2, get_ofEntries, Option.map_eq_none_iff] at h2
    exact h2

/-- the three ways a slow read ends -/
theorem slow_cases {c : StoreCfg} {tr : Nat → St} {n : Nat} (ht : Trace c tr n) (hi : ∀ i, i ≤ n → Inv c (tr i))
    {k : Key} {t1 t2 t3 t4 : Nat} (h12 : t1 ≤ t2) (h23 : t2 ≤ t3) (h34 : t3 ≤ t4) (h4 : t4 ≤ n) :
    (∃ i, t1 ≤ i ∧ i ≤ t4 ∧ slowReadTuple c tr t1 t2 t3 t4 k = readTuple c (tr i) k) ∨
    (slowReadTuple c tr t1 t2 t3 t4 k = pageGet ((tr t4).pages (bundleOf c k)) k ∧
      lastFor (tr t1).ul k = none ∧ lastFor (tr t1).cl k = none) := by
  cases hg : ((tr t2).gens (tr t1).cur).get k with
  | some e =>
    obtain ⟨i, a1, a2, a3, a4⟩ := trace_cur ht h12 (by omega)
    refine .inl ⟨i, a1, by omega, ?_⟩
    have : slowReadTuple c tr t1 t2 t3 t4 k = e := by unfold slowReadTuple; rw [hg]
    rw [this, readTuple_cur]
    rw [a3, ← a4, hg]
  | none =>
    have hz := (trace_gens ht h12 (by omega)).2.2 _ k hg
    cases hm : (tr t1).com.bind (fun g => ((tr t3).gens g).get k) with
    | some e =>
      have : slowReadTuple c tr t1 t2 t3 t4 k = e := by unfold slowReadTuple; rw [hg, hm]
      refine .inl ⟨t1, Nat.le_refl _, by omega, ?_⟩
      rw [this]
      obtain ⟨g, e1, e2⟩ := Option.bind_eq_some_iff.1 hm
      have hfr := (trace_gens ht (a := t1) (b := t3) (by omega) (by omega)).2.1 g
        ((hi t1 (by omega)).ov.genCom g e1).1
      rw [hfr] at e2
      exact (readTuple_com hz e1 e2).symm
    | none =>
      refine .inr ⟨by unfold slowReadTuple; rw [hg, hm], ?_⟩
      apply lasts_none (hi t1 (by omega)) hz
      cases hg1 : (tr t1).com with
      | none => rfl
      | some g =>
        rw [hg1, Option.bind_some] at hm
        rw [Option.bind_some]
        exact (trace_gens ht (a := t1) (b := t3) (by omega) (by omega)).2.2 g k hm

/-! ### Undisturbed tuples -/

theorem readTuple_lasts {c : StoreCfg} {s : St} (h : Inv c s) (k : Key) : readTuple c s k =
    match lastFor s.ul k with
    | some t => t.op
    | none => match lastFor s.cl k with
      | some t => t.op
      | none => pageGet (s.pages (bundleOf c k)) k := by
  unfold readTuple
  rw [h.ov.genCur, get_ofEntries]
  cases lastFor s.ul k with
  | some t => rfl
  | none =>
    simp only [Option.map_none]
    cases hg : s.com with
    | none => rw [h.ov.idle hg]; rfl
    | some g =>
      rw [Option.bind_some, (h.ov.genCom g hg).2, get_ofEntries]
      cases lastFor s.cl k <;> rfl

/-- a heap tuple stays the key's tuple while the key is not written -/
theorem readTuple_step {c : StoreCfg} {s s' : St} (h : Inv c s) (h' : Inv c s') (hs : Step c s s') {k : Key}
    (hk : ∀ t, s'.applied = s.applied ++ [t] → t.key ≠ k) {m o : Nat}
    (hr : readTuple c s k = some (.heap m o)) : readTuple c s' k = some (.heap m o) := by
  rw [readTuple_lasts h] at hr
  rw [readTuple_lasts h']
  rcases step_kind hs with ⟨e1, _, _, e4, e5, e6, e7, _⟩ | ⟨t, r, _, e⟩ | ⟨hcm, e⟩ |
      ⟨upTo, todo, work, pre, bi, page, post, hcm, e⟩ | ⟨u, hcm, e⟩
  · rw [e7, e6, e4]; exact hr
  · have := hk t (by rw [e])
    rw [e]
    simp only [lastFor_snoc, this, if_false]
    exact hr
  · have := (cl_idle h hcm).2
    rw [this] at hr
    rw [e]
    simp only [lastFor_nil] at hr ⊢
    exact hr
  · rw [e]
    simp only
    cases h1 : lastFor s.ul k with
    | some t => rw [h1] at hr; exact hr
    | none =>
      rw [h1] at hr
      cases h2 : lastFor s.cl k with
      | some t => rw [h2] at hr; exact hr
      | none =>
        rw [h2] at hr
        have := (pageGet_written h k hcm).1 h2
        simp only at this hr ⊢
        rw [this]; exact hr
  · rw [e]
    simp only [lastFor_nil]
    cases h1 : lastFor s.ul k with
    | some t => rw [h1] at hr; exact hr
    | none =>
      rw [h1] at hr
      cases h2 : lastFor s.cl k with
      | none => rw [h2] at hr; exact hr
      | some t =>
        rw [h2] at hr
        simp only at hr ⊢
        have hv := h.vals
        have hp := h.page
        rw [hcm] at hv hp
        have hk' := (lastFor_key h2).1
        have := hv.doneHeap rfl t (lastFor_mem_surv h2) m o hr (by simp [rem, tdo, wrk])
        rw [hk', eff_idle rfl rfl] at this
        have hok := hp.effOk (bundleOf c k)
        rw [eff_idle rfl rfl] at hok
        exact tget_of_mem hok.1 this

theorem untouched_lasts {c : StoreCfg} {tr : Nat → St} {n : Nat} (ht : Trace c tr n) (hi : ∀ i, i ≤ n → Inv c (tr i))
    {k : Key} {a b : Nat} (hab : a ≤ b) (hb : b ≤ n) (hu : Untouched tr k a b)
    (h1 : lastFor (tr a).ul k = none) (h2 : lastFor (tr a).cl k = none) :
    lastFor (tr b).ul k = none ∧ lastFor (tr b).cl k = none := by
  induction b, hab using Nat.le_induction with
  | base => exact ⟨h1, h2⟩
  | succ b hab ih =>
    obtain ⟨i1, i2⟩ := ih (by omega) (fun i x y => hu i x (by omega))
    rcases step_kind (ht b (by omega)) with ⟨_, _, _, e4, e5, e6, e7, _⟩ | ⟨t, r, _, e⟩ | ⟨hcm, e⟩ |
      ⟨upTo, todo, work, pre, bi, page, post, hcm, e⟩ | ⟨_, _, e⟩
    · rw [e6, e7]; exact ⟨i1, i2⟩
    · have := hu b hab (by omega) t (by rw [e])
      rw [e]
      simp only [lastFor_snoc, this, if_false]
      exact ⟨i1, i2⟩
    · rw [e]; exact ⟨rfl, i1⟩
    · rw [e]; exact ⟨i1, i2⟩
    · rw [e]; exact ⟨i1, rfl⟩

theorem untouched_spec {c : StoreCfg} {tr : Nat → St} {n : Nat} (ht : Trace c tr n)
    {k : Key} {a b : Nat} (hab : a ≤ b) (hb : b ≤ n) (hu : Untouched tr k a b) :
    specMap (tr b).applied k = specMap (tr a).applied k := by
  induction b, hab using Nat.le_induction with
  | base => rfl
  | succ b hab ih =>
    rw [← ih (by omega) (fun i x y => hu i x (by omega))]
    rcases step_kind (ht b (by omega)) with ⟨_, _, _, _, _, _, _, e⟩ | ⟨t, r, _, e⟩ | ⟨hcm, e⟩ |
      ⟨upTo, todo, work, pre, bi, page, post, hcm, e⟩ | ⟨_, _, e⟩
    · rw [e]
    · have := hu b hab (by omega) t (by rw [e])
      rw [e]
      simp only [specMap_snoc, Ne.symm this, if_false]
    all_goals rw [e]

theorem untouched_tuple {c : StoreCfg} {tr : Nat → St} {n : Nat} (ht : Trace c tr n) (hi : ∀ i, i ≤ n → Inv c (tr i))
    {k : Key} {a b : Nat} (hab : a ≤ b) (hb : b ≤ n) (hu : Untouched tr k a b) {m o : Nat}
    (hr : readTuple c (tr a) k = some (.heap m o)) : readTuple c (tr b) k = some (.heap m o) := by
  induction b, hab using Nat.le_induction with
  | base => exact hr
  | succ b hab ih =>
    exact readTuple_step (hi b (by omega)) (hi (b + 1) hb) (ht b (by omega))
      (fun t e => hu b hab (by omega) t e) (ih (by omega) (fun i x y => hu i x (by omega)))

end Kv
end Blobd
