import Verif.Proofs.KvStorePipe
/-! # KV store: starting a commit, grouping its entries and moving values to the heap -/
namespace Blobd
namespace Kv
open Spec KvAlloc

theorem allocate_fail {a a' : KvAlloc} {size : Nat} {o : Outcome OutOfSpace Nat} (h : a.allocate size = (o, a'))
    (ho : ∀ off, o ≠ .ok off) : a' = a := by
  unfold KvAlloc.allocate at h
  simp only at h
  split at h
  · split at h
    · simp only [Prod.mk.injEq] at h; exact h.2.symm
    · split at h
      · simp only [Prod.mk.injEq] at h; exact h.2.symm
      · simp only [Prod.mk.injEq] at h; exact absurd h.1.symm (ho _)
  · simp only [Prod.mk.injEq] at h; exact h.2.symm

theorem allocateOnHeap_fail {a a' : KvAlloc} {size : Nat} {o : Outcome OpErr (Nat × Nat)}
    (h : allocateOnHeap a size = (o, a')) (ho : ∀ x, o ≠ .ok x) : a' = a := by
  unfold allocateOnHeap at h
  split at h
  · rename_i e
    simp only [Prod.mk.injEq] at h
    rw [← h.2]; exact allocate_fail e (by simp)
  · rename_i e
    simp only [Prod.mk.injEq] at h
    rw [← h.2]; exact allocate_fail e (by simp)
  · simp only [Prod.mk.injEq] at h
    exact absurd h.1.symm (ho _)

/-- how one entry is moved -/
def Moved (pages : Pages) (ws : List (Nat × List Byte)) (e e' : Key × Option Data) : Prop :=
  e'.1 = e.1 ∧ (e' = e ∨ ∃ d w, e.2 = some (.inline d) ∧ 7 < d.length ∧ w ∈ ws ∧
    e'.2 = some (.heap d.length w.1) ∧ w.2.length = ceilPow2 d.length pages.spage ∧ w.2.take d.length = d)

theorem Moved.mono {pages : Pages} {ws ws' : List (Nat × List Byte)} {e e' : Key × Option Data}
    (h : Moved pages ws e e') (hs : ∀ w ∈ ws, w ∈ ws') : Moved pages ws' e e' := by
  refine ⟨h.1, ?_⟩
  rcases h.2 with h | ⟨d, w, a, b, h, r⟩
  · exact .inl h
  · exact .inr ⟨d, w, a, b, hs w h, r⟩

/-- writes and the regions allocated for them -/
def Match (pages : Pages) (ws : List (Nat × List Byte)) (new : List (Nat × Nat)) : Prop :=
  List.Forall₂ (fun (w : Nat × List Byte) (r : Nat × Nat) => w.1 = r.1 ∧ w.2.length = ceilPow2 r.2 pages.spage) ws new

theorem moveEntry_spec {c : StoreCfg} (hc : c.Ok) {junk : Nat → Byte} {a a' : KvAlloc} {e e' : Key × Option Data}
    {ws : List (Nat × List Byte)} {X : List (Nat × Nat)} (h : KvAlloc.Inv c.heap a X)
    (eq : moveEntry junk a e = (a', some (e', ws))) :
    ∃ new, KvAlloc.Inv c.heap a' (new ++ X) ∧ optRegs e'.2 = optRegs e.2 ++ new ∧ Match c.heap.pages ws new ∧
      Moved c.heap.pages ws e e' := by
  have same : (a, some (e, ([] : List (Nat × List Byte)))) = (a', some (e', ws)) →
      ∃ new, KvAlloc.Inv c.heap a' (new ++ X) ∧ optRegs e'.2 = optRegs e.2 ++ new ∧ Match c.heap.pages ws new ∧
      Moved c.heap.pages ws e e' := by
    intro eq
    simp only [Prod.mk.injEq, Option.some.injEq] at eq
    obtain ⟨rfl, rfl, rfl⟩ := eq
    exact ⟨[], h, by simp, .nil, rfl, .inl rfl⟩
  unfold moveEntry at eq
  split at eq
  · rename_i k d
    split at eq
    · rename_i hlen
      split at eq
      · rename_i off sz a1 ea
        simp only [Prod.mk.injEq, Option.some.injEq] at eq
        obtain ⟨rfl, rfl, rfl⟩ := eq
        obtain ⟨e1, e2⟩ := allocateOnHeap_ok ea
        rw [h.hpages, ceil_of_pos (by omega)] at e2
        have hle := le_ceilPow2 d.length c.heap.pages.spage
        have hl : (paddedBuf junk d sz).length = ceilPow2 d.length c.heap.pages.spage := by
          rw [paddedBuf_length _ _ (by omega), e2]
        exact ⟨[(off, d.length)], alloc_inv hc h e1, rfl, .cons ⟨rfl, hl⟩ .nil, rfl,
          .inr ⟨d, (off, paddedBuf junk d sz), rfl, hlen, by simp, rfl, hl, paddedBuf_take _ _ _⟩⟩
      · simp at eq
    · exact same eq
  · exact same eq

theorem moveEntry_none {junk : Nat → Byte} {a a' : KvAlloc} {e : Key × Option Data}
    (eq : moveEntry junk a e = (a', none)) : a' = a := by
  unfold moveEntry at eq
  split at eq
  · split at eq
    · split at eq
      · simp at eq
      · rename_i o a1 hno ea
        simp only [Prod.mk.injEq, and_true] at eq
        rw [← eq]
        refine allocateOnHeap_fail ea ?_
        intro x hx
        subst hx
        exact hno x.1 x.2 rfl
    · simp at eq
  · simp at eq

theorem moveAll_spec {c : StoreCfg} (hc : c.Ok) {junk : Nat → Byte} :
    ∀ {es : List (Key × Option Data)} {a a' : KvAlloc} {es' : List (Key × Option Data)}
    {ws : List (Nat × List Byte)} {X : List (Nat × Nat)}, KvAlloc.Inv c.heap a X →
    moveAll junk a es = (a', some (es', ws)) →
    ∃ new, KvAlloc.Inv c.heap a' (new ++ X) ∧ (entRegs es').Perm (entRegs es ++ new) ∧ Match c.heap.pages ws new ∧
      List.Forall₂ (Moved c.heap.pages ws) es es' := by
  intro es
  induction es with
  | nil =>
    intro a a' es' ws X h eq
    simp only [moveAll, Prod.mk.injEq, Option.some.injEq] at eq
    obtain ⟨rfl, rfl, rfl⟩ := eq
    exact ⟨[], h, .refl _, .nil, .nil⟩
  | cons e es ih =>
    intro a a' es' ws X h eq
    simp only [moveAll] at eq
    split at eq
    · simp at eq
    · rename_i a1 e1 ws1 eq1
      split at eq
      · simp at eq
      · rename_i a2 es2 ws2 eq2
        simp only [Prod.mk.injEq, Option.some.injEq] at eq
        obtain ⟨rfl, rfl, rfl⟩ := eq
        obtain ⟨n1, i1, r1, m1, v1⟩ := moveEntry_spec hc h eq1
        obtain ⟨n2, i2, r2, m2, v2⟩ := ih i1 eq2
        refine ⟨n1 ++ n2, i2.perm ?_, ?_, ?_, ?_⟩
        · rw [← List.append_assoc]
          exact (List.perm_append_comm).append_right _
        · rw [List.perm_iff_count] at r2 ⊢
          intro x
          have := r2 x
          simp only [entRegs, List.flatMap_cons, r1, List.count_append] at this ⊢
          omega
        · exact List.rel_append m1 m2
        · exact .cons (v1.mono (by simp +contextual)) (v2.imp fun _ _ h => h.mono (by simp +contextual))

theorem moveAll_none {c : StoreCfg} (hc : c.Ok) {junk : Nat → Byte} :
    ∀ {es : List (Key × Option Data)} {a a' : KvAlloc} {X : List (Nat × Nat)}, KvAlloc.Inv c.heap a X →
    moveAll junk a es = (a', none) → ∃ new, KvAlloc.Inv c.heap a' (new ++ X) := by
  intro es
  induction es with
  | nil => intro a a' X h eq; simp [moveAll] at eq
  | cons e es ih =>
    intro a a' X h eq
    simp only [moveAll] at eq
    split at eq
    · rename_i a1 eq1
      simp only [Prod.mk.injEq, and_true] at eq
      subst eq
      rw [moveEntry_none eq1]
      exact ⟨[], h⟩
    · rename_i a1 e1 ws1 eq1
      obtain ⟨n1, i1, _⟩ := moveEntry_spec hc h eq1
      split at eq
      · rename_i a2 eq2
        simp only [Prod.mk.injEq, and_true] at eq
        subst eq
        obtain ⟨n2, i2⟩ := ih i1 eq2
        exact ⟨n2 ++ n1, by rw [List.append_assoc]; exact i2⟩
      · simp at eq

/-! ### Grouping -/

theorem flatMap_filter_perm {α : Type} [DecidableEq α] (f : α → Nat) (n : Nat) (es : List α) (h : ∀ e ∈ es, f e < n) :
    ((List.range n).flatMap (fun i => es.filter (fun e => f e = i))).Perm es := by
  induction es with
  | nil => simp
  | cons e es ih =>
    rw [List.perm_iff_count]
    intro a
    have h1 := List.perm_iff_count.1 (ih fun e he => h e (by simp [he])) a
    have h2 := count_flatMap_update (List.range n) List.nodup_range (fun i => es.filter (fun e => f e = i))
      (fun i => (e :: es).filter (fun e => f e = i)) (f e) (by simpa using h e (by simp))
      (fun j _ hj => by simp [Ne.symm hj]) a
    simp only [List.filter_cons, decide_true, if_true, List.count_cons] at h2 ⊢
    omega

theorem groups_perm {c : StoreCfg} (hc : c.Ok) (es : List (Key × Option Data)) :
    ((groupsOf c es).flatMap (·.2)).Perm es := by
  have : (groupsOf c es).flatMap (·.2) =
      (List.range c.bundleCount).flatMap (fun i => es.filter (fun e => bundleOf c e.1 = i)) := by
    unfold groupsOf
    generalize List.range c.bundleCount = l
    induction l with
    | nil => rfl
    | cons i l ih =>
      simp only [List.map_cons, List.flatMap_cons]
      rw [List.filter_cons]
      split
      · rw [List.flatMap_cons, ih]
      · rename_i hne
        simp only [ne_eq, decide_not, Bool.not_eq_eq_eq_not, Bool.not_true, decide_eq_false_iff_not, Decidable.not_not] at hne
        rw [hne, ih]; rfl
  rw [this]
  exact flatMap_filter_perm _ _ _ fun e _ => bundleOf_lt hc e.1

theorem groups_mem {c : StoreCfg} {es : List (Key × Option Data)} {g : Group} (hg : g ∈ groupsOf c es) :
    g.1 < c.bundleCount ∧ ∀ e ∈ g.2, e ∈ es ∧ bundleOf c e.1 = g.1 := by
  unfold groupsOf at hg
  rw [List.mem_filter, List.mem_map] at hg
  obtain ⟨⟨i, hi, rfl⟩, _⟩ := hg
  refine ⟨by simpa using hi, fun e he => ?_⟩
  rw [List.mem_filter] at he
  simpa using he

theorem groups_nodup (c : StoreCfg) (es : List (Key × Option Data)) : ((groupsOf c es).map (·.1)).Nodup := by
  unfold groupsOf
  refine List.Nodup.sublist (List.filter_sublist.map _) ?_
  rw [List.map_map]
  have : (fun x : Group => x.1) ∘ (fun i => (i, es.filter (fun e => bundleOf c e.1 = i))) = id := rfl
  rw [this, List.map_id]
  exact List.nodup_range

theorem entRegs_perm {p p' : List (Key × Option Data)} (h : p.Perm p') : (entRegs p).Perm (entRegs p') :=
  h.flatMap_right _

/-- while no bundle is half updated, what bundles refer to is exactly allocated -/
theorem disk_of_alloc {c : StoreCfg} {a : KvAlloc} {pages : Nat → List Byte} {cm : Option Commit}
    {pre rest : List (Nat × Nat)} (hw : wrk cm = []) (hcp : cmp cm = [])
    (h : KvAlloc.Inv c.heap a (pre ++ (entRegs (rem cm) ++ (effRegs c pages cm ++ rest)))) : DiskPart c pages cm := by
  obtain ⟨_, d1, _⟩ := pw_app h.disj
  obtain ⟨drem, d2, x2⟩ := pw_app d1
  obtain ⟨deff, _, _⟩ := pw_app d2
  have he := eff_idle (pages := pages) hw hcp
  have mem_eff : ∀ i, i < c.bundleCount → ∀ r ∈ mapRegs (eff pages cm i), r ∈ effRegs c pages cm :=
    fun i hi r hr => mem_effRegs hi hr
  have simpAround : ∀ i r, Around c pages cm i r → r ∈ mapRegs (eff pages cm i) ∨
      ∃ e ∈ rem cm, bundleOf c e.1 = i ∧ r ∈ optRegs e.2 := by
    intro i r hr
    rcases hr with hr | hr | hr
    · left; rw [he]; exact hr
    · exact .inl hr
    · exact .inr hr
  have hs : ∀ x y, RegionDisj c.heap.pages x y → RegionDisj c.heap.pages y x := fun _ _ => RegionDisj.symm
  refine ⟨?_, ?_, ?_⟩
  · intro i j hi hj hij r r' hr hr'
    rcases simpAround i r hr with hr | ⟨e, hem, heb, hr⟩ <;> rcases simpAround j r' hr' with hr' | ⟨e', hem', heb', hr'⟩
    · exact pairwise_flatMap_ne hs deff (by simpa using hi) (by simpa using hj) hij hr hr'
    · exact hs _ _ (x2 r' (mem_entRegs hem' hr') r (by simp [mem_eff i hi r hr]))
    · exact x2 r (mem_entRegs hem hr) r' (by simp [mem_eff j hj r' hr'])
    · exact pairwise_flatMap_ne hs drem hem hem' (fun e => hij (by rw [← heb, ← heb', e])) hr hr'
  · intro i hi
    rw [← he]
    rw [effRegs, List.flatMap_def] at deff
    refine List.Pairwise.sublist (List.sublist_flatten_of_mem ?_) deff
    exact List.mem_map.2 ⟨i, List.mem_range.2 hi, rfl⟩
  · intro i hi r hr
    apply h.regs r
    rcases simpAround i r hr with hr | ⟨e, hem, _, hr⟩
    · simp [mem_eff i hi r hr]
    · simp [mem_entRegs hem hr]

theorem write_at {m : Mem} {ws : List (Nat × List Byte)} (hp : ws.Pairwise (fun a b => ∀ x, ¬ (Covers a x ∧ Covers b x)))
    {w : Nat × List Byte} (hw : w ∈ ws) {x : Nat} (hx : Covers w x) : m.writeAll ws x = m.write w.1 w.2 x := by
  obtain ⟨pre, post, rfl⟩ := List.append_of_mem hw
  rw [← writeAll_first m pre w post hp]
  apply Mem.writeAll_out
  intro u hu
  rcases covers_dec u x with h | h
  · exfalso
    rw [List.pairwise_append] at hp
    rcases List.mem_append.1 hu with hu | hu
    · exact hp.2.2 u hu w (by simp) x ⟨h, hx⟩
    · exact (List.pairwise_cons.1 hp.2.1).1 u hu x ⟨hx, h⟩
  · exact h

/-! ### Steps -/

theorem inv_commitStart {c : StoreCfg} {s : St} (h : Inv c s) (hi : s.inserting = []) (hcm : s.commit = none) :
    Inv c { s with
        com := some s.cur, cur := s.cur + 1
        commit := some ⟨s.log.tail, .started⟩
        cl := s.ul, ul := [] } := by
  obtain ⟨⟨recs, hl, e1, e2⟩, hov, hpipe, hpreps, hpage, halloc, hws, hdisk, hvals⟩ := h
  rw [hcm] at e1 hov hpage halloc hws hdisk hvals
  have hcom : s.com = none := by
    have := hov.busyIff
    cases hx : s.com with
    | none => rfl
    | some g => rw [hx] at this; simp at this
  have hcl := hov.idle hcom
  rw [hcl] at hov hpage halloc hws hvals
  simp only [openAt, hi, Option.isSome_none, Bool.false_eq_true, if_false, List.nil_append, List.append_nil] at e1
  have hend : recsEnd c.log s.log.head recs = s.log.tail := hl.holds.end_eq
  refine ⟨⟨recs, hl, ?_, ?_⟩, ?_, ?_, hpreps, ?_, ?_, ?_, ?_, ?_⟩
  · simp [openAt, e1, hi]
  · intro u hu
    simp only [openAt, Option.some.injEq] at hu
    exact ⟨recs, [], by simp, by rw [hend, hu], e1⟩
  · refine ⟨by simp [hov.split], ?_, ?_, by simp, ?_, rfl⟩
    · simp only [hov.fresh (s.cur + 1) (by omega)]; rfl
    · intro g hg
      simp only [Option.some.injEq] at hg
      subst hg
      exact ⟨by simp, hov.genCur⟩
    · intro g hg
      exact hov.fresh g (by simp only at hg; omega)
  · exact hpipe.mono fun t ht => by
      simp only [pipe, surv, List.foldl_nil, List.append_nil] at ht
      simp only [pipe]
      exact List.mem_append_left _ ht
  · exact ⟨hpage.disk, by simp [cmp], by simp [wrk], by simp [tdo, wrk, cmp], by simp [tdo, wrk, cmp], by simp [tdo],
      by simp [wrk], by simp [rem, tdo, wrk], fun k _ => rfl⟩
  · obtain ⟨rest, hal⟩ := halloc
    refine ⟨rest, hal.perm ?_⟩
    have h1 : effRegs c s.pages (some ⟨s.log.tail, .started⟩) = effRegs c s.pages none := rfl
    rw [List.perm_iff_count]
    intro a
    simp only [h1, pipe, taskRegs_append, earlyRegs, isEarly, rem, tdo, wrk, entRegs, List.count_append, List.flatMap_nil,
      List.count_nil, if_true, Bool.false_eq_true, if_false, surv, List.foldl_nil, List.nil_append]
    simp only [taskRegs, List.flatMap_nil, List.count_nil]
    omega
  · exact ⟨by simp [wrt], by simp [wrt], by simp [wrt]⟩
  · exact ⟨hdisk.apart, hdisk.pw, hdisk.ok⟩
  · refine ⟨?_, ?_, by simp [rem, tdo, wrk], by simp [isEarly], by simp [rem, tdo, wrk], ?_⟩
    · exact fun t ht => hpipe.good t (by simp [pipe, ht])
    · exact fun t ht => hpipe.val t (by simp [pipe, ht])
    · intro k hk
      simp only [Shadow, isEarly, if_true, ne_eq, Decidable.not_not] at hk
      have := hvals.tup k (by simp [Shadow, hk])
      rw [specMap_append_none hk]
      rw [List.append_nil] at this
      exact this

theorem erase_regs (l : List Task) : entRegs (l.map Task.erase) = taskRegs l := by
  simp [entRegs, taskRegs, List.flatMap_map, Task.erase]

theorem forall2_mem_right {α β : Type} {R : α → β → Prop} {l : List α} {l' : List β} (h : List.Forall₂ R l l') {b : β}
    (hb : b ∈ l') : ∃ a ∈ l, R a b := by
  induction h with
  | nil => cases hb
  | cons h1 _ ih =>
    rcases List.mem_cons.1 hb with rfl | hb
    · exact ⟨_, by simp, h1⟩
    · obtain ⟨a, ha, hr⟩ := ih hb
      exact ⟨a, by simp [ha], hr⟩

theorem forall2_keys {pages : Pages} {ws : List (Nat × List Byte)} {l l' : List (Key × Option Data)}
    (h : List.Forall₂ (Moved pages ws) l l') : l'.map (·.1) = l.map (·.1) := by
  induction h with
  | nil => rfl
  | cons h1 _ ih => rw [List.map_cons, List.map_cons, ih, h1.1]

theorem match_pw {pages : Pages} {ws : List (Nat × List Byte)} {new : List (Nat × Nat)} (h : Match pages ws new)
    (hp : new.Pairwise (RegionDisj pages)) : ws.Pairwise (fun a b => ∀ x, ¬ (Covers a x ∧ Covers b x)) := by
  have cov : ∀ (w : Nat × List Byte) (r : Nat × Nat), (w.1 = r.1 ∧ w.2.length = ceilPow2 r.2 pages.spage) →
      ∀ x, Covers w x → InRegion pages r x := by
    rintro w r ⟨e1, e2⟩ x hx
    unfold Covers at hx
    rw [e1, e2] at hx
    exact hx
  unfold Match at h
  induction h with
  | nil => exact .nil
  | @cons w r ws new h1 h2 ih =>
    rw [List.pairwise_cons] at hp ⊢
    refine ⟨fun w' hw' x hx => ?_, ih hp.2⟩
    have h2' := h2.flip
    obtain ⟨r', hr', hm⟩ := forall2_mem_right h2' hw'
    exact hp.1 r' hr' x ⟨cov w r h1 x hx.1, cov w' r' hm x hx.2⟩

theorem match_mem {pages : Pages} {ws : List (Nat × List Byte)} {new : List (Nat × Nat)} (h : Match pages ws new)
    {w : Nat × List Byte} (hw : w ∈ ws) : ∃ r ∈ new, ∀ x, Covers w x → InRegion pages r x := by
  have h2' := List.Forall₂.flip h
  obtain ⟨r', hr', e1, e2⟩ := forall2_mem_right h2' hw
  refine ⟨r', hr', fun x hx => ?_⟩
  unfold Covers at hx
  rw [e1, e2] at hx
  exact hx

theorem inv_groupPanic {c : StoreCfg} (hc : c.Ok) {s : St} (h : Inv c s) {upTo : Nat} {es : List (Key × Option Data)}
    {a' : KvAlloc} {junk : Nat → Byte} (hcm : s.commit = some ⟨upTo, .started⟩)
    (hmv : moveAll junk s.alloc es = (a', none)) :
    Inv c { s with alloc := a', commit := some ⟨upTo, .dead⟩ } := by
  obtain ⟨hlog, hov, hpipe, hpreps, hpage, halloc, hws, hdisk, hvals⟩ := h
  rw [hcm] at hlog hov hpage halloc hws hdisk hvals
  obtain ⟨rest, hal⟩ := halloc
  obtain ⟨new, hi⟩ := moveAll_none hc hal hmv
  refine ⟨hlog, hov, hpipe, hpreps, ⟨hpage.disk, hpage.comp, hpage.work, hpage.nodup, hpage.below, hpage.ents,
    hpage.wents, hpage.keys, hpage.same⟩, ⟨new ++ rest, hi.perm ?_⟩, ⟨hws.pw, hws.inside, hws.apart⟩,
    ⟨hdisk.apart, hdisk.pw, hdisk.ok⟩, ⟨hvals.good, hvals.cls, hvals.remHeap, by simp [isEarly], hvals.ents, hvals.tup⟩⟩
  have h1 : effRegs c s.pages (some ⟨upTo, .dead⟩) = effRegs c s.pages (some ⟨upTo, .started⟩) := rfl
  rw [List.perm_iff_count]
  intro a
  simp only [h1, earlyRegs, isEarly, rem, tdo, wrk, entRegs, List.count_append]
  omega

theorem inv_group {c : StoreCfg} (hc : c.Ok) {s : St} (h : Inv c s) {g upTo : Nat} {es es' : List (Key × Option Data)}
    {ws : List (Nat × List Byte)} {a' : KvAlloc} {junk : Nat → Byte} (hg : s.com = some g)
    (hcm : s.commit = some ⟨upTo, .started⟩) (hes : es.Perm (s.gens g))
    (hmv : moveAll junk s.alloc es = (a', some (es', ws))) :
    Inv c { s with alloc := a', commit := some ⟨upTo, .moving ws (groupsOf c es')⟩ } := by
  obtain ⟨hlog, hov, hpipe, hpreps, hpage, halloc, hws, hdisk, hvals⟩ := h
  rw [hcm] at hlog hov hpage halloc hws hdisk hvals
  rw [(hov.genCom g hg).2, ofEntries_erase] at hes
  obtain ⟨rest, hal⟩ := halloc
  obtain ⟨new, hi, hregs, hmatch, hf2⟩ := moveAll_spec hc hal hmv
  have hkeys := forall2_keys hf2
  have hgp := groups_perm hc es'
  have hremdef : rem (some ⟨upTo, .moving ws (groupsOf c es')⟩) = (groupsOf c es').flatMap (·.2) := by
    simp [rem, tdo, wrk]
  have hrem : (rem (some ⟨upTo, .moving ws (groupsOf c es')⟩)).Perm es' := by rw [hremdef]; exact hgp
  have hremkeys : ((rem (some ⟨upTo, .moving ws (groupsOf c es')⟩)).map (·.1)).Perm ((surv s.cl).map (·.key)) := by
    refine (hrem.map _).trans ?_
    rw [hkeys]
    refine (hes.map _).trans ?_
    rw [List.map_map]; exact .refl _
  -- every remaining entry stems from a surviving task
  have origin : ∀ e ∈ rem (some ⟨upTo, .moving ws (groupsOf c es')⟩), ∃ t ∈ surv s.cl, t.key = e.1 ∧
      lastFor s.cl e.1 = some t ∧ Moved c.heap.pages ws t.erase e := by
    intro e he
    obtain ⟨e0, he0, hm⟩ := forall2_mem_right hf2 (hrem.mem_iff.1 he)
    obtain ⟨t, ht, rfl⟩ := List.mem_map.1 (hes.mem_iff.1 he0)
    have hk : t.key = e.1 := hm.1.symm
    exact ⟨t, ht, hk, by rw [← hk]; exact mem_surv.1 ht, hm⟩
  have hal' : KvAlloc.Inv c.heap a' ((taskRegs (s.preps.map (·.task)) ++ (taskRegs (pipe s.ready s.queue s.pending
      s.log.inflight s.inserting s.ul) ++ earlyRegs (some ⟨upTo, .moving ws (groupsOf c es')⟩) s.cl)) ++
      (entRegs (rem (some ⟨upTo, .moving ws (groupsOf c es')⟩)) ++
      (effRegs c s.pages (some ⟨upTo, .moving ws (groupsOf c es')⟩) ++ rest))) := by
    refine hi.perm ?_
    have h1 : effRegs c s.pages (some ⟨upTo, .moving ws (groupsOf c es')⟩) = effRegs c s.pages (some ⟨upTo, .started⟩) := rfl
    have h2 := List.perm_iff_count.1 ((entRegs_perm hrem).trans hregs)
    have h3 := List.perm_iff_count.1 (entRegs_perm hes)
    rw [List.perm_iff_count]
    intro a
    have h2 := h2 a
    have h3 := h3 a
    rw [erase_regs] at h3
    rw [List.count_append] at h2
    have h4 : entRegs (rem (some ⟨upTo, .started⟩)) = [] := rfl
    have h5 : earlyRegs (some ⟨upTo, .started⟩) s.cl = taskRegs (surv s.cl) := rfl
    have h6 : earlyRegs (some ⟨upTo, .moving ws (groupsOf c es')⟩) s.cl = [] := rfl
    simp only [h1, h4, h5, h6, List.count_append, List.count_nil]
    omega
  have hpwnew := (pw_app hi.disj)
  have hmp := match_pw hmatch hpwnew.1
  -- writes avoid the regions of committing tasks
  have hapart : ∀ w ∈ ws, ∀ t ∈ surv s.cl, ∀ r ∈ optRegs t.op, ∀ x, Covers w x → ¬ InRegion c.heap.pages r x := by
    intro w hw t ht r hr x hx hin
    obtain ⟨r', hr', hcov⟩ := match_mem hmatch hw
    refine hpwnew.2.2 r' hr' r ?_ x ⟨hcov x hx, hin⟩
    have : r ∈ earlyRegs (some ⟨upTo, .started⟩) s.cl := by
      simp only [earlyRegs, isEarly, if_true]; exact mem_taskRegs ht hr
    simp [this]
  refine ⟨hlog, hov, hpipe, hpreps, ?_, ⟨rest, by simpa only [List.append_assoc] using hal'⟩, ?_, ?_, ?_⟩
  · refine ⟨hpage.disk, by simp [cmp], by simp [wrk], ?_, ?_, ?_, by simp [wrk], ?_, hpage.same⟩
    · simp only [tdo, wrk, cmp, List.map_nil, List.append_nil]; exact groups_nodup c es'
    · simp only [tdo, wrk, cmp, List.map_nil, List.append_nil]
      intro i hi
      obtain ⟨gr, hgr, rfl⟩ := List.mem_map.1 hi
      exact (groups_mem hgr).1
    · intro gr hgr e he
      have hb := (groups_mem hgr).2 e he
      have hem : e ∈ rem (some ⟨upTo, .moving ws (groupsOf c es')⟩) := hrem.mem_iff.2 hb.1
      obtain ⟨t, ht, hk, hl, hm⟩ := origin e hem
      have hgood := hvals.good t ht
      refine ⟨by rw [← hk]; exact hgood.key, ?_, hb.2⟩
      intro d hd
      rcases hm.2 with hm | ⟨d0, w, q1, q2, q3, q4, q5, q6⟩
      · rw [hm] at hd; exact hgood.data d hd
      · rw [q4] at hd
        simp only [Option.some.injEq] at hd
        subst hd
        have hreg : (w.1, d0.length) ∈ entRegs (rem (some ⟨upTo, .moving ws (groupsOf c es')⟩)) :=
          mem_entRegs hem (by rw [q4]; simp [optRegs, dataRegs])
        exact heap_dataOk hc (hal'.regs (w.1, d0.length) (by simp [hreg])) (by simp only; omega) (hgood.inl d0 q1)
    · exact hremkeys.nodup_iff.2 (surv_keys_nodup _)
  · refine ⟨hmp, ?_, hapart⟩
    intro w hw
    obtain ⟨r', hr', hcov⟩ := match_mem hmatch hw
    refine ⟨r', ?_, hcov⟩
    exact ((entRegs_perm hrem).trans hregs).mem_iff.2 (by simp [hr'])
  · exact disk_of_alloc (a := a') rfl rfl hal'
  · refine ⟨hvals.good, hvals.cls, ?_, ?_, ?_, ?_⟩
    · intro e he t hl n o ho
      obtain ⟨t', ht', hk, hl', hm⟩ := origin e he
      rw [hl] at hl'
      cases hl'
      rcases hm.2 with hm | ⟨d0, w, q1, _⟩
      · rw [hm]; rfl
      · simp only [Task.erase] at q1; rw [ho] at q1; cases q1
    · intro _ t ht n o ho hk
      exact absurd (hremkeys.mem_iff.2 (List.mem_map.2 ⟨t, ht, rfl⟩)) hk
    · intro e he
      obtain ⟨t, ht, hk, hl, hm⟩ := origin e he
      refine ⟨t, hl, ?_⟩
      have hval := hvals.cls t ht
      rcases hm.2 with hm | ⟨d0, w, q1, q2, q3, q4, q5, q6⟩
      · rw [hm]
        rw [← show t.op.map (valueOf s.heap) = t.val from hval]
        refine optValue_congr (pages := c.heap.pages) fun r hr x hx => ?_
        apply Mem.writeAll_out
        intro w hw
        rcases covers_dec w x with hcv | hcv
        · exact absurd hx (hapart w hw t ht r hr x hcv)
        · exact hcv
      · have hv2 : t.val = some d0 := by
          have : t.op = some (.inline d0) := q1
          unfold TaskVal at hval
          rw [this] at hval
          exact hval.symm
        rw [q4, hv2]
        simp only [Option.map_some, valueOf, Option.some.injEq, wrt]
        have hle := le_ceilPow2 d0.length c.heap.pages.spage
        have e1 : (s.heap.writeAll ws).read w.1 d0.length = (s.heap.write w.1 w.2).read w.1 d0.length :=
          read_congr fun x h1 h2 => write_at hmp q3 ⟨h1, by omega⟩
        have h3 := Mem.read_take (s.heap.write w.1 w.2) w.1 w.2.length d0.length (by omega)
        rw [Mem.read_write_same, q6] at h3
        rw [e1, ← h3]
    · intro k hk
      refine hvals.tup k ?_
      simp only [Shadow, isEarly, Bool.false_eq_true, if_false] at hk
      simp only [Shadow, isEarly, if_true, ne_eq, Decidable.not_not]
      cases hx : lastFor s.cl k with
      | none => rfl
      | some t =>
        exfalso
        apply hk
        have := lastFor_mem_surv hx
        have hkk := (lastFor_key hx).1
        exact hremkeys.mem_iff.2 (List.mem_map.2 ⟨t, this, hkk⟩)

end Kv
end Blobd
