import Verif.Proofs.DirectSafe2
/-! Page safety of the direct store, part 3: start-up. -/
namespace Blobd
namespace Direct
open List

variable {c : SCfg}

structure SafeInv (c : SCfg) (s : DSt) : Prop where
  N : NInv s
  R : RInv c s
  A : AInv c s
  W : WInv c s
  V : VInv s

/-- the pages start-up marks for a tuple -/
def tpg (c : SCfg) (dev : Mem) (t : Tuple) : List (Nat × Nat) :=
  (t.metaOff, t.metaPow2) :: ((tmeta dev t).map (fun m => m.dataPages c.pages)).getD []

/-- what makes start-up succeed on a list of tuples -/
structure Loadable (c : SCfg) (dev : Mem) (all : List Tuple) : Prop where
  ids : (all.map (·.id)).Nodup
  tm : ∀ t ∈ all, ∃ m, tmeta dev t = some m ∧ (calcObjectLayoutDirect c.pages m.size).isSome
  pgs : ∀ t ∈ all, ∀ a ∈ tpg c dev t, Spec.PageIn c.heap.base c.heap.heap a ∧ c.heap.pages.spage ≤ a.2 ∧ a.2 ≤ c.heap.pages.lpage
  disj : (all.flatMap (tpg c dev)).Pairwise Spec.PageDisj

theorem Loadable.perm {dev : Mem} {l l' : List Tuple} (h : Loadable c dev l) (hp : l.Perm l') : Loadable c dev l' := by
  refine ⟨((hp.map _).nodup_iff).1 h.ids, fun t ht => h.tm t (hp.mem_iff.2 ht), fun t ht => h.pgs t (hp.mem_iff.2 ht), ?_⟩
  exact ((hp.flatMap_right _).pairwise_iff (fun {a b} (h : Spec.PageDisj a b) => h.symm)).1 h.disj

theorem loadAll_ok {dev : Mem} : ∀ {order done marked : List Tuple} {l : LoadSt}, Loadable c dev (done ++ order) →
    LoadFrom dev done l → Buddy.Inv c.heap l.alloc (marked.flatMap (tpg c dev)) → marked.Subperm done →
    (l.dup = false → marked.Perm done) →
    ∃ (l' : LoadSt) (marked' : List Tuple), loadAll c dev l order = some l' ∧ Buddy.Inv c.heap l'.alloc (marked'.flatMap (tpg c dev)) ∧
      (l'.dup = false → marked'.Perm (done ++ order)) := by
  intro order
  induction order with
  | nil =>
    intro done marked l _ _ hi _ hd
    exact ⟨l, marked, rfl, hi, by simpa using hd⟩
  | cons t order ih =>
    intro done marked l hL hF hi hsub hd
    have hL' : Loadable c dev ((done ++ [t]) ++ order) := by simpa using hL
    obtain ⟨m, hm, hlay⟩ := hL.tm t (by simp)
    have htpg : tpg c dev t = (t.metaOff, t.metaPow2) :: m.dataPages c.pages := by simp [tpg, hm]
    have hnot : ∀ u ∈ done, u.id ≠ t.id := by
      intro u hu
      have := hL.ids
      rw [map_append, nodup_append] at this
      exact this.2.2 u.id (mem_map_of_mem hu) t.id (by simp)
    have hmark : ∃ a', Spec.markAll l.alloc ((t.metaOff, t.metaPow2) :: m.dataPages c.pages) = some a' ∧
        Buddy.Inv c.heap a' ((t :: marked).flatMap (tpg c dev)) := by
      have h1 : (tpg c dev t ++ marked.flatMap (tpg c dev)).Pairwise Spec.PageDisj := by
        obtain ⟨done', hp1, hs1⟩ := hsub
        have h2 : (t :: done').Sublist (t :: done) := hs1.cons_cons _
        have h3 : ((t :: done').flatMap (tpg c dev)).Pairwise Spec.PageDisj := by
          have h4 : ((t :: done ++ order).flatMap (tpg c dev)).Pairwise Spec.PageDisj := by
            refine ((Perm.flatMap_right _ ?_).pairwise_iff (fun {a b} (h : Spec.PageDisj a b) => h.symm)).1 hL.disj
            exact perm_middle
          refine h4.sublist (Sublist.flatMap ?_ _)
          exact h2.trans (sublist_append_left _ _)
        rw [← flatMap_cons]
        exact ((Perm.flatMap_right _ (hp1.cons t)).pairwise_iff (fun {a b} (h : Spec.PageDisj a b) => h.symm)).1 h3
      obtain ⟨a', e1, e2⟩ := markAll_inv hi (hL.pgs t (by simp)) h1
      rw [htpg] at e1
      exact ⟨a', e1, by rw [flatMap_cons]; exact e2⟩
    obtain ⟨a', hma, hia⟩ := hmark
    have hsub' : (t :: marked).Subperm (done ++ [t]) := by
      refine ((subperm_cons t).2 hsub).trans ?_
      exact (perm_append_singleton t done).symm.subperm
    have hskip : marked.Subperm (done ++ [t]) := hsub.trans (sublist_append_left _ _).subperm
    have hperm : marked.Perm done → (t :: marked).Perm (done ++ [t]) := fun h =>
      (h.cons t).trans (perm_append_singleton t done).symm
    have hF' : LoadFrom dev (done ++ [t]) l := by
      refine ⟨?_, ?_⟩
      · intro id o ho; obtain ⟨u, hu, h⟩ := hF.inc id o ho; exact ⟨u, mem_append_left _ hu, h⟩
      · intro k o ho; obtain ⟨u, hu, h⟩ := hF.com k o ho; exact ⟨u, mem_append_left _ hu, h⟩
    rw [show done ++ t :: order = (done ++ [t]) ++ order by simp]
    have hone : ∃ l1, loadOne c dev l t = some l1 ∧ ((l1.alloc = a' ∧ l1.dup = l.dup) ∨ (l1.dup = true ∧ (l1.alloc = l.alloc ∨ l1.alloc = a'))) := by
      obtain ⟨lay, hlay⟩ := Option.isSome_iff_exists.1 hlay
      have hm' : Meta.dec (dev.read t.metaOff (2 ^ t.metaPow2)) = some m := hm
      simp only [loadOne, hm', hlay, hma]
      cases hst : t.state with
      | incomplete =>
        have : l.incomplete t.id = none := by
          by_contra hne
          obtain ⟨o, ho⟩ := Option.ne_none_iff_exists'.1 hne
          obtain ⟨u, hu, _, hui, _⟩ := hF.inc _ _ ho
          exact hnot u hu hui
        simp only [this, Option.isSome_none, Bool.false_eq_true, if_false]
        exact ⟨_, rfl, Or.inl ⟨rfl, rfl⟩⟩
      | committed =>
        simp only
        cases hcm : l.committed m.key with
        | none => exact ⟨_, rfl, Or.inl ⟨rfl, rfl⟩⟩
        | some e =>
          obtain ⟨u, hu, _, hui, _⟩ := hF.com _ _ hcm
          have hne : e.id ≠ t.id := by rw [← hui]; exact hnot u hu
          simp only [if_neg hne]
          by_cases hgt : e.id > t.id
          · rw [if_pos hgt]; exact ⟨_, rfl, Or.inr ⟨rfl, Or.inl rfl⟩⟩
          · rw [if_neg hgt]; exact ⟨_, rfl, Or.inr ⟨rfl, Or.inr rfl⟩⟩
    obtain ⟨l1, h1, hcase⟩ := hone
    have hF1 : LoadFrom dev (done ++ [t]) l1 := loadFrom_one hF' (by simp) h1
    rw [loadAll_cons, h1, Option.bind_some]
    rcases hcase with ⟨e1, e2⟩ | ⟨e1, e2 | e2⟩
    · exact ih (marked := t :: marked) hL' hF1 (by rw [e1]; exact hia) hsub' (by rw [e2]; exact fun h => hperm (hd h))
    · exact ih (marked := marked) hL' hF1 (by rw [e2]; exact hi) hskip (by rw [e1]; simp)
    · exact ih (marked := t :: marked) hL' hF1 (by rw [e2]; exact hia) hsub' (by rw [e1]; simp)

/-- every tuple on the device has a record, and its metadata is intact -/
theorem disk_rec {s : DSt} (h : SafeInv c s) {b : Nat} {t : Tuple} (ht : t ∈ s.ts.disk b) :
    ∃ m st, s.names t.id = some (t.metaOff, m) ∧ (st = .live b ∨ st = .dying b) ∧ ⟨t.metaOff, t.metaPow2, m, st⟩ ∈ s.recs ∧
      tmeta s.dev t = some m ∧ (calcObjectLayoutDirect c.pages m.size).isSome ∧ tpg c s.dev t = objPages c t.metaOff t.metaPow2 m := by
  obtain ⟨m, h1, h2 | ⟨_, h2⟩⟩ := (h.R.disk b).tup t ht
  · have h3 : tmeta s.dev t = some m := h.V.dev _ h2 (by simp)
    exact ⟨m, _, h1, Or.inl rfl, h2, h3, h.A.lay _ h2, by simp [tpg, h3, objPages]⟩
  · have h3 : tmeta s.dev t = some m := h.V.dev _ h2 (by simp)
    exact ⟨m, _, h1, Or.inr rfl, h2, h3, h.A.lay _ h2, by simp [tpg, h3, objPages]⟩

theorem disk_off_inj {s : DSt} (h : SafeInv c s) {b b' : Nat} {t t' : Tuple} (ht : t ∈ s.ts.disk b) (ht' : t' ∈ s.ts.disk b')
    (he : t.metaOff = t'.metaOff) : b = b' ∧ t = t' := by
  obtain ⟨m, st, _, h1, h2, _⟩ := disk_rec h ht
  obtain ⟨m', st', _, h1', h2', _⟩ := disk_rec h ht'
  have := rec_uniq h.R.nd h2 h2' he
  simp only [Rec.mk.injEq] at this
  have hb : b = b' := by
    have e := this.2.2.2
    rcases h1 with rfl | rfl <;> rcases h1' with rfl | rfl <;> simp_all
  subst hb
  exact ⟨rfl, inj_on_of_nodup_map (h.R.disk b).nd ht ht' he⟩

theorem disk_off_nodup {s : DSt} (h : SafeInv c s) : ((diskTuples c.n s.ts).map (·.metaOff)).Nodup := by
  simp only [diskTuples, map_flatMap]
  rw [nodup_flatMap]
  refine ⟨fun b _ => (h.R.disk b).nd, ?_⟩
  refine nodup_range.imp ?_
  intro b b' hbb x hx hx'
  obtain ⟨t, ht, rfl⟩ := mem_map.1 hx
  obtain ⟨t', ht', he⟩ := mem_map.1 hx'
  exact hbb (disk_off_inj h ht ht' he.symm).1

theorem disk_newOk {s : DSt} (hT : TInv c.max c.n s.ts) (h : SafeInv c s) : TS.newOk c.max c.n s.ts.disk := by
  have hid : ∀ {b b' : Nat} {t t' : Tuple}, t ∈ s.ts.disk b → t' ∈ s.ts.disk b' → t.id = t'.id → t.metaOff = t'.metaOff := by
    intro b b' t t' ht ht' he
    obtain ⟨m, _, h1, _⟩ := disk_rec h ht
    obtain ⟨m', _, h1', _⟩ := disk_rec h ht'
    rw [he, h1'] at h1
    simp only [Option.some.injEq, Prod.mk.injEq] at h1
    exact h1.1.symm
  refine ⟨fun b _ => (h.R.disk b).len, fun b hb => (hT.out b hb).2, ?_, ?_⟩
  · intro b _
    have h1 := (h.R.disk b).nd
    rw [Nodup, pairwise_map] at h1 ⊢
    refine h1.imp_of_mem ?_
    intro t u ht hu hne he
    exact hne (hid ht hu he)
  · intro b b' _ _ hbb t ht u hu he
    exact hbb (disk_off_inj h ht hu (hid ht hu he)).1

theorem disk_loadable {s : DSt} (hT : TInv c.max c.n s.ts) (h : SafeInv c s) : Loadable c s.dev (diskTuples c.n s.ts) := by
  have hok := disk_newOk hT h
  obtain ⟨lk, hi⟩ := h.A.alloc
  have hsub : ∀ t ∈ diskTuples c.n s.ts, ∃ r ∈ s.recs, tpg c s.dev t = regs c r ∧ r.mo = t.metaOff := by
    intro t ht
    obtain ⟨b, _, hb⟩ := mem_diskTuples.1 ht
    obtain ⟨m, st, _, _, h2, _, _, h3⟩ := disk_rec h hb
    exact ⟨_, h2, h3, rfl⟩
  refine ⟨?_, ?_, ?_, ?_⟩
  · have h1 := disk_off_nodup h
    rw [Nodup, pairwise_map] at h1 ⊢
    refine h1.imp_of_mem ?_
    intro t u ht hu hne he
    obtain ⟨b, hbn, hb⟩ := mem_diskTuples.1 ht
    obtain ⟨b', hbn', hb'⟩ := mem_diskTuples.1 hu
    exact hne (by rw [disk_id_inj hok ⟨b, hbn, hb⟩ ⟨b', hbn', hb'⟩ he])
  · intro t ht
    obtain ⟨b, _, hb⟩ := mem_diskTuples.1 ht
    obtain ⟨m, st, _, _, _, h2, h3, _⟩ := disk_rec h hb
    exact ⟨m, h2, h3⟩
  · intro t ht a ha
    obtain ⟨r, hr, he, _⟩ := hsub t ht
    rw [he] at ha
    exact hi.pgs a (mem_append_left _ (mem_flatMap.2 ⟨r, hr, ha⟩))
  · rw [pairwise_flatMap]
    constructor
    · intro t ht
      obtain ⟨r, hr, he, _⟩ := hsub t ht
      rw [he]
      exact (pairwise_flatMap.1 h.A.disj).1 r hr
    · have h1 := disk_off_nodup h
      rw [Nodup, pairwise_map] at h1
      refine h1.imp_of_mem ?_
      intro t u ht hu hne x hx y hy
      obtain ⟨r, hr, he, hmo⟩ := hsub t ht
      obtain ⟨r', hr', he', hmo'⟩ := hsub u hu
      rw [he] at hx
      rw [he'] at hy
      refine h.A.recs_disj hr hr' hx hy (Or.inl ?_)
      rintro rfl
      exact hne (hmo.symm.trans hmo')

/-- start-up never panics, whatever the order in which it reads the tuples -/
theorem load_ok {s : DSt} (hT : TInv c.max c.n s.ts) (h : SafeInv c s) {order : List Tuple}
    (hp : order.Perm (diskTuples c.n s.ts)) {a0 : Buddy}
    (h0 : Buddy.new c.heap.pageNumBits c.heap.base c.heap.heap c.heap.pages c.heap.dir = some a0) :
    ∃ (l : LoadSt) (marked : List Tuple), loadAll c s.dev ⟨a0, fun _ => none, fun _ => none, false⟩ order = some l ∧
      Buddy.Inv c.heap l.alloc (marked.flatMap (tpg c s.dev)) ∧ (l.dup = false → marked.Perm order) := by
  have hL := (disk_loadable hT h).perm hp.symm
  obtain ⟨l, marked, h1, h2, h3⟩ := loadAll_ok (order := order) (done := []) (marked := [])
    (l := ⟨a0, fun _ => none, fun _ => none, false⟩) (by simpa using hL) ⟨by simp, by simp⟩ (by simpa using Buddy.new_inv h0)
    (by simp) (by simp)
  exact ⟨l, marked, h1, h2, by simpa using h3⟩

/-! ## The records after a restart -/

theorem mem_diskRecs {s : DSt} {r : Rec} : r ∈ diskRecs c.n s.dev s.ts ↔
    ∃ b, b < c.n ∧ ∃ t ∈ s.ts.disk b, ∃ m, tmeta s.dev t = some m ∧ r = ⟨t.metaOff, t.metaPow2, m, .live b⟩ := by
  simp only [diskRecs, mem_flatMap, mem_range, mem_filterMap, Option.map_eq_some_iff]
  constructor
  · rintro ⟨b, hb, t, ht, m, hm, rfl⟩; exact ⟨b, hb, t, ht, m, hm, rfl⟩
  · rintro ⟨b, hb, t, ht, m, hm, rfl⟩; exact ⟨b, hb, t, ht, m, hm, rfl⟩

theorem filterMap_total {α β : Type} {f : α → Option β} {γ : Type} {g : β → γ} {h : α → γ} {l : List α}
    (hf : ∀ a ∈ l, ∃ b, f a = some b ∧ g b = h a) : (l.filterMap f).map g = l.map h := by
  induction l with
  | nil => rfl
  | cons a l ih =>
    obtain ⟨b, h1, h2⟩ := hf a mem_cons_self
    rw [filterMap_cons, h1]
    simp only [map_cons, h2, ih (fun a ha => hf a (mem_cons_of_mem _ ha))]

theorem diskRecs_map {s : DSt} {γ : Type} {g : Rec → γ} {h : Tuple → γ}
    (hf : ∀ b, ∀ t ∈ s.ts.disk b, ∃ m, tmeta s.dev t = some m ∧ g ⟨t.metaOff, t.metaPow2, m, .live b⟩ = h t) :
    (diskRecs c.n s.dev s.ts).map g = (diskTuples c.n s.ts).map h := by
  simp only [diskRecs, diskTuples, map_flatMap]
  congr 1
  funext b
  refine filterMap_total fun t ht => ?_
  obtain ⟨m, h1, h2⟩ := hf b t ht
  refine ⟨_, ?_, h2⟩
  have h3 : Meta.dec (s.dev.read t.metaOff (2 ^ t.metaPow2)) = some m := h1
  rw [h3]; rfl

theorem safe_load {s s' : DSt} (hT : TInv c.max c.n s.ts) (h : SafeInv c s) {order : List Tuple}
    (hp : order.Perm (diskTuples c.n s.ts)) (hl : load c s order = some s') (hd : .duplicateKey ∉ s'.faults) :
    SafeInv c s' := by
  obtain ⟨a0, l, h0, h1, hok, rfl⟩ := load_some hl
  obtain ⟨l2, marked, h2, hinv, hperm⟩ := load_ok hT h hp h0
  rw [h1] at h2
  cases h2
  have hdup : l.dup = false := by
    cases e : l.dup with
    | false => rfl
    | true => simp [e] at hd
  have hlf := loadFrom_all h1
  have hord : ∀ t ∈ order, ∃ b, b < c.n ∧ t ∈ s.ts.disk b := fun t ht => mem_diskTuples.1 (hp.mem_iff.1 ht)
  have hname : ∀ t ∈ order, ∀ m, tmeta s.dev t = some m → s.names t.id = some (t.metaOff, m) := by
    intro t ht m hm
    obtain ⟨b, _, hb⟩ := hord t ht
    obtain ⟨m', _, e1, _, _, e2, _⟩ := disk_rec h hb
    rw [hm] at e2; cases e2; exact e1
  have himg : ∀ b dy, ImgOk c.max s.names (diskRecs c.n s.dev s.ts) b dy (s.ts.disk b) := by
    intro b dy
    refine ⟨(h.R.disk b).len, (h.R.disk b).nd, ?_⟩
    intro t ht
    obtain ⟨m, _, e1, _, _, e2, _⟩ := disk_rec h ht
    refine ⟨m, e1, Or.inl (mem_diskRecs.2 ⟨b, ?_, t, ht, m, e2, rfl⟩)⟩
    by_contra hb
    rw [(hT.out b (by omega)).2] at ht
    simp at ht
  refine ⟨⟨?_, ?_, by simp, by simp, by simp⟩, ⟨?_, fun b => himg b false, by simp [TS.inflight, TS.new], fun b => himg b true, by simp, by simp⟩,
    ⟨⟨[], ?_⟩, ?_, by simp⟩, ⟨by simp, by simp, rfl⟩, ⟨?_, by simp⟩⟩
  · intro id o ho
    obtain ⟨t, ht, _, e1, e2, e3⟩ := hlf.inc id o ho
    exact ⟨t.metaOff, by rw [e2, ← e1]; exact hname t ht _ e3⟩
  · intro k o ho
    obtain ⟨t, ht, _, e1, e3, _⟩ := hlf.com k o ho
    exact ⟨t.metaOff, by rw [← e1]; exact hname t ht _ e3⟩
  · show ((diskRecs c.n s.dev s.ts).map (·.mo)).Nodup
    rw [diskRecs_map (h := fun t => t.metaOff)]
    · exact disk_off_nodup h
    · intro b t ht
      obtain ⟨m, _, _, _, _, e2, _⟩ := disk_rec h ht
      exact ⟨m, e2, rfl⟩
  · have e : (diskRecs c.n s.dev s.ts).flatMap (regs c) = (diskTuples c.n s.ts).flatMap (tpg c s.dev) := by
      rw [flatMap_def, flatMap_def, diskRecs_map (h := tpg c s.dev)]
      intro b t ht
      obtain ⟨m, _, _, _, _, e2, _, e3⟩ := disk_rec h ht
      exact ⟨m, e2, e3.symm⟩
    simp only [flatMap_nil, nil_append, append_nil]
    rw [e]
    exact hinv.perm (((hperm hdup).trans hp).flatMap_right _)
  · intro r hr
    obtain ⟨b, _, t, ht, m, hm, rfl⟩ := mem_diskRecs.1 hr
    obtain ⟨m', _, _, _, _, e2, e3, _⟩ := disk_rec h ht
    rw [hm] at e2; cases e2; exact e3
  · intro r hr _
    obtain ⟨b, _, t, ht, m, hm, rfl⟩ := mem_diskRecs.1 hr
    exact hm

theorem safe_fresh {dev : Mem} {s : DSt} (h : fresh c dev = some s) : SafeInv c s := by
  unfold fresh at h
  split at h
  · simp at h
  · rename_i a0 h0
    cases h
    refine ⟨⟨by simp, by simp, by simp, by simp, by simp⟩, ⟨by simp, fun b => ⟨by simp [TS.new], by simp [TS.new], by simp [TS.new]⟩,
      by simp [TS.inflight, TS.new], fun b => ⟨by simp [TS.new], by simp [TS.new], by simp [TS.new]⟩, by simp, by simp⟩,
      ⟨⟨[], by simpa using Buddy.new_inv h0⟩, by simp, by simp⟩, ⟨by simp, by simp, rfl⟩, ⟨by simp, by simp⟩⟩

/-- faults are never forgotten -/
theorem faults_step {s s' : DSt} (hs : Step c s s') : ∀ f ∈ s.faults, f ∈ s'.faults := by
  intro f hf
  cases hs <;> first | exact hf | exact mem_append_right _ hf | exact mem_cons_of_mem _ hf

theorem faults_load {s s' : DSt} {order : List Tuple} (hl : load c s order = some s') : ∀ f ∈ s.faults, f ∈ s'.faults := by
  intro f hf
  obtain ⟨a0, l, _, _, _, rfl⟩ := load_some hl
  exact mem_append_right _ hf

theorem safe_step (hc : c.Ok) {s s' : DSt} (hr : Reach c s) (h : SafeInv c s) (hs : Step c s s')
    (h1 : .largeMetadata ∉ s'.faults) (h2 : .writeCancelled ∉ s'.faults) : SafeInv c s' :=
  ⟨nInv_step (reach_id hr) h.N hs, rInv_step hc (reach_t hr).1 (reach_t hr).2 (reach_k hr) h.N h.A h.R hs,
    aInv_step hc h.R h.A hs h1, wInv_step (reach_id hr) h.N h.W hs h2,
    vInv_step hc (reach_k hr) h.R h.A h.W h.V hs h1 h2⟩

theorem reach_safe (hc : c.Ok) {s : DSt} (hr : Reach c s) (h1 : .largeMetadata ∉ s.faults)
    (h2 : .duplicateKey ∉ s.faults) (h3 : .writeCancelled ∉ s.faults) : SafeInv c s := by
  induction hr with
  | fresh h => exact safe_fresh h
  | step hr hs ih =>
    exact safe_step hc hr (ih (fun h => h1 (faults_step hs _ h)) (fun h => h2 (faults_step hs _ h))
      (fun h => h3 (faults_step hs _ h))) hs h1 h3
  | restart order hr hp hl ih =>
    exact safe_load (reach_t hr).1 (ih (fun h => h1 (faults_load hl _ h)) (fun h => h2 (faults_load hl _ h))
      (fun h => h3 (faults_load hl _ h))) hp hl h2

end Direct
end Blobd
