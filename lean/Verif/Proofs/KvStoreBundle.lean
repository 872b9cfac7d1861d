import Verif.Proofs.KvStoreGroup
/-! # KV store: bundle updates keep the invariant -/
namespace Blobd
namespace Kv
open Spec KvAlloc

theorem inv_moved {c : StoreCfg} (hc : c.Ok) {s : St} (h : Inv c s) {upTo : Nat} {pre post : List (Nat × List Byte)}
    {w : Nat × List Byte} {gs : List Group} (hcm : s.commit = some ⟨upTo, .moving (pre ++ w :: post) gs⟩) :
    Inv c { s with
        heap := s.heap.write w.1 w.2
        commit := some ⟨upTo, .moving (pre ++ post) gs⟩ } := by
  obtain ⟨h1, h2⟩ := heap_stable hc h (heap' := s.heap.write w.1 w.2)
    (fun x hx => .inr ⟨upTo, _, gs, hcm, w, by simp, write_changes hx⟩)
  obtain ⟨hlog, hov, hpipe, hpreps, hpage, halloc, hws, hdisk, hvals⟩ := h
  rw [hcm] at hlog hov hpage halloc hws hdisk hvals h2
  have hsub : ∀ u ∈ pre ++ post, u ∈ pre ++ w :: post := by
    intro u hu
    rcases List.mem_append.1 hu with hu | hu <;> simp [hu]
  refine ⟨hlog, hov, h1, hpreps, ⟨hpage.disk, hpage.comp, hpage.work, hpage.nodup, hpage.below, hpage.ents, hpage.wents,
    hpage.keys, hpage.same⟩, halloc, ?_, ⟨hdisk.apart, hdisk.pw, hdisk.ok⟩, ?_⟩
  · refine ⟨?_, fun u hu => hws.inside u (hsub u hu), fun u hu => hws.apart u (hsub u hu)⟩
    exact hws.pw.sublist (by simp [wrt])
  · refine ⟨h2.good, h2.cls, h2.remHeap, h2.doneHeap, ?_, h2.tup⟩
    intro e he
    obtain ⟨t, e1, e2⟩ := hvals.ents e he
    refine ⟨t, e1, ?_⟩
    simp only [wrt] at e2 ⊢
    rw [writeAll_first _ _ _ _ hws.pw]
    exact e2

theorem inv_movedAll {c : StoreCfg} {s : St} (h : Inv c s) {upTo : Nat} {gs : List Group}
    (hcm : s.commit = some ⟨upTo, .moving [] gs⟩) :
    Inv c { s with commit := some ⟨upTo, .updating gs [] []⟩ } := by
  obtain ⟨hlog, hov, hpipe, hpreps, hpage, halloc, hws, hdisk, hvals⟩ := h
  rw [hcm] at hlog hov hpage halloc hws hdisk hvals
  exact ⟨hlog, hov, hpipe, hpreps, ⟨hpage.disk, hpage.comp, hpage.work, hpage.nodup, hpage.below, hpage.ents, hpage.wents,
    hpage.keys, hpage.same⟩, halloc, ⟨hws.pw, hws.inside, hws.apart⟩, ⟨hdisk.apart, hdisk.pw, hdisk.ok⟩,
    ⟨hvals.good, hvals.cls, hvals.remHeap, hvals.doneHeap, hvals.ents, hvals.tup⟩⟩

theorem mapRegs_perm {p p' : List (Key × Data)} (h : p.Perm p') : (mapRegs p).Perm (mapRegs p') :=
  h.flatMap_right _

theorem flatMap_perm_pointwise {α β : Type} {f g : α → List β} (l : List α) (h : ∀ a ∈ l, (f a).Perm (g a)) :
    (l.flatMap f).Perm (l.flatMap g) := by
  induction l with
  | nil => exact .refl _
  | cons a l ih =>
    rw [List.flatMap_cons, List.flatMap_cons]
    exact (h a (by simp)).append (ih fun b hb => h b (by simp [hb]))

/-- steps that only reorganise where tuples are kept -/
theorem shuffle {c : StoreCfg} {s : St} (h : Inv c s) {pages' : Nat → List Byte} {cm' : Option Commit}
    (hs1 : s.commit.isSome) (hs2 : cm'.isSome)
    (he1 : isEarly s.commit = false) (he2 : isEarly cm' = false) (hw1 : wrt s.commit = []) (hw2 : wrt cm' = [])
    (hrem : (rem cm').Perm (rem s.commit)) (heff : ∀ i, (eff pages' cm' i).Perm (eff s.pages s.commit i))
    (hdk : ∀ i, pages' i = s.pages i ∨ (bundleDeserialise (pages' i)).getD [] = eff s.pages s.commit i) :
    AllocPart c s.alloc s.preps (pipe s.ready s.queue s.pending s.log.inflight s.inserting s.ul) cm' s.cl pages' ∧
    WsPart c.heap.pages cm' s.cl ∧ DiskPart c pages' cm' ∧
    ValPart c s.heap pages' cm' s.base s.cl s.ul ∧ ((rem cm').map (·.1)).Nodup ∧
    ∀ k, lastFor s.cl k = none →
      pageGet (pages' (bundleOf c k)) k = tget (eff pages' cm' (bundleOf c k)) k := by
  obtain ⟨hlog, hov, hpipe, hpreps, hpage, halloc, hws, hdisk, hvals⟩ := h
  have htget : ∀ i k, tget (eff pages' cm' i) k = tget (eff s.pages s.commit i) k := fun i k =>
    (tget_perm (hpage.effOk i).1 (heff i).symm k).symm
  have hkeys : ((rem cm').map (·.1)).Perm ((rem s.commit).map (·.1)) := hrem.map _
  refine ⟨?_, ⟨by simp [hw2], by simp [hw2], by simp [hw2]⟩, ?_, ?_, hkeys.nodup_iff.2 hpage.keys, ?_⟩
  · obtain ⟨rest, hal⟩ := halloc
    refine ⟨rest, hal.perm ?_⟩
    have r1 := entRegs_perm hrem
    have r2 : (effRegs c pages' cm').Perm (effRegs c s.pages s.commit) :=
      flatMap_perm_pointwise _ fun i _ => mapRegs_perm (heff i)
    rw [List.perm_iff_count] at *
    intro a
    have r1 := r1 a
    have r2 := r2 a
    simp only [earlyRegs, he1, he2, Bool.false_eq_true, if_false, List.count_append, List.count_nil] at *
    omega
  · have har : ∀ i r, Around c pages' cm' i r → Around c s.pages s.commit i r := by
      intro i r hr
      rcases hr with hr | hr | ⟨e, he, hb, hr⟩
      · rcases hdk i with hd | hd
        · rw [hd] at hr; exact .inl hr
        · rw [hd] at hr; exact .inr (.inl hr)
      · exact .inr (.inl ((mapRegs_perm (heff i)).mem_iff.1 hr))
      · exact .inr (.inr ⟨e, hrem.mem_iff.1 he, hb, hr⟩)
    refine ⟨fun i j hi hj hij r r' hr hr' => hdisk.apart i j hi hj hij r r' (har i r hr) (har j r' hr'), ?_,
      fun i hi r hr => hdisk.ok i hi r (har i r hr)⟩
    intro i hi
    rcases hdk i with hd | hd
    · rw [hd]; exact hdisk.pw i hi
    · rw [hd]
      obtain ⟨rest, hal⟩ := halloc
      obtain ⟨_, d1, _⟩ := pw_app hal.disj
      obtain ⟨_, d2, _⟩ := pw_app d1
      obtain ⟨_, d3, _⟩ := pw_app d2
      obtain ⟨_, d4, _⟩ := pw_app d3
      obtain ⟨d5, _, _⟩ := pw_app d4
      rw [effRegs, List.flatMap_def] at d5
      refine List.Pairwise.sublist (List.sublist_flatten_of_mem ?_) d5
      exact List.mem_map.2 ⟨i, List.mem_range.2 hi, rfl⟩
  · refine ⟨hvals.good, hvals.cls, fun e he => hvals.remHeap e (hrem.mem_iff.1 he), ?_, ?_, ?_⟩
    · intro _ t ht n o ho hk
      exact (heff _).mem_iff.2 (hvals.doneHeap he1 t ht n o ho fun hx => hk (hkeys.mem_iff.2 hx))
    · intro e he
      obtain ⟨t, e1, e2⟩ := hvals.ents e (hrem.mem_iff.1 he)
      exact ⟨t, e1, by rw [hw2]; rw [hw1] at e2; exact e2⟩
    · intro k hk
      rw [htget]
      apply hvals.tup k
      intro hsh
      apply hk
      obtain ⟨x, hx⟩ := Option.isSome_iff_exists.1 hs1
      obtain ⟨y, hy⟩ := Option.isSome_iff_exists.1 hs2
      rw [hx] at hsh he1 hkeys
      rw [hy] at he2 hkeys ⊢
      simp only [Shadow, he1, he2, Bool.false_eq_true, if_false] at hsh ⊢
      exact hkeys.mem_iff.2 hsh
  · intro k hk
    rw [htget]
    rcases hdk (bundleOf c k) with hd | hd
    · rw [hd]; exact hpage.same k hk
    · rw [pageGet_eq, hd]

theorem inv_bundleRead {c : StoreCfg} {s : St} (h : Inv c s) {upTo i : Nat} {pre post : List Group}
    {es : List (Key × Option Data)} {work : List Work} {comp : List (Nat × List Byte)} {ts : List (Key × Data)}
    (hcm : s.commit = some ⟨upTo, .updating (pre ++ (i, es) :: post) work comp⟩)
    (hts : bundleDeserialise (s.pages i) = some ts) :
    Inv c { s with
        commit := some ⟨upTo, .updating (pre ++ post) (⟨i, collectMap ts, es⟩ :: work) comp⟩ } := by
  have hp := h.page
  rw [hcm] at hp
  have hn := hp.nodup
  simp only [tdo, wrk, cmp] at hn
  obtain ⟨n1, n2, n3, n4, n5, n6⟩ := nodup_split hn
  have hiw : i ∉ work.map (·.idx) := n4 i (by simp)
  have hic : i ∉ comp.map (·.1) := n5 i (by simp)
  obtain ⟨ts', e', hok⟩ := hp.disk i
  rw [hts] at e'
  cases e'
  have hcoll := collectMap_eq ts hok.1
  have heff : ∀ j, (eff s.pages (some ⟨upTo, .updating (pre ++ post) (⟨i, collectMap ts, es⟩ :: work) comp⟩) j).Perm
      (eff s.pages s.commit j) := by
    intro j
    rw [hcm]
    by_cases hj : j = i
    · subst hj
      rw [eff_disk (cm := some ⟨upTo, .updating (pre ++ (j, es) :: post) work comp⟩) hiw hic, hts]
      simp only [eff, wrk, List.find?_cons, decide_true, Option.getD_some, hcoll]
      exact List.reverse_perm ts
    · have hij : i ≠ j := Ne.symm hj
      simp only [eff, wrk, cmp, List.find?_cons, hij, decide_false]
      exact .refl _
  have hrem : (rem (some ⟨upTo, .updating (pre ++ post) (⟨i, collectMap ts, es⟩ :: work) comp⟩)).Perm
      (rem s.commit) := by
    rw [hcm, List.perm_iff_count]
    intro a
    simp only [rem, tdo, wrk, List.flatMap_append, List.flatMap_cons, List.count_append]
    omega
  obtain ⟨r1, r2, r3, r4, r5, r6⟩ := shuffle h (pages' := s.pages)
    (cm' := some ⟨upTo, .updating (pre ++ post) (⟨i, collectMap ts, es⟩ :: work) comp⟩)
    (by rw [hcm]; rfl) rfl (by rw [hcm]; rfl) rfl (by rw [hcm]; rfl) rfl hrem heff (fun _ => .inl rfl)
  have hlog := h.log
  have hov := h.ov
  rw [hcm] at hlog hov
  refine ⟨hlog, hov, h.pipe, h.preps, ⟨hp.disk, hp.comp, ?_, ?_, ?_, ?_, ?_, r5, r6⟩, r1, r2, r3, r4⟩
  · intro w hw
    simp only [wrk, List.mem_cons] at hw
    rcases hw with rfl | hw
    · simp only [hcoll]
      refine ⟨?_, fun t ht => hok.2 t (by simpa using ht)⟩
      rw [List.map_reverse]
      exact List.nodup_reverse.2 hok.1
    · exact hp.work w hw
  · refine (List.Perm.nodup_iff ?_).1 hn
    rw [List.perm_iff_count]
    intro a
    simp only [tdo, wrk, cmp, List.map_append, List.map_cons, List.count_append, List.count_cons]
    omega
  · intro j hj
    apply hp.below j
    simp only [tdo, wrk, cmp, List.map_append, List.map_cons, List.mem_append, List.mem_cons] at hj ⊢
    tauto
  · intro g hg
    apply hp.ents g
    simp only [tdo, List.mem_append, List.mem_cons] at hg ⊢
    tauto
  · intro w hw
    simp only [wrk, List.mem_cons] at hw
    rcases hw with rfl | hw
    · exact hp.ents (i, es) (by simp [tdo])
    · exact hp.wents w hw

theorem inv_bundleSerialise {c : StoreCfg} {s : St} (h : Inv c s) {upTo i : Nat} {todo : List Group}
    {pre post : List Work} {m order : List (Key × Data)} {comp : List (Nat × List Byte)} {page : List Byte}
    {junk : Nat → Byte}
    (hcm : s.commit = some ⟨upTo, .updating todo (pre ++ ⟨i, m, []⟩ :: post) comp⟩)
    (hord : order.Perm m) (hser : serialiseBundle (2 ^ c.heap.pages.spage) junk order = some page) :
    Inv c { s with commit := some ⟨upTo, .updating todo (pre ++ post) ((i, page) :: comp)⟩ } := by
  have hp := h.page
  rw [hcm] at hp
  have hn := hp.nodup
  simp only [tdo, wrk, cmp] at hn
  obtain ⟨n1, n2, n3, n4, n5, n6⟩ := nodup_split hn
  have hmok : MapOk c i m := hp.work ⟨i, m, []⟩ (by simp [wrk])
  have hook : MapOk c i order := ⟨(hord.map _).nodup_iff.2 hmok.1, fun t ht => hmok.2 t (hord.mem_iff.1 ht)⟩
  have hdes := (bundle_roundtrip _ junk order (fun t ht => ⟨(hook.2 t ht).1, (hook.2 t ht).2.1⟩) hser).2
  have hiw : i ∉ (pre ++ post).map (·.idx) := by
    rw [List.map_append, List.map_cons, List.nodup_middle, List.nodup_cons] at n2
    rw [List.map_append]; exact n2.1
  have heff : ∀ j, (eff s.pages (some ⟨upTo, .updating todo (pre ++ post) ((i, page) :: comp)⟩) j).Perm
      (eff s.pages s.commit j) := by
    intro j
    rw [hcm]
    by_cases hj : j = i
    · subst hj
      have e1 : eff s.pages (some ⟨upTo, .updating todo (pre ++ ⟨j, m, []⟩ :: post) comp⟩) j = m :=
        eff_work (cm := some ⟨upTo, .updating todo (pre ++ ⟨j, m, []⟩ :: post) comp⟩) (w := ⟨j, m, []⟩) n2 (by simp [wrk])
      have hfn : (pre ++ post).find? (fun w => w.idx = j) = none := by
        rw [List.find?_eq_none]
        intro w hw
        simp only [decide_eq_true_eq]
        exact fun e => hiw (List.mem_map.2 ⟨w, hw, e⟩)
      rw [e1]
      simp only [eff, wrk, cmp, hfn, List.find?_cons, decide_true, hdes, Option.getD_some]
      exact hord
    · have hij : i ≠ j := Ne.symm hj
      simp only [eff, wrk, cmp, List.find?_cons, List.find?_append, hij, decide_false]
      exact .refl _
  have hrem : (rem (some ⟨upTo, .updating todo (pre ++ post) ((i, page) :: comp)⟩)).Perm (rem s.commit) := by
    rw [hcm, List.perm_iff_count]
    intro a
    simp only [rem, tdo, wrk, List.flatMap_append, List.flatMap_cons, List.count_append, List.count_nil]
    omega
  obtain ⟨r1, r2, r3, r4, r5, r6⟩ := shuffle h (pages' := s.pages)
    (cm' := some ⟨upTo, .updating todo (pre ++ post) ((i, page) :: comp)⟩)
    (by rw [hcm]; rfl) rfl (by rw [hcm]; rfl) rfl (by rw [hcm]; rfl) rfl hrem heff (fun _ => .inl rfl)
  have hlog := h.log
  have hov := h.ov
  rw [hcm] at hlog hov
  refine ⟨hlog, hov, h.pipe, h.preps, ⟨hp.disk, ?_, ?_, ?_, ?_, hp.ents, ?_, r5, r6⟩, r1, r2, r3, r4⟩
  · intro p hpm
    simp only [cmp, List.mem_cons] at hpm
    rcases hpm with rfl | hpm
    · exact ⟨order, hdes, hook⟩
    · exact hp.comp p hpm
  · intro w hw
    apply hp.work w
    simp only [wrk, List.mem_append, List.mem_cons] at hw ⊢
    tauto
  · refine (List.Perm.nodup_iff ?_).1 hn
    rw [List.perm_iff_count]
    intro a
    simp only [tdo, wrk, cmp, List.map_append, List.map_cons, List.count_append, List.count_cons]
    omega
  · intro j hj
    apply hp.below j
    simp only [tdo, wrk, cmp, List.map_append, List.map_cons, List.mem_append, List.mem_cons] at hj ⊢
    tauto
  · intro w hw
    apply hp.wents w
    simp only [wrk, List.mem_append, List.mem_cons] at hw ⊢
    tauto

theorem inv_bundleWritten {c : StoreCfg} {s : St} (h : Inv c s) {upTo i : Nat} {todo : List Group}
    {work : List Work} {pre post : List (Nat × List Byte)} {page : List Byte}
    (hcm : s.commit = some ⟨upTo, .updating todo work (pre ++ (i, page) :: post)⟩) :
    Inv c { s with
        pages := fun j => if j = i then page else s.pages j
        commit := some ⟨upTo, .updating todo work (pre ++ post)⟩ } := by
  have hp := h.page
  rw [hcm] at hp
  have hn := hp.nodup
  simp only [tdo, wrk, cmp] at hn
  obtain ⟨n1, n2, n3, n4, n5, n6⟩ := nodup_split hn
  have hiw : i ∉ work.map (·.idx) := fun hx => n6 i hx (by simp)
  have hic : i ∉ (pre ++ post).map (·.1) := by
    rw [List.map_append, List.map_cons, List.nodup_middle, List.nodup_cons] at n3
    rw [List.map_append]; exact n3.1
  have heff : ∀ j, eff (fun j => if j = i then page else s.pages j) (some ⟨upTo, .updating todo work (pre ++ post)⟩) j =
      eff s.pages s.commit j := by
    intro j
    rw [hcm]
    by_cases hj : j = i
    · subst hj
      rw [eff_disk (cm := some ⟨upTo, .updating todo work (pre ++ post)⟩) hiw hic,
        eff_comp (cm := some ⟨upTo, .updating todo work (pre ++ (j, page) :: post)⟩) (p := (j, page)) hiw n3 (by simp [cmp])]
      simp
    · have hij : i ≠ j := Ne.symm hj
      simp only [eff, wrk, cmp, List.find?_cons, List.find?_append, hij, hj, decide_false, if_false]
  have hdes := hp.comp (i, page) (by simp [cmp])
  obtain ⟨r1, r2, r3, r4, r5, r6⟩ := shuffle h (pages' := fun j => if j = i then page else s.pages j)
    (cm' := some ⟨upTo, .updating todo work (pre ++ post)⟩)
    (by rw [hcm]; rfl) rfl (by rw [hcm]; rfl) rfl (by rw [hcm]; rfl) rfl (by rw [hcm]; exact .refl _)
    (fun j => by rw [heff]) (fun j => by
      by_cases hj : j = i
      · subst hj
        right
        rw [hcm, eff_comp (cm := some ⟨upTo, .updating todo work (pre ++ (j, page) :: post)⟩) (p := (j, page)) hiw n3
          (by simp [cmp])]
        simp
      · left; simp [hj])
  have hlog := h.log
  have hov := h.ov
  rw [hcm] at hlog hov
  refine ⟨hlog, hov, h.pipe, h.preps, ⟨?_, ?_, hp.work, ?_, ?_, hp.ents, hp.wents, r5, r6⟩, r1, r2, r3, r4⟩
  · intro j
    by_cases hj : j = i
    · subst hj; simpa using hdes
    · simpa [hj] using hp.disk j
  · intro p hpm
    apply hp.comp p
    simp only [cmp, List.mem_append, List.mem_cons] at hpm ⊢
    tauto
  · refine List.Nodup.sublist ?_ hn
    simp [tdo, wrk, cmp]
  · intro j hj
    apply hp.below j
    simp only [tdo, wrk, cmp, List.map_append, List.map_cons, List.mem_append, List.mem_cons] at hj ⊢
    tauto

/-! ### Applying one entry -/

def putEntry (m : List (Key × Data)) (e : Key × Option Data) : List (Key × Data) :=
  match e.2 with
  | none => m.filter (fun x => x.1 ≠ e.1)
  | some d => (e.1, d) :: m.filter (fun x => x.1 ≠ e.1)

theorem putEntry_regs (m : List (Key × Data)) (e : Key × Option Data) :
    mapRegs (putEntry m e) = optRegs e.2 ++ mapRegs (m.filter (fun x => x.1 ≠ e.1)) := by
  unfold putEntry
  cases e.2 with
  | none => rfl
  | some d => rfl

theorem regs_split {m : List (Key × Data)} (hn : (m.map (·.1)).Nodup) (k : Key) :
    (mapRegs m).Perm (optRegs (tget m k) ++ mapRegs (m.filter (fun x => x.1 ≠ k))) := by
  induction m with
  | nil => exact .refl _
  | cons t m ih =>
    obtain ⟨a, b⟩ := t
    rw [List.map_cons, List.nodup_cons] at hn
    rw [tget_cons]
    by_cases ha : a = k
    · subst ha
      have : m.filter (fun x => x.1 ≠ a) = m := by
        rw [List.filter_eq_self]
        intro x hx
        simp only [ne_eq, decide_eq_true_eq]
        exact fun e => hn.1 (e ▸ List.mem_map.2 ⟨x, hx, rfl⟩)
      rw [if_pos rfl, List.filter_cons, if_neg (by simp), this]
      exact .refl _
    · rw [if_neg ha, List.filter_cons, if_pos (by simp [ha])]
      have := List.perm_iff_count.1 (ih hn.2)
      rw [List.perm_iff_count]
      intro x
      have := this x
      simp only [mapRegs, List.flatMap_cons, List.count_append] at this ⊢
      omega

theorem tget_putEntry (m : List (Key × Data)) (e : Key × Option Data) (k : Key) :
    tget (putEntry m e) k = if e.1 = k then e.2 else tget m k := by
  unfold putEntry
  cases he : e.2 with
  | none =>
    simp only
    rw [tget_filter_ne]
  | some d =>
    simp only
    rw [tget_cons, tget_filter_ne]
    split <;> simp_all

theorem applyEntry_spec {c : StoreCfg} (hc : c.Ok) {a a' : KvAlloc} {m m' : List (Key × Data)} {e : Key × Option Data}
    {X : List (Nat × Nat)} (h : KvAlloc.Inv c.heap a (optRegs (tget m e.1) ++ X))
    (eq : applyEntry a m e = (a', some m')) : KvAlloc.Inv c.heap a' X ∧ m' = putEntry m e := by
  have hput : (match e.2 with
    | none => m.filter (fun x => x.1 ≠ e.1)
    | some d => (e.1, d) :: m.filter (fun x => x.1 ≠ e.1)) = putEntry m e := rfl
  have hsp := hc.spage
  unfold applyEntry at eq
  simp only at eq
  change (match tget m e.1 with
    | some (.heap size off) => match a.release off size with
      | none => (a, none)
      | some a' => (a', some (putEntry m e))
    | _ => (a, some (putEntry m e))) = _ at eq
  cases ht : tget m e.1 with
  | none =>
    rw [ht] at eq h
    simp only [Prod.mk.injEq, Option.some.injEq] at eq
    obtain ⟨rfl, rfl⟩ := eq
    exact ⟨h, rfl⟩
  | some d =>
    rw [ht] at eq h
    cases d with
    | inline d =>
      simp only [Prod.mk.injEq, Option.some.injEq] at eq
      obtain ⟨rfl, rfl⟩ := eq
      exact ⟨h, rfl⟩
    | heap n o =>
      obtain ⟨a2, e2, i2, _⟩ := KvAlloc.Inv.rel (r := (o, n)) (live := X) h (by omega) hc.lpage
      simp only at e2 eq
      rw [e2] at eq
      simp only [Prod.mk.injEq, Option.some.injEq] at eq
      obtain ⟨rfl, rfl⟩ := eq
      exact ⟨i2, rfl⟩

theorem inv_bundleEntry {c : StoreCfg} (hc : c.Ok) {s : St} (h : Inv c s) {upTo i : Nat} {todo : List Group}
    {pre post : List Work} {m m' : List (Key × Data)} {e : Key × Option Data} {es : List (Key × Option Data)}
    {comp : List (Nat × List Byte)} {a' : KvAlloc}
    (hcm : s.commit = some ⟨upTo, .updating todo (pre ++ ⟨i, m, e :: es⟩ :: post) comp⟩)
    (happ : applyEntry s.alloc m e = (a', some m')) :
    Inv c { s with
        alloc := a'
        commit := some ⟨upTo, .updating todo (pre ++ ⟨i, m', es⟩ :: post) comp⟩ } := by
  obtain ⟨hlog, hov, hpipe, hpreps, hp, halloc, hws, hdisk, hvals⟩ := h
  rw [hcm] at hlog hov hp halloc hws hdisk hvals
  have hn := hp.nodup
  simp only [tdo, wrk, cmp] at hn
  obtain ⟨n1, n2, n3, n4, n5, n6⟩ := nodup_split hn
  have hmok : MapOk c i m := hp.work ⟨i, m, e :: es⟩ (by simp [wrk])
  have heok : EntOk c i e := hp.wents ⟨i, m, e :: es⟩ (by simp [wrk]) e (by simp)
  have hilt : i < c.bundleCount := hp.below i (by simp [wrk])
  have hrem : (rem (some ⟨upTo, .updating todo (pre ++ ⟨i, m, e :: es⟩ :: post) comp⟩)).Perm
      (e :: rem (some ⟨upTo, .updating todo (pre ++ ⟨i, m', es⟩ :: post) comp⟩)) := by
    rw [List.perm_iff_count]
    intro a
    simp only [rem, tdo, wrk, List.flatMap_append, List.flatMap_cons, List.count_append, List.count_cons]
    omega
  have he1 : eff s.pages (some ⟨upTo, .updating todo (pre ++ ⟨i, m, e :: es⟩ :: post) comp⟩) i = m :=
    eff_work (cm := some ⟨upTo, .updating todo (pre ++ ⟨i, m, e :: es⟩ :: post) comp⟩) (w := ⟨i, m, e :: es⟩) n2
      (by simp [wrk])
  have he2 : eff s.pages (some ⟨upTo, .updating todo (pre ++ ⟨i, m', es⟩ :: post) comp⟩) i = m' :=
    eff_work (cm := some ⟨upTo, .updating todo (pre ++ ⟨i, m', es⟩ :: post) comp⟩) (w := ⟨i, m', es⟩)
      (by simpa [wrk] using n2) (by simp [wrk])
  have heff : ∀ j, j ≠ i → eff s.pages (some ⟨upTo, .updating todo (pre ++ ⟨i, m', es⟩ :: post) comp⟩) j =
      eff s.pages (some ⟨upTo, .updating todo (pre ++ ⟨i, m, e :: es⟩ :: post) comp⟩) j := by
    intro j hj
    have hij : i ≠ j := Ne.symm hj
    simp only [eff, wrk, cmp, List.find?_cons, List.find?_append, hij, decide_false]
  generalize hcmA : (some ⟨upTo, .updating todo (pre ++ ⟨i, m, e :: es⟩ :: post) comp⟩ : Option Commit) = A at *
  generalize hcmB : (some ⟨upTo, .updating todo (pre ++ ⟨i, m', es⟩ :: post) comp⟩ : Option Commit) = B at *
  have hEA : isEarly A = false := by rw [← hcmA]; rfl
  have hEB : isEarly B = false := by rw [← hcmB]; rfl
  have hWA : wrt A = [] := by rw [← hcmA]; rfl
  have hWB : wrt B = [] := by rw [← hcmB]; rfl
  obtain ⟨rest, hal⟩ := halloc
  have hsplit := List.perm_iff_count.1 (regs_split hmok.1 e.1)
  have hremc := List.perm_iff_count.1 (entRegs_perm hrem)
  -- the allocator
  have hmid : KvAlloc.Inv c.heap s.alloc (optRegs (tget m e.1) ++ (taskRegs (s.preps.map (·.task)) ++ (taskRegs (pipe
      s.ready s.queue s.pending s.log.inflight s.inserting s.ul) ++ (earlyRegs B s.cl ++ (entRegs (rem B) ++
      (((List.range c.bundleCount).flatMap (fun j => if j = i then mapRegs (putEntry m e) else mapRegs (eff s.pages A j)))
        ++ rest)))))) := by
    refine hal.perm ?_
    rw [List.perm_iff_count]
    intro a
    have h1 := count_flatMap_update (List.range c.bundleCount) List.nodup_range (fun j => mapRegs (eff s.pages A j))
      (fun j => if j = i then mapRegs (putEntry m e) else mapRegs (eff s.pages A j)) i (by simpa using hilt)
      (fun j _ hj => by simp only [hj, if_false]) a
    have h4 := congrArg (List.count a) (putEntry_regs m e)
    have h2 := hsplit a
    have h3 := hremc a
    generalize (List.range c.bundleCount).flatMap
      (fun j => if j = i then mapRegs (putEntry m e) else mapRegs (eff s.pages A j)) = F at h1 ⊢
    simp only [if_true, he1] at h1
    change List.count a (effRegs c s.pages A) + _ = _ at h1
    simp only [entRegs, List.flatMap_cons] at h3
    simp only [earlyRegs, hEA, hEB, Bool.false_eq_true, if_false, List.count_append, List.count_nil, entRegs]
      at h1 h2 h3 h4 ⊢
    omega
  obtain ⟨hi', hm'⟩ := applyEntry_spec hc hmid happ
  have hremA : ∀ x, x ∈ rem A ↔ x = e ∨ x ∈ rem B := fun x => by rw [hrem.mem_iff, List.mem_cons]
  have heA : e ∈ rem A := (hremA e).2 (.inl rfl)
  have hkA : (e.1 :: (rem B).map (·.1)).Nodup := by
    have := (hrem.map (·.1)).nodup_iff.1 hp.keys
    simpa using this
  rw [List.nodup_cons] at hkA
  have heffB : ∀ j, mapRegs (eff s.pages B j) = if j = i then mapRegs (putEntry m e) else mapRegs (eff s.pages A j) := by
    intro j
    by_cases hj : j = i
    · subst hj; rw [if_pos rfl, he2, hm']
    · rw [if_neg hj, heff j hj]
  have heb : bundleOf c e.1 = i := heok.2.2
  obtain ⟨te, hte, htev⟩ := hvals.ents e heA
  have htB : ∀ k, tget (eff s.pages B (bundleOf c k)) k = if e.1 = k then e.2 else tget (eff s.pages A (bundleOf c k)) k := by
    intro k
    by_cases hk : bundleOf c k = i
    · rw [hk, he2, hm', tget_putEntry, he1]
    · rw [heff _ hk, if_neg]
      intro hek
      subst hek
      exact hk heb
  have hsome : ∀ x, (x = A → A.isSome) := by intro x _; rw [← hcmA]; rfl
  refine ⟨by rw [← hcmA] at hlog; rw [← hcmB]; exact hlog, by rw [← hcmA] at hov; rw [← hcmB]; exact hov, hpipe, hpreps,
    ?_, ⟨rest, ?_⟩, ⟨by simp [hWB], by simp [hWB], by simp [hWB]⟩, ?_, ?_⟩
  · refine ⟨hp.disk, ?_, ?_, ?_, ?_, ?_, ?_, hkA.2, ?_⟩
    · have := hp.comp; rw [← hcmA] at this; rw [← hcmB]; exact this
    · intro w hw
      rw [← hcmB] at hw
      simp only [wrk, List.mem_append, List.mem_cons] at hw
      have hold : w ∈ pre ∨ w ∈ post → MapOk c w.idx w.map := by
        intro hw
        apply hp.work w
        rw [← hcmA]
        simp only [wrk, List.mem_append, List.mem_cons]
        tauto
      rcases hw with hw | rfl | hw
      · exact hold (.inl hw)
      · simp only [hm']
        refine ⟨?_, ?_⟩
        · unfold putEntry
          have hf : ((m.filter (fun x => x.1 ≠ e.1)).map (·.1)).Nodup := hmok.1.sublist (List.filter_sublist.map _)
          cases e.2 with
          | none => exact hf
          | some d =>
            simp only [List.map_cons, List.nodup_cons]
            exact ⟨by simp, hf⟩
        · intro t ht
          unfold putEntry at ht
          have hsub : t ∈ m.filter (fun x => x.1 ≠ e.1) → KeyOk t.1 ∧ DataOk t.2 ∧ bundleOf c t.1 = i :=
            fun hx => hmok.2 t (List.mem_filter.1 hx).1
          cases he3 : e.2 with
          | none => rw [he3] at ht; exact hsub ht
          | some d =>
            rw [he3] at ht
            simp only [List.mem_cons] at ht
            rcases ht with rfl | ht
            · exact ⟨heok.1, heok.2.1 d he3, heb⟩
            · exact hsub ht
      · exact hold (.inr hw)
    · rw [← hcmB]; simpa [tdo, wrk, cmp] using hn
    · have := hp.below
      rw [← hcmA] at this
      rw [← hcmB]
      simpa [tdo, wrk, cmp] using this
    · have := hp.ents; rw [← hcmA] at this; rw [← hcmB]; exact this
    · intro w hw e' he'
      rw [← hcmB] at hw
      simp only [wrk, List.mem_append, List.mem_cons] at hw
      have hold : w ∈ pre ∨ w ∈ post → EntOk c w.idx e' := by
        intro hw
        apply hp.wents w _ e' he'
        rw [← hcmA]
        simp only [wrk, List.mem_append, List.mem_cons]
        tauto
      rcases hw with hw | rfl | hw
      · exact hold (.inl hw)
      · exact hp.wents ⟨i, m, e :: es⟩ (by rw [← hcmA]; simp [wrk]) e' (List.mem_cons_of_mem _ he')
      · exact hold (.inr hw)
    · intro k hk
      rw [htB, if_neg]
      · exact hp.same k hk
      · intro hek
        rw [← hek, hte] at hk
        cases hk
  · have : effRegs c s.pages B = (List.range c.bundleCount).flatMap
        (fun j => if j = i then mapRegs (putEntry m e) else mapRegs (eff s.pages A j)) := by
      unfold effRegs
      congr 1
      funext j
      exact heffB j
    simp only
    rw [this]
    exact hi'
  · have har : ∀ j r, Around c s.pages B j r → Around c s.pages A j r := by
      intro j r hr
      rcases hr with hr | hr | ⟨e', he', hb, hr⟩
      · exact .inl hr
      · rw [heffB] at hr
        by_cases hj : j = i
        · subst hj
          rw [if_pos rfl, putEntry_regs, List.mem_append] at hr
          rcases hr with hr | hr
          · exact .inr (.inr ⟨e, heA, heb, hr⟩)
          · refine .inr (.inl ?_)
            rw [he1]
            obtain ⟨t, ht, hr⟩ := List.mem_flatMap.1 hr
            exact List.mem_flatMap.2 ⟨t, (List.mem_filter.1 ht).1, hr⟩
        · rw [if_neg hj] at hr; exact .inr (.inl hr)
      · exact .inr (.inr ⟨e', (hremA e').2 (.inr he'), hb, hr⟩)
    exact ⟨fun i j hi hj hij r r' hr hr' => hdisk.apart i j hi hj hij r r' (har i r hr) (har j r' hr'), hdisk.pw,
      fun i hi r hr => hdisk.ok i hi r (har i r hr)⟩
  · refine ⟨hvals.good, hvals.cls, fun e' he' => hvals.remHeap e' ((hremA e').2 (.inr he')), ?_, ?_, ?_⟩
    · intro _ t ht n o ho hk
      have hlast := mem_surv.1 ht
      by_cases hke : e.1 = t.key
      · have := hvals.remHeap e heA t (by rw [hke]; exact hlast) n o ho
        apply tget_mem
        rw [htB, if_pos hke, this, ho]
      · apply tget_mem
        rw [htB, if_neg hke]
        apply tget_of_mem (hp.effOk _).1
        apply hvals.doneHeap hEA t ht n o ho
        intro hx
        apply hk
        obtain ⟨x, hx1, hx2⟩ := List.mem_map.1 hx
        rcases (hremA x).1 hx1 with rfl | hx1
        · exact absurd hx2 hke
        · exact List.mem_map.2 ⟨x, hx1, hx2⟩
    · intro e' he'
      obtain ⟨t, q1, q2⟩ := hvals.ents e' ((hremA e').2 (.inr he'))
      exact ⟨t, q1, by rw [hWB]; rw [hWA] at q2; exact q2⟩
    · intro k hk
      rw [htB]
      by_cases hke : e.1 = k
      · rw [if_pos hke, ← hke, specMap_append_some hte, ← htev, hWA]
        rfl
      · rw [if_neg hke]
        apply hvals.tup k
        intro hsh
        apply hk
        obtain ⟨x, hx⟩ := Option.isSome_iff_exists.1 (hsome A rfl)
        have hBs : ∃ y, B = some y := ⟨_, hcmB.symm⟩
        obtain ⟨y, hy⟩ := hBs
        rw [hx] at hsh hEA hremA
        rw [hy] at hEB hremA ⊢
        simp only [Shadow, hEA, hEB, Bool.false_eq_true, if_false] at hsh ⊢
        obtain ⟨z, hz1, hz2⟩ := List.mem_map.1 hsh
        rcases (hremA z).1 hz1 with rfl | hz1
        · exact absurd hz2 hke
        · exact List.mem_map.2 ⟨z, hz1, hz2⟩

theorem inv_headWrite {c : StoreCfg} (hc : c.Ok) {s : St} (h : Inv c s) {upTo : Nat}
    (hcm : s.commit = some ⟨upTo, .updating [] [] []⟩) :
    Inv c { s with
        log := advanceHead s.log upTo
        commit := some ⟨upTo, .headWritten⟩ } := by
  obtain ⟨⟨recs, hl, e1, e2⟩, hov, hpipe, hpreps, hpage, halloc, hws, hdisk, hvals⟩ := h
  rw [hcm] at e1 e2 hov hpage halloc hws hdisk hvals
  obtain ⟨r1, r2, rfl, e3, e4⟩ := e2 upTo rfl
  have hadv := hl.advance hc.logOk (upTo := upTo) (k := r1.length) (by simpa using e3)
  rw [List.drop_left] at hadv
  have e5 : recTasks r2 = s.ul ++ s.inserting := by
    rw [recTasks_app, e4] at e1
    simp only [openAt, Option.isSome_some, if_true, List.append_assoc] at e1
    exact List.append_cancel_left e1
  refine ⟨⟨r2, hadv, by simpa [openAt] using e5, by simp [openAt]⟩, hov, hpipe, hpreps,
    ⟨hpage.disk, hpage.comp, hpage.work, hpage.nodup, hpage.below, hpage.ents, hpage.wents, hpage.keys, hpage.same⟩,
    halloc, ⟨hws.pw, hws.inside, hws.apart⟩, ⟨hdisk.apart, hdisk.pw, hdisk.ok⟩,
    ⟨hvals.good, hvals.cls, hvals.remHeap, hvals.doneHeap, hvals.ents, hvals.tup⟩⟩

theorem inv_commitEnd {c : StoreCfg} {s : St} (h : Inv c s) {upTo : Nat}
    (hcm : s.commit = some ⟨upTo, .headWritten⟩) :
    Inv c { s with com := none, commit := none, base := s.base ++ s.cl, cl := [] } := by
  obtain ⟨⟨recs, hl, e1, e2⟩, hov, hpipe, hpreps, hpage, halloc, hws, hdisk, hvals⟩ := h
  rw [hcm] at e1 e2 hov hpage halloc hws hdisk hvals
  refine ⟨⟨recs, hl, by simpa [openAt] using e1, by simp [openAt]⟩, ?_, hpipe, hpreps,
    ⟨hpage.disk, by simp [cmp], by simp [wrk], by simp [tdo, wrk, cmp], by simp [tdo, wrk, cmp], by simp [tdo],
      by simp [wrk], by simp [rem, tdo, wrk], fun k _ => rfl⟩, ?_,
    ⟨by simp [wrt], by simp [wrt], by simp [wrt]⟩, ⟨hdisk.apart, hdisk.pw, hdisk.ok⟩, ?_⟩
  · exact ⟨by simp [hov.split], hov.genCur, by simp, by simp, hov.fresh, rfl⟩
  · obtain ⟨rest, hal⟩ := halloc
    exact ⟨rest, hal⟩
  · refine ⟨by simp [surv], by simp [surv], by simp [rem, tdo, wrk], by simp [surv], by simp [rem, tdo, wrk], ?_⟩
    intro k _
    have := hvals.tup k (by simp [Shadow, isEarly, rem, tdo, wrk])
    rw [List.append_nil]
    exact this

end Kv
end Blobd
