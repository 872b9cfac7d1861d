import Verif.Spec.KvMetrics
import Verif.Proofs.KvSpace
/-! # KV store: what the counters show -/
set_option autoImplicit false
namespace Blobd
namespace Kv
open Spec KvAlloc

variable {c : StoreCfg} {s s' : St} {m m' : Metrics}

/-! ### Which counters a step changes -/

theorem left_mid (upTo : Nat) (todo : List Group) (pre post : List Work) (w : Work) (comp : List (Nat × List Byte)) :
    left (some ⟨upTo, .updating todo (pre ++ w :: post) comp⟩) =
      w.rest.length + left (some ⟨upTo, .updating todo (pre ++ post) comp⟩) := by
  simp only [left, List.map_append, List.map_cons, List.sum_append, List.sum_cons]
  omega

theorem quiet_of (h : Count s s' m m') (h1 : s'.preps.length ≤ s.preps.length) (h2 : s.ready.length ≤ s'.ready.length)
    (h3 : ∀ t, s'.applied = s.applied ++ [t] → t.op ≠ none) (h4 : ungrouped s.commit = true → ungrouped s'.commit = true)
    (h5 : left s.commit ≤ left s'.commit) : m' = m := by
  cases h with
  | prepared e _ => rw [e, List.length_append, List.length_singleton] at h1; omega
  | sent e e' _ => rw [e, e', List.length_append, List.length_append, List.length_cons] at h2; omega
  | deleted e e' => exact absurd e' (h3 _ e)
  | grouped _ e e' => rw [e, e'] at h4; cases h4 rfl
  | groupPanicked _ e e' _ => rw [e, e'] at h4; cases h4 rfl
  | entered e e' => rw [e, e', left_mid, left_mid] at h5; simp only [List.length_cons] at h5; omega
  | entryPanicked e e' => rw [e, e', left_mid] at h5; simp only [List.length_cons] at h5; omega
  | quiet => rfl

theorem prepared_of (h : Count s s' m m') {p : Prep} {size off : Nat} (h1 : s'.preps = s.preps ++ [p])
    (h1' : p.task.op = some (.heap size off)) (h2 : s'.ready = s.ready)
    (h3 : s'.applied = s.applied) (h4 : s'.commit = s.commit) : m' = m.onHeap size := by
  cases h with
  | prepared e e' =>
    rw [h1] at e
    have := List.append_cancel_left e
    simp only [List.cons.injEq, and_true] at this
    subst this
    rw [h1'] at e'
    cases e'
    rfl
  | sent e e' _ => rw [h2, e] at e'; have := congrArg List.length e'; simp at this
  | deleted e e' => rw [h3] at e; simp at e
  | grouped _ e e' => rw [h4, e] at e'; cases e'
  | groupPanicked _ e e' _ => rw [h4, e] at e'; cases e'
  | entered e e' =>
    rw [h4, e] at e'
    have := congrArg left e'
    rw [left_mid, left_mid] at this; simp only [List.length_cons] at this; omega
  | entryPanicked e e' =>
    rw [h4, e] at e'
    have := congrArg left e'
    rw [left_mid] at this; simp only [List.length_cons] at this; omega
  | quiet e => rw [h1, List.length_append, List.length_singleton] at e; omega

theorem sent_of (h : Count s s' m m') (h1 : s'.preps = s.preps) {pre post : List Task} {t : Task} (h2 : s.ready = pre ++ t :: post)
    (h2' : s'.ready = pre ++ post) (h3 : s'.applied = s.applied) (h4 : s'.commit = s.commit) : m' = m.onWrite := by
  cases h with
  | prepared e _ => rw [h1] at e; simp at e
  | sent e e' _ => rfl
  | deleted e e' => rw [h3] at e; simp at e
  | grouped _ e e' => rw [h4, e] at e'; cases e'
  | groupPanicked _ e e' _ => rw [h4, e] at e'; cases e'
  | entered e e' =>
    rw [h4, e] at e'
    have := congrArg left e'
    rw [left_mid, left_mid] at this; simp only [List.length_cons] at this; omega
  | entryPanicked e e' =>
    rw [h4, e] at e'
    have := congrArg left e'
    rw [left_mid] at this; simp only [List.length_cons] at this; omega
  | quiet _ e => rw [h2, h2', List.length_append, List.length_append, List.length_cons] at e; omega

theorem deleted_of (h : Count s s' m m') (h1 : s'.preps = s.preps) (h2 : s'.ready = s.ready) {t : Task}
    (h3 : s'.applied = s.applied ++ [t]) (h3' : t.op = none) (h4 : s'.commit = s.commit) : m' = m.onDelete := by
  cases h with
  | prepared e _ => rw [h1] at e; simp at e
  | sent e e' _ => rw [h2, e] at e'; have := congrArg List.length e'; simp at this
  | deleted e e' => rfl
  | grouped _ e e' => rw [h4, e] at e'; cases e'
  | groupPanicked _ e e' _ => rw [h4, e] at e'; cases e'
  | entered e e' =>
    rw [h4, e] at e'
    have := congrArg left e'
    rw [left_mid, left_mid] at this; simp only [List.length_cons] at this; omega
  | entryPanicked e e' =>
    rw [h4, e] at e'
    have := congrArg left e'
    rw [left_mid] at this; simp only [List.length_cons] at this; omega
  | quiet _ _ e => exact absurd h3' (e _ h3)

theorem grouped_of (h : Count s s' m m') (h1 : s'.preps = s.preps) (h2 : s'.ready = s.ready) (h3 : s'.applied = s.applied)
    {g upTo : Nat} {ws : List (Nat × List Byte)} {gs : List Group} (h4 : s.com = some g) (h5 : s.commit = some ⟨upTo, .started⟩)
    (h6 : s'.commit = some ⟨upTo, .moving ws gs⟩) : m' = m.onHeap ((s.gens g).map movedLen).sum := by
  cases h with
  | prepared e _ => rw [h1] at e; simp at e
  | sent e e' _ => rw [h2, e] at e'; have := congrArg List.length e'; simp at this
  | deleted e e' => rw [h3] at e; simp at e
  | grouped e1 e e' => rw [h4] at e1; cases e1; rfl
  | groupPanicked _ e e' _ => rw [h6] at e'; cases e'
  | entered e e' => rw [h5] at e; cases e
  | entryPanicked e e' => rw [h5] at e; cases e
  | quiet _ _ _ e => rw [h5, h6] at e; cases e rfl

theorem groupPanicked_of (h : Count s s' m m') (h1 : s'.preps = s.preps) (h2 : s'.ready = s.ready) (h3 : s'.applied = s.applied)
    {g upTo : Nat} (h4 : s.com = some g) (h5 : s.commit = some ⟨upTo, .started⟩)
    (h6 : s'.commit = some ⟨upTo, .dead⟩) : ∃ n : Nat, m' = m.onHeap n := by
  cases h with
  | prepared e _ => rw [h1] at e; simp at e
  | sent e e' _ => rw [h2, e] at e'; have := congrArg List.length e'; simp at this
  | deleted e e' => rw [h3] at e; simp at e
  | grouped e1 e e' => rw [h6] at e'; cases e'
  | groupPanicked _ e e' _ => exact ⟨_, rfl⟩
  | entered e e' => rw [h5] at e; cases e
  | entryPanicked e e' => rw [h5] at e; cases e
  | quiet _ _ _ e => rw [h5, h6] at e; cases e rfl

theorem mid_inj {upTo upTo' : Nat} {todo todo' : List Group} {pre post pre' post' : List Work} {w w1 w' w1' : Work}
    {comp comp' : List (Nat × List Byte)} 
    (h1 : (some ⟨upTo, .updating todo (pre ++ w :: post) comp⟩ : Option Commit) = some ⟨upTo', .updating todo' (pre' ++ w' :: post') comp'⟩)
    (h2 : (some ⟨upTo, .updating todo (pre ++ w1 :: post) comp⟩ : Option Commit) = some ⟨upTo', .updating todo' (pre' ++ w1' :: post') comp'⟩)
    (hr : w1'.rest.length ≠ w'.rest.length) : w = w' := by
  simp only [Option.some.injEq, Commit.mk.injEq, Phase.updating.injEq] at h1 h2
  obtain ⟨_, _, h1, _⟩ := h1
  obtain ⟨_, _, h2, _⟩ := h2
  rw [List.append_eq_append_iff] at h1 h2
  rcases h1 with ⟨a, ha, hb⟩ | ⟨a, ha, hb⟩
  · cases a with
    | nil => simp only [List.nil_append, List.cons.injEq] at hb; exact hb.1
    | cons x a =>
      exfalso
      simp only [List.cons_append, List.cons.injEq] at hb
      obtain ⟨rfl, hb⟩ := hb
      subst ha
      rcases h2 with ⟨b, hb1, hb2⟩ | ⟨b, hb1, hb2⟩
      · have := List.append_cancel_left hb1
        subst this
        simp only [List.cons_append, List.cons.injEq] at hb2
        obtain ⟨_, hb2⟩ := hb2
        rw [hb2] at hb
        have := List.append_cancel_left hb
        simp only [List.cons.injEq, and_true] at this
        exact hr (congrArg (fun w => w.rest.length) this)
      · have := congrArg List.length hb1
        simp at this
  · cases a with
    | nil => simp only [List.nil_append, List.cons.injEq] at hb; exact hb.1.symm
    | cons x a =>
      exfalso
      simp only [List.cons_append, List.cons.injEq] at hb
      obtain ⟨rfl, hb⟩ := hb
      subst ha
      rcases h2 with ⟨b, hb1, hb2⟩ | ⟨b, hb1, hb2⟩
      · have := congrArg List.length hb1
        simp at this
      · have := List.append_cancel_left hb1
        subst this
        simp only [List.cons_append, List.cons.injEq] at hb2
        exact hr (congrArg (fun w => w.rest.length) hb2.1)

theorem entered_of (h : Count s s' m m') (h1 : s'.preps = s.preps) (h2 : s'.ready = s.ready) (h3 : s'.applied = s.applied)
    {upTo i : Nat} {todo : List Group} {pre post : List Work} {mp mp' : List (Key × Data)}
    {e : Key × Option Data} {es : List (Key × Option Data)} {comp : List (Nat × List Byte)}
    (h4 : s.commit = some ⟨upTo, .updating todo (pre ++ ⟨i, mp, e :: es⟩ :: post) comp⟩)
    (h5 : s'.commit = some ⟨upTo, .updating todo (pre ++ ⟨i, mp', es⟩ :: post) comp⟩) :
    m' = (m.onEntry (oldTuple mp e.1) e.2).onReleased (oldTuple mp e.1) := by
  cases h with
  | prepared e _ => rw [h1] at e; simp at e
  | sent e e' _ => rw [h2, e] at e'; have := congrArg List.length e'; simp at this
  | deleted e e' => rw [h3] at e; simp at e
  | grouped e1 e e' => rw [h4] at e; cases e
  | groupPanicked _ e e' _ => rw [h4] at e; cases e
  | entered f f' =>
    have := mid_inj (h4.symm.trans f) (h5.symm.trans f') (by simp)
    simp only [Work.mk.injEq, List.cons.injEq] at this
    obtain ⟨_, rfl, rfl, _⟩ := this
    rfl
  | entryPanicked f f' =>
    exfalso
    have a1 := h4.symm.trans f
    have a2 := h5.symm.trans f'
    simp only [Option.some.injEq, Commit.mk.injEq, Phase.updating.injEq] at a1 a2
    have b1 := congrArg List.length a1.2.2.1
    have b2 := congrArg List.length a2.2.2.1
    simp only [List.length_append, List.length_cons] at b1 b2
    omega
  | quiet _ _ _ _ f => rw [h4, h5, left_mid, left_mid] at f; simp only [List.length_cons] at f; omega


/-! ### Sums -/

/-- bytes of a tuple on the heap -/
def opLen : Option Data → Nat
  | none => 0
  | some d => heapLen d

def tb (ts : List Task) : Nat := (ts.map (fun t => opLen t.op)).sum
def eb (es : List (Key × Option Data)) : Nat := (es.map (fun e => opLen e.2)).sum
def mb (m : List (Key × Data)) : Nat := (m.map (fun t => heapLen t.2)).sum
def wsum (rs : List (Nat × Nat)) : Nat := (rs.map (fun r => r.2)).sum

theorem tb_append (a b : List Task) : tb (a ++ b) = tb a + tb b := by simp [tb]
theorem eb_append (a b : List (Key × Option Data)) : eb (a ++ b) = eb a + eb b := by simp [eb]
theorem eb_cons (a : Key × Option Data) (b : List (Key × Option Data)) : eb (a :: b) = opLen a.2 + eb b := by simp [eb]
theorem mb_append (a b : List (Key × Data)) : mb (a ++ b) = mb a + mb b := by simp [mb]
theorem mb_cons (a : Key × Data) (b : List (Key × Data)) : mb (a :: b) = heapLen a.2 + mb b := by simp [mb]

theorem tb_perm {a b : List Task} (h : a.Perm b) : tb a = tb b := (h.map _).sum_nat
theorem eb_perm {a b : List (Key × Option Data)} (h : a.Perm b) : eb a = eb b := (h.map _).sum_nat
theorem mb_perm {a b : List (Key × Data)} (h : a.Perm b) : mb a = mb b := (h.map _).sum_nat

/-- the tuples in effect -/
def tuples (c : StoreCfg) (pages : Nat → List Byte) (cm : Option Commit) : List (Key × Data) :=
  (List.range c.bundleCount).flatMap (eff pages cm)

/-- bytes on the heap that the store knows of -/
def known (c : StoreCfg) (preps : List Prep) (p : List Task) (cm : Option Commit) (cl : List Task) (pages : Nat → List Byte) : Nat :=
  tb (preps.map (·.task)) + tb p + (if isEarly cm then tb (surv cl) else 0) + eb (rem cm) + mb (tuples c pages cm)

def knownOf (c : StoreCfg) (s : St) : Nat :=
  known c s.preps (pipe s.ready s.queue s.pending s.log.inflight s.inserting s.ul) s.commit s.cl s.pages

theorem tuples_perm {pages pages' : Nat → List Byte} {cm cm' : Option Commit} (h : ∀ i, (eff pages' cm' i).Perm (eff pages cm i)) :
    (tuples c pages' cm').Perm (tuples c pages cm) := flatMap_perm_pointwise _ fun i _ => h i

/-! ### What a background commit does to the tuples -/

theorem eff_bundleRead (hinv : Inv c s) {upTo i : Nat} {pre post : List Group}
    {es : List (Key × Option Data)} {work : List Work} {comp : List (Nat × List Byte)} {ts : List (Key × Data)}
    (hcm : s.commit = some ⟨upTo, .updating (pre ++ (i, es) :: post) work comp⟩)
    (hts : bundleDeserialise (s.pages i) = some ts) (j : Nat) :
    (eff s.pages (some ⟨upTo, .updating (pre ++ post) (⟨i, collectMap ts, es⟩ :: work) comp⟩) j).Perm (eff s.pages s.commit j) := by
  have hp := hinv.page
  rw [hcm] at hp ⊢
  have hn := hp.nodup
  simp only [tdo, wrk, cmp] at hn
  obtain ⟨n1, n2, n3, n4, n5, n6⟩ := nodup_split hn
  have hiw : i ∉ work.map (·.idx) := n4 i (by simp)
  have hic : i ∉ comp.map (·.1) := n5 i (by simp)
  obtain ⟨ts', e', hok⟩ := hp.disk i
  rw [hts] at e'
  cases e'
  have hcoll := collectMap_eq ts hok.1
  by_cases hj : j = i
  · subst hj
    rw [eff_disk (cm := some ⟨upTo, .updating (pre ++ (j, es) :: post) work comp⟩) hiw hic, hts]
    simp only [eff, wrk, List.find?_cons, decide_true, Option.getD_some, hcoll]
    exact List.reverse_perm ts
  · have hij : i ≠ j := Ne.symm hj
    simp only [eff, wrk, cmp, List.find?_cons, hij, decide_false]
    exact .refl _

theorem eff_bundleSerialise (hinv : Inv c s) {upTo i : Nat} {todo : List Group}
    {pre post : List Work} {mp order : List (Key × Data)} {comp : List (Nat × List Byte)} {page : List Byte}
    {junk : Nat → Byte}
    (hcm : s.commit = some ⟨upTo, .updating todo (pre ++ ⟨i, mp, []⟩ :: post) comp⟩)
    (hord : order.Perm mp) (hser : serialiseBundle (2 ^ c.heap.pages.spage) junk order = some page) (j : Nat) :
    (eff s.pages (some ⟨upTo, .updating todo (pre ++ post) ((i, page) :: comp)⟩) j).Perm (eff s.pages s.commit j) := by
  have hp := hinv.page
  rw [hcm] at hp ⊢
  have hn := hp.nodup
  simp only [tdo, wrk, cmp] at hn
  obtain ⟨n1, n2, n3, n4, n5, n6⟩ := nodup_split hn
  have hmok : MapOk c i mp := hp.work ⟨i, mp, []⟩ (by simp [wrk])
  have hook : MapOk c i order := ⟨(hord.map _).nodup_iff.2 hmok.1, fun t ht => hmok.2 t (hord.mem_iff.1 ht)⟩
  have hdes := (bundle_roundtrip _ junk order (fun t ht => ⟨(hook.2 t ht).1, (hook.2 t ht).2.1⟩) hser).2
  have hiw : i ∉ (pre ++ post).map (·.idx) := by
    rw [List.map_append, List.map_cons, List.nodup_middle, List.nodup_cons] at n2
    rw [List.map_append]; exact n2.1
  by_cases hj : j = i
  · subst hj
    have e1 : eff s.pages (some ⟨upTo, .updating todo (pre ++ ⟨j, mp, []⟩ :: post) comp⟩) j = mp :=
      eff_work (cm := some ⟨upTo, .updating todo (pre ++ ⟨j, mp, []⟩ :: post) comp⟩) (w := ⟨j, mp, []⟩) n2 (by simp [wrk])
    have hfn : (pre ++ post).find? (fun w => w.idx = j) = none := by
      rw [List.find?_eq_none]
      intro w hw
      simp only [decide_eq_true_eq]
      exact fun e => hiw (List.mem_map.2 ⟨w, hw, e⟩)
    rw [e1]
    simp only [eff, wrk, cmp, hfn, List.find?_cons, decide_true, hdes, Option.getD_some]
    exact hord
  · have hij : i ≠ j := Ne.symm hj
    simp only [eff, wrk, cmp, List.find?_cons, List.find?_append, hij, decide_false]
    exact .refl _

theorem eff_bundleWritten (hinv : Inv c s) {upTo i : Nat} {todo : List Group}
    {work : List Work} {pre post : List (Nat × List Byte)} {page : List Byte}
    (hcm : s.commit = some ⟨upTo, .updating todo work (pre ++ (i, page) :: post)⟩) (j : Nat) :
    (eff (fun j => if j = i then page else s.pages j) (some ⟨upTo, .updating todo work (pre ++ post)⟩) j).Perm
      (eff s.pages s.commit j) := by
  have hp := hinv.page
  rw [hcm] at hp ⊢
  have hn := hp.nodup
  simp only [tdo, wrk, cmp] at hn
  obtain ⟨n1, n2, n3, n4, n5, n6⟩ := nodup_split hn
  have hiw : i ∉ work.map (·.idx) := fun hx => n6 i hx (by simp)
  have hic : i ∉ (pre ++ post).map (·.1) := by
    rw [List.map_append, List.map_cons, List.nodup_middle, List.nodup_cons] at n3
    rw [List.map_append]; exact n3.1
  by_cases hj : j = i
  · subst hj
    rw [eff_disk (cm := some ⟨upTo, .updating todo work (pre ++ post)⟩) hiw hic,
      eff_comp (cm := some ⟨upTo, .updating todo work (pre ++ (j, page) :: post)⟩) (p := (j, page)) hiw n3 (by simp [cmp])]
    simp
  · have hij : i ≠ j := Ne.symm hj
    simp only [eff, wrk, cmp, List.find?_cons, List.find?_append, hij, hj, decide_false, if_false]
    exact .refl _

theorem flatMap_update {α β : Type} [DecidableEq α] (l : List α) (hn : l.Nodup) (f f' : α → List β)
    (i : α) (hi : i ∈ l) (h : ∀ j ∈ l, j ≠ i → f' j = f j) : ∃ R : List β, (l.flatMap f).Perm (f i ++ R) ∧ (l.flatMap f').Perm (f' i ++ R) := by
  induction l with
  | nil => cases hi
  | cons x l ih =>
    rw [List.nodup_cons] at hn
    by_cases hx : x = i
    · subst hx
      have : l.flatMap f' = l.flatMap f := by
        rw [List.flatMap_def, List.flatMap_def]
        congr 1
        apply List.map_congr_left
        intro j hj
        exact h j (by simp [hj]) (fun e => hn.1 (e ▸ hj))
      refine ⟨l.flatMap f, ?_, ?_⟩
      · rw [List.flatMap_cons]
      · rw [List.flatMap_cons, this]
    · obtain ⟨R, h1, h2⟩ := ih hn.2 (by simpa [Ne.symm hx] using hi) (fun j hj => h j (by simp [hj]))
      refine ⟨f x ++ R, ?_, ?_⟩
      · rw [List.flatMap_cons]
        refine (h1.append_left _).trans ?_
        rw [← List.append_assoc, ← List.append_assoc]
        exact List.perm_append_comm.append_right _
      · rw [List.flatMap_cons, h x (by simp) hx]
        refine (h2.append_left _).trans ?_
        rw [← List.append_assoc, ← List.append_assoc]
        exact List.perm_append_comm.append_right _

theorem map_split {mp : List (Key × Data)} (hn : (mp.map (·.1)).Nodup) (k : Key) :
    mp.Perm (((oldTuple mp k).toList.map (fun d => (k, d))) ++ mp.filter (fun x => x.1 ≠ k)) := by
  induction mp with
  | nil => exact .refl _
  | cons t mp ih =>
    obtain ⟨a, b⟩ := t
    rw [List.map_cons, List.nodup_cons] at hn
    by_cases ha : a = k
    · subst ha
      have : mp.filter (fun x => x.1 ≠ a) = mp := by
        rw [List.filter_eq_self]
        intro x hx
        simp only [ne_eq, decide_eq_true_eq]
        exact fun e => hn.1 (e ▸ List.mem_map.2 ⟨x, hx, rfl⟩)
      rw [List.filter_cons, if_neg (by simp), this]
      simp [oldTuple]
    · have e1 : oldTuple ((a, b) :: mp) k = oldTuple mp k := by simp [oldTuple, ha]
      rw [List.filter_cons, if_pos (by simp [ha]), e1]
      exact (List.Perm.cons _ (ih hn.2)).trans List.perm_middle.symm

/-- applying an entry takes the key's old tuple away and adds the new one -/
theorem tuples_bundleEntry (hinv : Inv c s) {upTo i : Nat} {todo : List Group}
    {pre post : List Work} {mp mp' : List (Key × Data)} {e : Key × Option Data} {es : List (Key × Option Data)}
    {comp : List (Nat × List Byte)} (hm' : mp' = putEntry mp e)
    (hcm : s.commit = some ⟨upTo, .updating todo (pre ++ ⟨i, mp, e :: es⟩ :: post) comp⟩) :
    ∃ R : List (Key × Data), (tuples c s.pages s.commit).Perm ((oldTuple mp e.1).toList.map (fun d => (e.1, d)) ++ R) ∧
      (tuples c s.pages (some ⟨upTo, .updating todo (pre ++ ⟨i, mp', es⟩ :: post) comp⟩)).Perm
        (e.2.toList.map (fun d => (e.1, d)) ++ R) := by
  have hp := hinv.page
  rw [hcm] at hp ⊢
  have hn := hp.nodup
  simp only [tdo, wrk, cmp] at hn
  obtain ⟨n1, n2, n3, n4, n5, n6⟩ := nodup_split hn
  have hmok : MapOk c i mp := hp.work ⟨i, mp, e :: es⟩ (by simp [wrk])
  have hilt : i < c.bundleCount := hp.below i (by simp [wrk])
  have he1 : eff s.pages (some ⟨upTo, .updating todo (pre ++ ⟨i, mp, e :: es⟩ :: post) comp⟩) i = mp :=
    eff_work (cm := some ⟨upTo, .updating todo (pre ++ ⟨i, mp, e :: es⟩ :: post) comp⟩) (w := ⟨i, mp, e :: es⟩) n2
      (by simp [wrk])
  have he2 : eff s.pages (some ⟨upTo, .updating todo (pre ++ ⟨i, mp', es⟩ :: post) comp⟩) i = mp' :=
    eff_work (cm := some ⟨upTo, .updating todo (pre ++ ⟨i, mp', es⟩ :: post) comp⟩) (w := ⟨i, mp', es⟩)
      (by simpa [wrk] using n2) (by simp [wrk])
  have heff : ∀ j, j ≠ i → eff s.pages (some ⟨upTo, .updating todo (pre ++ ⟨i, mp', es⟩ :: post) comp⟩) j =
      eff s.pages (some ⟨upTo, .updating todo (pre ++ ⟨i, mp, e :: es⟩ :: post) comp⟩) j := by
    intro j hj
    have hij : i ≠ j := Ne.symm hj
    simp only [eff, wrk, cmp, List.find?_cons, List.find?_append, hij, decide_false]
  obtain ⟨R, h1, h2⟩ := flatMap_update (List.range c.bundleCount) List.nodup_range
    (eff s.pages (some ⟨upTo, .updating todo (pre ++ ⟨i, mp, e :: es⟩ :: post) comp⟩))
    (eff s.pages (some ⟨upTo, .updating todo (pre ++ ⟨i, mp', es⟩ :: post) comp⟩)) i (by simpa using hilt) (fun j _ hj => heff j hj)
  rw [he1] at h1
  rw [he2] at h2
  refine ⟨mp.filter (fun x => x.1 ≠ e.1) ++ R, ?_, ?_⟩
  · refine h1.trans ?_
    rw [← List.append_assoc]
    exact (map_split hmok.1 e.1).append_right _
  · refine h2.trans ?_
    rw [← List.append_assoc]
    refine List.Perm.append_right _ ?_
    rw [hm']
    unfold putEntry
    cases e.2 <;> simp

/-! ### Moving entries to the heap -/

theorem moveEntry_bytes {junk : Nat → Byte} {a a' : KvAlloc} {e e' : Key × Option Data} {ws : List (Nat × List Byte)}
    (h : moveEntry junk a e = (a', some (e', ws))) :
    opLen e'.2 = opLen e.2 + movedLen e ∧ (∀ d, e'.2 = some (.inline d) → d.length ≤ 7) := by
  unfold moveEntry at h
  split at h
  · rename_i k d
    split at h
    · rename_i hlen
      split at h
      · simp only [Prod.mk.injEq, Option.some.injEq] at h
        obtain ⟨_, rfl, _⟩ := h
        simp [opLen, heapLen, movedLen, hlen]
      · simp at h
    · rename_i hlen
      simp only [Prod.mk.injEq, Option.some.injEq] at h
      obtain ⟨_, rfl, _⟩ := h
      refine ⟨by simp [opLen, heapLen, movedLen]; omega, ?_⟩
      intro d' hd
      simp only [Option.some.injEq, Data.inline.injEq] at hd
      subst hd
      omega
  · rename_i hno
    simp only [Prod.mk.injEq, Option.some.injEq] at h
    obtain ⟨_, rfl, _⟩ := h
    obtain ⟨k, o⟩ := e
    have hni : ∀ d, o ≠ some (.inline d) := fun d hd => hno k d (by rw [hd])
    refine ⟨?_, fun d hd => absurd hd (hni d)⟩
    have : movedLen (k, o) = 0 := by
      unfold movedLen
      split
      · rename_i k' d' hx
        simp only [Prod.mk.injEq] at hx
        exact absurd hx.2 (hni _)
      · rfl
    rw [this]; rfl

theorem moveAll_bytes {junk : Nat → Byte} : ∀ {es : List (Key × Option Data)} {a a' : KvAlloc} {es' : List (Key × Option Data)}
    {ws : List (Nat × List Byte)}, moveAll junk a es = (a', some (es', ws)) →
    eb es' = eb es + (es.map movedLen).sum ∧ ∀ e ∈ es', ∀ d, e.2 = some (.inline d) → d.length ≤ 7 := by
  intro es
  induction es with
  | nil =>
    intro a a' es' ws h
    simp only [moveAll, Prod.mk.injEq, Option.some.injEq] at h
    obtain ⟨_, rfl, _⟩ := h
    simp [eb]
  | cons e es ih =>
    intro a a' es' ws h
    simp only [moveAll] at h
    split at h
    · simp at h
    · rename_i a1 e1 ws1 eq1
      split at h
      · simp at h
      · rename_i a2 es2 ws2 eq2
        simp only [Prod.mk.injEq, Option.some.injEq] at h
        obtain ⟨_, rfl, _⟩ := h
        obtain ⟨x1, x2⟩ := moveEntry_bytes eq1
        obtain ⟨y1, y2⟩ := ih eq2
        refine ⟨?_, ?_⟩
        · rw [eb_cons, eb_cons, List.map_cons, List.sum_cons]; omega
        · intro e' he'
          rcases List.mem_cons.1 he' with rfl | he'
          · exact x2
          · exact y2 e' he'


/-! ### The balance of objects and of bytes -/

/-- bytes: those the store knows of, and those of `rest` -/
def Bytes (c : StoreCfg) (s : St) (m : Metrics) (rest : List (Nat × Nat)) : Prop :=
  isDead s.commit = true ∨ (Held c s rest ∧ m.heapBytes = (knownOf c s + wsum rest : Nat))

theorem dead_step (hs : Step c s s') (h : isDead s.commit = true) : isDead s'.commit = true := by
  cases hs <;> first
    | exact h
    | (rename_i hcm; rw [hcm] at h; simp [isDead] at h; done)
    | (rename_i hcm _; rw [hcm] at h; simp [isDead] at h; done)
    | (rename_i hcm _ _; rw [hcm] at h; simp [isDead] at h; done)

theorem dead_tuples (hs : Step c s s') (h : isDead s.commit = true) : tuples c s'.pages s'.commit = tuples c s.pages s.commit := by
  cases hs <;> first
    | rfl
    | (rename_i hcm; rw [hcm] at h; simp [isDead] at h; done)
    | (rename_i hcm _; rw [hcm] at h; simp [isDead] at h; done)
    | (rename_i hcm _ _; rw [hcm] at h; simp [isDead] at h; done)

theorem dead_objects (hcnt : Count s s' m m') (h : isDead s.commit = true) : m'.objects = m.objects := by
  cases hcnt with
  | entered e _ => rw [e] at h; simp [isDead] at h
  | entryPanicked e _ => rw [e] at h; simp [isDead] at h
  | _ => rfl

theorem known_congr {preps preps' : List Prep} {p p' : List Task} {cm : Option Commit} {cl : List Task} {pages : Nat → List Byte}
    (h : tb (preps'.map (·.task)) + tb p' = tb (preps.map (·.task)) + tb p) :
    known c preps' p' cm cl pages = known c preps p cm cl pages := by
  unfold known; omega

theorem known_commit {preps : List Prep} {p : List Task} {cm cm' : Option Commit} {cl : List Task} {pages pages' : Nat → List Byte}
    (he1 : isEarly cm = false) (he2 : isEarly cm' = false) (hrem : (rem cm').Perm (rem cm))
    (heff : ∀ i, (eff pages' cm' i).Perm (eff pages cm i)) :
    known c preps p cm' cl pages' = known c preps p cm cl pages := by
  unfold known
  rw [he1, he2, eb_perm hrem, mb_perm (tuples_perm heff)]

theorem pipe_tb (ready queue pending : List Task) (fl : List Flush) (ins ul : List Task) :
    tb (pipe ready queue pending fl ins ul) = tb ready + tb queue + tb pending + tb (fl.flatMap (·.tasks)) + tb ins + tb (surv ul) := by
  simp only [pipe, tb_append]

theorem eb_erase (l : List Task) : eb (l.map Task.erase) = tb l := by
  unfold eb tb
  rw [List.map_map]
  rfl

theorem taskRegs_wsum (ts : List Task) : wsum (taskRegs ts) = tb ts := by
  induction ts with
  | nil => rfl
  | cons t ts ih =>
    have : wsum (taskRegs (t :: ts)) = wsum (optRegs t.op) + wsum (taskRegs ts) := by
      simp [taskRegs, wsum]
    rw [this, ih]
    have h2 : wsum (optRegs t.op) = opLen t.op := by
      unfold optRegs opLen
      cases t.op with
      | none => rfl
      | some d => cases d <;> simp [dataRegs, wsum, heapLen]
    rw [h2]
    simp [tb]

/-- the store's own view of one step: bytes and objects -/
structure Stepped (c : StoreCfg) (s s' : St) (m m' : Metrics) (rest rest' : List (Nat × Nat)) : Prop where
  objects : m'.objects - m.objects = ((tuples c s'.pages s'.commit).length : Int) - (tuples c s.pages s.commit).length
  bytes : isDead s'.commit = true ∨ (Held c s' rest' ∧
    m'.heapBytes - m.heapBytes = ((knownOf c s' + wsum rest' : Nat) : Int) - (knownOf c s + wsum rest : Nat))
  lost : ∃ x, rest' = x ++ rest ∧ ∀ r ∈ x, ∃ t ∈ surv s.ul, r ∈ optRegs t.op
  thrift : (∀ t, s'.applied = s.applied ++ [t] → ¬ LargeUncommitted s t.key) → rest' = rest

theorem Stepped.of_quiet {rest : List (Nat × Nat)} (hm : m' = m) (h1 : Held c s' rest) (h2 : knownOf c s' = knownOf c s)
    (h3 : (tuples c s'.pages s'.commit).length = (tuples c s.pages s.commit).length) : Stepped c s s' m m' rest rest := by
  subst hm
  refine ⟨by rw [h3]; omega, .inr ⟨h1, by rw [h2]; omega⟩, ⟨[], rfl, fun r hr => by cases hr⟩, fun _ => rfl⟩

theorem stepped {rest : List (Nat × Nat)} (hc : c.Ok) (hinv : Inv c s) (h : Held c s rest) (hs : Step c s s') (hf : s'.faults = [])
    (hcnt : Count s s' m m') : ∃ rest', Stepped c s s' m m' rest rest' := by
  cases hs with
  | writeInline raw data h1 h2 =>
    refine ⟨rest, .of_quiet (quiet_of hcnt (Nat.le_refl _) (by simp) (fun t ht => by simp at ht) (fun x => x) (Nat.le_refl _))
      (held_writeInline h raw data) ?_ rfl⟩
    refine known_congr ?_
    simp only [pipe_tb, tb_append]
    have : tb [(⟨Key.fromRaw c.H raw, some (.inline data), some data⟩ : Task)] = 0 := rfl
    omega
  | @writeHeap raw data junk off sizeOnDev a' h1 h2 h3 =>
    have := prepared_of hcnt (p := ⟨⟨Key.fromRaw c.H raw, some (.heap data.length off), some data⟩,
          (off, paddedBuf junk data sizeOnDev)⟩) rfl rfl rfl rfl rfl
    subst this
    refine ⟨rest, by simp [Metrics.onHeap], .inr ⟨held_writeHeap hc h raw data junk h3, ?_⟩, ⟨[], rfl, fun r hr => by cases hr⟩, fun _ => rfl⟩
    simp only [knownOf, known, List.map_append, tb_append, Metrics.onHeap]
    have : tb ([(⟨⟨Key.fromRaw c.H raw, some (.heap data.length off), some data⟩,
          (off, paddedBuf junk data sizeOnDev)⟩ : Prep)].map (·.task)) = data.length := by
      simp [tb, opLen, heapLen]
    omega
  | heapDevice heap' h1 =>
    exact ⟨rest, .of_quiet (quiet_of hcnt (Nat.le_refl _) (Nat.le_refl _) (fun t ht => by simp at ht) (fun x => x) (Nat.le_refl _)) h rfl rfl⟩
  | @heapWritten pre p post h1 =>
    refine ⟨rest, .of_quiet (quiet_of hcnt ?_ (by simp) (fun t ht => by simp at ht) (fun x => x) (Nat.le_refl _))
      (held_heapWritten h h1) ?_ rfl⟩
    · rw [h1]; simp
    refine known_congr ?_
    simp only [pipe_tb, tb_append, h1, List.map_append, List.map_cons]
    have : tb (p.task :: post.map (·.task)) = tb [p.task] + tb (post.map (·.task)) := by simp [tb]
    omega
  | @send pre t post h1 =>
    have := sent_of hcnt rfl h1 rfl rfl rfl
    subst this
    refine ⟨rest, by simp [Metrics.onWrite], .inr ⟨held_send h h1, ?_⟩, ⟨[], rfl, fun r hr => by cases hr⟩, fun _ => rfl⟩
    simp only [knownOf, known, pipe_tb, tb_append, h1, Metrics.onWrite]
    have : tb (t :: post) = tb [t] + tb post := by simp [tb]
    omega
  | delete raw =>
    refine ⟨rest, .of_quiet (quiet_of hcnt (Nat.le_refl _) (Nat.le_refl _) (fun t ht => by simp at ht) (fun x => x) (Nat.le_refl _))
      (held_delete h raw) ?_ rfl⟩
    refine known_congr ?_
    simp only [pipe_tb, tb_append]
    have : tb [(⟨Key.fromRaw c.H raw, none, none⟩ : Task)] = 0 := rfl
    omega
  | @recv t q h1 =>
    refine ⟨rest, .of_quiet (quiet_of hcnt (Nat.le_refl _) (Nat.le_refl _) (fun t ht => by simp at ht) (fun x => x) (Nat.le_refl _))
      (held_recv h h1) ?_ rfl⟩
    refine known_congr ?_
    simp only [pipe_tb, tb_append, h1]
    have : tb (t :: q) = tb [t] + tb q := by simp [tb]
    omega
  | flush j1 j2 h1 h2 =>
    refine ⟨rest, .of_quiet (quiet_of hcnt (Nat.le_refl _) (Nat.le_refl _) (fun t ht => by simp at ht) (fun x => x) (Nat.le_refl _))
      (held_flush h h2 _) ?_ rfl⟩
    refine known_congr ?_
    simp only [pipe_tb, tb_append, Props.plan_tasks h2]
    have : tb [] = 0 := rfl
    omega
  | logDevice data' h1 =>
    exact ⟨rest, .of_quiet (quiet_of hcnt (Nat.le_refl _) (Nat.le_refl _) (fun t ht => by simp at ht) (fun x => x) (Nat.le_refl _)) h rfl rfl⟩
  | @logWritten i f h1 h2 =>
    refine ⟨rest, .of_quiet (quiet_of hcnt (Nat.le_refl _) (Nat.le_refl _) (fun t ht => by simp at ht) (fun x => x) (Nat.le_refl _))
      (held_logWritten h i) ?_ rfl⟩
    refine known_congr ?_
    simp only [pipe_tb, Props.finish_tasks]
  | @complete log' ts n h1 h2 =>
    refine ⟨rest, .of_quiet (quiet_of hcnt (Nat.le_refl _) (Nat.le_refl _) (fun t ht => by simp at ht) (fun x => x) (Nat.le_refl _))
      (held_complete h h1 h2) ?_ rfl⟩
    refine known_congr ?_
    have hts : ts = (s.log.inflight.take n).flatMap (·.tasks) ∧ log'.inflight = s.log.inflight.drop n := by
      unfold completeFlushes at h2
      simp only at h2
      split at h2
      · cases h2
      · split at h2
        · simp only [Option.some.injEq, Prod.mk.injEq] at h2
          obtain ⟨rfl, rfl⟩ := h2
          exact ⟨rfl, rfl⟩
        · cases h2
    have : s.log.inflight.flatMap (·.tasks) = ts ++ log'.inflight.flatMap (·.tasks) := by
      rw [hts.1, hts.2, ← List.flatMap_append, List.take_append_drop]
    simp only [pipe_tb, this, tb_append, h1]
    have : tb [] = 0 := rfl
    omega
  | @apply t r h1 =>
    have hk : ((knownOf c { s with
        inserting := r
        gens := fun g => if g = s.cur then (s.gens g).insert t.key t.op else s.gens g
        applied := s.applied ++ [t], ul := s.ul ++ [t] }) +
        wsum (taskRegs ((surv s.ul).filter (fun x => ¬ (x.key ≠ t.key))) ++ rest)) = knownOf c s + wsum rest := by
      have e1 : wsum (taskRegs ((surv s.ul).filter (fun x => ¬ (x.key ≠ t.key))) ++ rest) =
          tb ((surv s.ul).filter (fun x => ¬ (x.key ≠ t.key))) + wsum rest := by
        rw [← taskRegs_wsum]; simp [wsum]
      rw [e1]
      have e2 := tb_perm (List.filter_append_perm (fun x : Task => decide (x.key ≠ t.key)) (surv s.ul))
      rw [tb_append] at e2
      simp only [knownOf, known, pipe_tb, h1, surv_snoc]
      have e3 : tb (t :: r) = tb [t] + tb r := by simp [tb]
      have e5 : tb (t :: (surv s.ul).filter (fun x => x.key ≠ t.key)) = tb [t] + tb ((surv s.ul).filter (fun x => x.key ≠ t.key)) := by
        simp [tb]
      have e4 : (surv s.ul).filter (fun x => ¬ (x.key ≠ t.key)) = (surv s.ul).filter (fun x => !decide (x.key ≠ t.key)) := by
        congr 1; funext x; simp
      rw [e4]
      omega
    have hm : m'.objects = m.objects ∧ m'.heapBytes = m.heapBytes := by
      cases hop : t.op with
      | none =>
        have := deleted_of hcnt rfl rfl (t := t) rfl hop rfl
        subst this
        exact ⟨rfl, rfl⟩
      | some d =>
        have := quiet_of hcnt (Nat.le_refl _) (Nat.le_refl _) (fun t' ht => by
          have := List.append_cancel_left ht
          simp only [List.cons.injEq, and_true] at this
          subst this
          rw [hop]; simp) (fun x => x) (Nat.le_refl _)
        subst this
        exact ⟨rfl, rfl⟩
    refine ⟨_, by rw [hm.1, Int.sub_self, Int.sub_self], .inr ⟨held_apply h h1, by rw [hm.2, hk]; omega⟩, ⟨_, rfl, ?_⟩, ?_⟩
    · intro x hx
      obtain ⟨t', ht', hx⟩ := List.mem_flatMap.1 hx
      exact ⟨t', (List.mem_filter.1 ht').1, hx⟩
    · intro hl
      rw [replaced_small hinv (hl t rfl), List.nil_append]
  | commitStart h1 h2 h3 =>
    refine ⟨rest, .of_quiet (quiet_of hcnt (Nat.le_refl _) (Nat.le_refl _) (fun t ht => by simp at ht) (fun _ => rfl) (by rw [h2]; exact Nat.le_refl _))
      (held_commitStart h hinv h2) ?_ ?_⟩
    · have e1 : tuples c s.pages (some ⟨s.log.tail, .started⟩) = tuples c s.pages none := rfl
      simp only [knownOf, known, h2, e1, pipe_tb]
      simp only [isEarly, rem, tdo, wrk, eb, if_true, Bool.false_eq_true, if_false, List.flatMap_nil, List.append_nil, List.map_nil,
        List.sum_nil, surv, List.foldl_nil]
      have : tb [] = 0 := rfl
      omega
    · rw [h2]; rfl
  | @group g upTo es a' es' ws junk h1 h2 h3 h4 =>
    have := grouped_of hcnt rfl rfl rfl h1 h2 rfl
    subst this
    have hmv := moveAll_bytes h4
    have hrem : (rem (some ⟨upTo, .moving ws (groupsOf c es')⟩)).Perm es' := by
      have : rem (some ⟨upTo, .moving ws (groupsOf c es')⟩) = (groupsOf c es').flatMap (·.2) := by
        simp [rem, tdo, wrk]
      rw [this]; exact groups_perm hc es'
    refine ⟨rest, ?_, .inr ⟨held_group hc h hinv h1 h2 h3 h4, ?_⟩, ⟨[], rfl, fun r hr => by cases hr⟩, fun _ => rfl⟩
    · rw [h2]
      simp only [Metrics.onHeap]
      have : tuples c s.pages (some ⟨upTo, .moving ws (groupsOf c es')⟩) = tuples c s.pages (some ⟨upTo, .started⟩) := rfl
      rw [this]; omega
    · have e1 : tuples c s.pages (some ⟨upTo, .moving ws (groupsOf c es')⟩) = tuples c s.pages (some ⟨upTo, .started⟩) := rfl
      have e2 : rem (some ⟨upTo, .started⟩) = [] := rfl
      have e3 := (h3.map movedLen).sum_nat
      have e4 : eb es = tb (surv s.cl) := by
        rw [eb_perm h3, (hinv.ov.genCom g h1).2, ofEntries_erase, eb_erase]
      simp only [knownOf, known, h2, e1, eb_perm hrem, e2, hmv.1, e3, e4, Metrics.onHeap]
      simp only [isEarly, if_true, Bool.false_eq_true, if_false]
      have : eb [] = 0 := rfl
      omega
  | @groupPanic g upTo es a' junk h1 h2 h3 h4 =>
    obtain ⟨n, rfl⟩ := groupPanicked_of hcnt rfl rfl rfl h1 h2 rfl
    refine ⟨rest, ?_, .inl rfl, ⟨[], rfl, fun r hr => by cases hr⟩, fun _ => rfl⟩
    rw [h2]
    simp only [Metrics.onHeap]
    have : tuples c s.pages (some ⟨upTo, .dead⟩) = tuples c s.pages (some ⟨upTo, .started⟩) := rfl
    rw [this]; omega
  | moved h1 =>
    refine ⟨rest, .of_quiet (quiet_of hcnt (Nat.le_refl _) (Nat.le_refl _) (fun t ht => by simp at ht) (by rw [h1]; exact fun x => x)
      (by rw [h1]; exact Nat.le_refl _)) (by unfold Held at h ⊢; rw [h1] at h; exact h) ?_ ?_⟩
    · simp only [knownOf, h1]; rfl
    · rw [h1]; rfl
  | movedAll h1 =>
    refine ⟨rest, .of_quiet (quiet_of hcnt (Nat.le_refl _) (Nat.le_refl _) (fun t ht => by simp at ht) (by rw [h1]; exact fun x => by cases x)
      (by rw [h1]; exact Nat.zero_le _)) (by unfold Held at h ⊢; rw [h1] at h; exact h) ?_ ?_⟩
    · simp only [knownOf, h1]; rfl
    · rw [h1]; rfl
  | bundleRead h1 h2 =>
    have heff := eff_bundleRead hinv h1 h2
    refine ⟨rest, .of_quiet (quiet_of hcnt (Nat.le_refl _) (Nat.le_refl _) (fun t ht => by simp at ht) (by rw [h1]; exact fun x => by cases x)
      (by rw [h1]; simp only [left, List.map_cons, List.sum_cons]; omega)) (held_bundleRead h hinv h1 h2) ?_ (tuples_perm heff).length_eq⟩
    rw [h1] at heff
    simp only [knownOf, h1]
    refine known_commit rfl rfl ?_ heff
    rw [List.perm_iff_count]
    intro a
    simp only [rem, tdo, wrk, List.flatMap_append, List.flatMap_cons, List.count_append]
    omega
  | @bundleEntry upTo todo pre i mp e es post comp a' mp' h1 h2 =>
    have hput : mp' = putEntry mp e := by
      unfold applyEntry at h2
      simp only at h2
      change (match tget mp e.1 with
        | some (.heap size off) => match s.alloc.release off size with
          | none => (s.alloc, none)
          | some a' => (a', some (putEntry mp e))
        | _ => (s.alloc, some (putEntry mp e))) = _ at h2
      repeat' split at h2
      all_goals first
        | (cases h2; rfl)
        | cases h2
    have := entered_of hcnt rfl rfl rfl h1 rfl
    subst this
    obtain ⟨R, r1, r2⟩ := tuples_bundleEntry hinv hput h1
    have hrem : (rem (some ⟨upTo, .updating todo (pre ++ ⟨i, mp, e :: es⟩ :: post) comp⟩)).Perm
        (e :: rem (some ⟨upTo, .updating todo (pre ++ ⟨i, mp', es⟩ :: post) comp⟩)) := by
      rw [List.perm_iff_count]
      intro a
      simp only [rem, tdo, wrk, List.flatMap_append, List.flatMap_cons, List.count_append, List.count_cons]
      omega
    refine ⟨rest, ?_, .inr ⟨held_bundleEntry hc h hinv h1 h2, ?_⟩, ⟨[], rfl, fun r hr => by cases hr⟩, fun _ => rfl⟩
    · have l1 := r1.length_eq
      have l2 := r2.length_eq
      simp only [List.length_append, List.length_map] at l1 l2
      simp only [Metrics.onEntry, Metrics.onReleased]
      rw [l1, l2]
      cases oldTuple mp e.1 <;> cases e.2 <;> simp <;> omega
    · have l1 := mb_perm r1
      have l2 := mb_perm r2
      have l3 := eb_perm hrem
      rw [eb_cons] at l3
      rw [mb_append] at l1 l2
      rw [h1] at l1
      have o1 : mb ((oldTuple mp e.1).toList.map (fun d => (e.1, d))) = ((oldTuple mp e.1).map heapLen).getD 0 := by
        cases oldTuple mp e.1 <;> simp [mb]
      have o2 : mb (e.2.toList.map (fun d => (e.1, d))) = opLen e.2 := by
        cases e.2 <;> simp [mb, opLen]
      have e1 : isEarly (some ⟨upTo, .updating todo (pre ++ ⟨i, mp, e :: es⟩ :: post) comp⟩) = false := rfl
      have e2 : isEarly (some ⟨upTo, .updating todo (pre ++ ⟨i, mp', es⟩ :: post) comp⟩) = false := rfl
      simp only [knownOf, known, h1, e1, e2, l1, l2, l3, o1, o2, Metrics.onEntry, Metrics.onReleased]
      omega
  | @bundleSerialise upTo todo pre i mp post comp order page junk h1 h2 h3 =>
    have heff := eff_bundleSerialise hinv h1 h2 h3
    refine ⟨rest, .of_quiet (quiet_of hcnt (Nat.le_refl _) (Nat.le_refl _) (fun t ht => by simp at ht) (by rw [h1]; exact fun x => by cases x)
      (by rw [h1, left_mid]; simp [left])) (held_bundleSerialise h hinv h1 h2 h3) ?_ (tuples_perm heff).length_eq⟩
    rw [h1] at heff
    simp only [knownOf, h1]
    refine known_commit rfl rfl ?_ heff
    rw [List.perm_iff_count]
    intro a
    simp only [rem, tdo, wrk, List.flatMap_append, List.flatMap_cons, List.count_append, List.count_nil]
    omega
  | readPanic => simp at hf
  | entryPanic => simp at hf
  | serialisePanic => simp at hf
  | bundleWritten h1 =>
    have heff := eff_bundleWritten hinv h1
    refine ⟨rest, .of_quiet (quiet_of hcnt (Nat.le_refl _) (Nat.le_refl _) (fun t ht => by simp at ht) (by rw [h1]; exact fun x => by cases x)
      (by rw [h1]; exact Nat.le_refl _)) (held_bundleWritten h hinv h1) ?_ (tuples_perm heff).length_eq⟩
    rw [h1] at heff
    simp only [knownOf, h1]
    exact known_commit rfl rfl (.refl _) heff
  | headWrite h1 =>
    refine ⟨rest, .of_quiet (quiet_of hcnt (Nat.le_refl _) (Nat.le_refl _) (fun t ht => by simp at ht) (by rw [h1]; exact fun x => by cases x)
      (by rw [h1]; exact Nat.le_refl _)) (by unfold Held at h ⊢; rw [h1] at h; exact h) ?_ ?_⟩
    · simp only [knownOf, h1]; rfl
    · rw [h1]; rfl
  | commitEnd h1 =>
    refine ⟨rest, .of_quiet (quiet_of hcnt (Nat.le_refl _) (Nat.le_refl _) (fun t ht => by simp at ht) (by rw [h1]; exact fun x => by cases x)
      (by rw [h1]; exact Nat.le_refl _)) (by unfold Held at h ⊢; rw [h1] at h; exact h) ?_ ?_⟩
    · simp only [knownOf, h1]; rfl
    · rw [h1]; rfl


theorem load_pages (h : load c s = some s') : s'.pages = s.pages ∧ s'.commit = none ∧ s'.preps = [] ∧ s'.cl = [] ∧
    s'.ready = [] ∧ s'.queue = [] ∧ s'.pending = [] ∧ s'.log.inflight = [] ∧ s'.inserting = [] := by
  unfold load at h
  split at h
  · split at h
    · cases h
    · cases h; exact ⟨rfl, rfl, rfl, rfl, rfl, rfl, rfl, rfl, rfl⟩
  · cases h

theorem tuples_none (c : StoreCfg) (pages : Nat → List Byte) : tuples c pages none = pageTuples c pages := rfl

/-- the log replayed by a start without fault holds no tuple on the heap -/
theorem load_ul (hc : c.Ok) (h : Inv c s) (hl : load c s = some s') (hf : s'.faults = []) : tb (surv s'.ul) = 0 := by
  have hnew : ∃ a0, KvAlloc.new c.heap.base c.heap.heap c.heap.pages = some a0 := by
    unfold load at hl
    split at hl
    · exact ⟨_, by assumption⟩
    · cases hl
  obtain ⟨a0, hnew⟩ := hnew
  obtain ⟨s2, e2, _, _, _, h5⟩ := load_spec hc h hnew
  rw [hl] at e2
  cases e2
  have hi := h5 hf
  have hgen := hi.ov.genCur
  rw [← taskRegs_wsum]
  have : taskRegs (surv s'.ul) = [] := by
    rw [← erase_regs, ← ofEntries_erase, ← hgen]
    unfold load at hl
    split at hl
    · split at hl
      · cases hl
      · rename_i a0 regs es q1 q2 q3 _ a1 q4
        cases hl
        simp only [if_true]
        have hno : es.any isHeapEntry = false := by
          cases hx : es.any isHeapEntry with
          | false => rfl
          | true => simp [hx] at hf
        rw [List.eq_nil_iff_forall_not_mem]
        intro r hr
        obtain ⟨e, he, hr⟩ := List.mem_flatMap.1 hr
        have := List.any_eq_false.1 hno e (mem_ofEntries he)
        apply this
        unfold isHeapEntry
        rw [mem_optRegs hr]
    · cases hl
  rw [this]
  rfl

theorem mreach_reach {n : Nat} (h : MReach c s n m) : Reach c s := by
  induction h with
  | fresh h => exact .fresh h
  | step _ hs _ ih => exact .step ih hs
  | restart _ hl ih => exact .restart ih hl

/-- tasks on the heap are larger than the inline threshold, those in the log are not -/
theorem issued_len (h : Reach c s) : ∀ t ∈ s.issued, (∀ n o, t.op = some (.heap n o) → c.inlineThreshold < n) ∧
    (∀ d, t.op = some (.inline d) → d.length ≤ c.inlineThreshold) := by
  induction h with
  | fresh h =>
    unfold fresh at h
    split at h
    · cases h
    · cases h; intro t ht; cases ht
  | restart _ hl ih => rw [(load_mono hl).2]; exact ih
  | step _ hs ih =>
    cases hs with
    | writeInline raw data h1 h2 =>
      intro t ht
      rcases List.mem_append.1 ht with ht | ht
      · exact ih t ht
      · cases List.mem_singleton.1 ht
        exact ⟨fun n o e => (by cases e), fun d e => by cases e; exact h2⟩
    | writeHeap raw data junk h1 h2 h3 =>
      intro t ht
      rcases List.mem_append.1 ht with ht | ht
      · exact ih t ht
      · cases List.mem_singleton.1 ht
        exact ⟨fun n o e => (by cases e; exact h2), fun d e => by cases e⟩
    | delete raw =>
      intro t ht
      rcases List.mem_append.1 ht with ht | ht
      · exact ih t ht
      · cases List.mem_singleton.1 ht
        exact ⟨fun n o e => (by cases e), fun d e => by cases e⟩
    | _ => exact ih

structure Balance (c : StoreCfg) (s : St) (m : Metrics) (rest : List (Nat × Nat)) : Prop where
  objects : m.objects = (tuples c s.pages s.commit).length
  bytes : Bytes c s m rest
  lost : ∀ r ∈ rest, c.inlineThreshold < r.2

theorem balance_fresh {heap logData : Mem} (h : fresh c heap logData = some s) : Balance c s .zero [] := by
  have hh := held_fresh h
  unfold fresh at h
  split at h
  · cases h
  · cases h
    have h0 : tuples c (fun _ : Nat => List.replicate (2 ^ c.heap.pages.spage) (0 : Byte)) none = [] := by
      unfold tuples
      rw [List.flatMap_eq_nil_iff]
      intro i _
      rw [eff_idle (cm := none) rfl rfl, deser_zero]
      rfl
    refine ⟨by simp only [h0]; rfl, .inr ⟨hh, ?_⟩, fun r hr => by cases hr⟩
    simp only [knownOf, known, h0]
    rfl

theorem balance_load (hc : c.Ok) (h : Inv c s) (hl : load c s = some s') (hf : s'.faults = []) :
    Balance c s' (loadCount c s'.pages) [] := by
  have hh := held_load hc h hl hf
  obtain ⟨_, e2, e3, e4, e5, e6, e7, e8, e9⟩ := load_pages hl
  refine ⟨by rw [e2, tuples_none]; rfl, .inr ⟨hh, ?_⟩, fun r hr => by cases hr⟩
  have hu := load_ul hc h hl hf
  simp only [knownOf, known, e2, e3, pipe_tb, e5, e6, e7, e8, e9, hu, tuples_none]
  simp only [loadCount, mb, tb, eb, isEarly, rem, tdo, wrk, wsum, List.map_nil, List.flatMap_nil, List.sum_nil, List.append_nil,
    Bool.false_eq_true, if_false]
  omega

theorem balance_step {rest : List (Nat × Nat)} (hc : c.Ok) (hr : Reach c s) (hinv : Inv c s) (h : Balance c s m rest) (hs : Step c s s') (hf : s'.faults = [])
    (hcnt : Count s s' m m') : ∃ rest', Balance c s' m' rest' ∧
      ((∀ t, s'.applied = s.applied ++ [t] → ¬ LargeUncommitted s t.key) → rest' = rest) := by
  rcases h.bytes with hd | ⟨hh, hb⟩
  · refine ⟨rest, ⟨?_, .inl (dead_step hs hd), h.lost⟩, fun _ => rfl⟩
    rw [dead_tuples hs hd, dead_objects hcnt hd]
    exact h.objects
  · obtain ⟨rest', h'⟩ := stepped hc hinv hh hs hf hcnt
    refine ⟨rest', ⟨?_, ?_, ?_⟩, h'.thrift⟩
    · have := h'.objects; have := h.objects; omega
    · rcases h'.bytes with hd | ⟨hh', hb'⟩
      · exact .inl hd
      · exact .inr ⟨hh', by omega⟩
    · obtain ⟨x, rfl, hx⟩ := h'.lost
      intro r hr'
      rcases List.mem_append.1 hr' with hr' | hr'
      · obtain ⟨t, ht, hop⟩ := hx r hr'
        have hi : t ∈ s.issued := by
          apply Props.C34_applied_issued hr
          have : t ∈ s.applied := by rw [hinv.ov.split]; exact List.mem_append_right _ (surv_mem ht)
          simp [Props.everywhere, this]
        exact (issued_len hr t hi).1 _ _ (mem_optRegs hop)
      · exact h.lost r hr'


theorem mreach_balance {n : Nat} (hc : c.Ok) (h : MReach c s n m) (hf : s.faults = []) (hk : NoEmptyKey s) :
    ∃ rest, Balance c s m rest := by
  induction h with
  | fresh h => exact ⟨_, balance_fresh h⟩
  | @restart s s' n m h hl ih =>
    obtain ⟨⟨x, hx⟩, hy⟩ := load_mono hl
    have h1 := hx ▸ hf
    rw [List.append_eq_nil_iff] at h1
    exact ⟨_, balance_load hc (reach_inv hc (mreach_reach h) h1.2 (fun t ht => hk t (by rw [hy]; exact ht))) hl hf⟩
  | @step s s' n m m' h hs hcnt ih =>
    obtain ⟨⟨x, hx⟩, y, hy⟩ := step_mono hs
    have h1 := hx ▸ hf
    rw [List.append_eq_nil_iff] at h1
    have hk' : NoEmptyKey s := fun t ht => hk t (by rw [hy]; simp [ht])
    obtain ⟨rest, hb⟩ := ih h1.2 hk'
    obtain ⟨rest', hb', _⟩ := balance_step hc (mreach_reach h) (reach_inv hc (mreach_reach h) h1.2 hk') hb hs hf hcnt
    exact ⟨rest', hb'⟩

theorem mthrifty_reach (h : MThrifty c s m) : ∃ n, MReach c s n m := by
  induction h with
  | fresh h => exact ⟨_, .fresh h⟩
  | restart h hl => exact ⟨_, .restart h hl⟩
  | step _ hs hcnt _ ih => obtain ⟨n, ih⟩ := ih; exact ⟨n, .step ih hs hcnt⟩

theorem mthrifty_balance (hc : c.Ok) (h : MThrifty c s m) (hf : s.faults = []) (hk : NoEmptyKey s) : Balance c s m [] := by
  induction h with
  | fresh h => exact balance_fresh h
  | @restart s s' n m h hl =>
    obtain ⟨⟨x, hx⟩, hy⟩ := load_mono hl
    have h1 := hx ▸ hf
    rw [List.append_eq_nil_iff] at h1
    exact balance_load hc (reach_inv hc (mreach_reach h) h1.2 (fun t ht => hk t (by rw [hy]; exact ht))) hl hf
  | @step s s' m m' h hs hcnt hn ih =>
    obtain ⟨⟨x, hx⟩, y, hy⟩ := step_mono hs
    have h1 := hx ▸ hf
    rw [List.append_eq_nil_iff] at h1
    have hk' : NoEmptyKey s := fun t ht => hk t (by rw [hy]; simp [ht])
    obtain ⟨n, hr⟩ := mthrifty_reach h
    obtain ⟨rest', hb', ht⟩ := balance_step hc (mreach_reach hr) (reach_inv hc (mreach_reach hr) h1.2 hk') (ih h1.2 hk') hs hf hcnt
    rw [ht hn] at hb'
    exact hb'

/-! ### Which values are on the heap -/

/-- short values live in their tuples, others on the heap -/
def Fits : Data → Prop
  | .inline d => d.length ≤ 7
  | .heap n _ => 7 < n

structure FitPart (pages : Nat → List Byte) (cm : Option Commit) : Prop where
  disk : ∀ i, ∀ t ∈ (bundleDeserialise (pages i)).getD [], Fits t.2
  comp : ∀ p ∈ cmp cm, ∀ t ∈ (bundleDeserialise p.2).getD [], Fits t.2
  work : ∀ w ∈ wrk cm, ∀ t ∈ w.map, Fits t.2
  rem : ∀ e ∈ rem cm, ∀ d, e.2 = some d → Fits d

theorem FitPart.idle {pages : Nat → List Byte} {cm cm' : Option Commit} (h : FitPart pages cm) (h1 : cmp cm' = []) (h2 : wrk cm' = [])
    (h3 : Kv.rem cm' = []) : FitPart pages cm' := by
  refine ⟨h.disk, ?_, ?_, ?_⟩
  · rw [h1]; simp
  · rw [h2]; simp
  · rw [h3]; simp

theorem FitPart.tuples {pages : Nat → List Byte} {cm : Option Commit} (h : FitPart pages cm) {t : Key × Data} (ht : t ∈ tuples c pages cm) :
    Fits t.2 := by
  obtain ⟨i, _, ht⟩ := List.mem_flatMap.1 ht
  rcases eff_cases pages cm i with ⟨w, hw, rfl, e⟩ | ⟨p, hp, rfl, e⟩ | e
  · rw [e] at ht; exact h.work w hw t ht
  · rw [e] at ht; exact h.comp p hp t ht
  · rw [e] at ht; exact h.disk i t ht

theorem fit_step (h7 : 7 ≤ c.inlineThreshold) (hc : c.Ok) (hr : Reach c s) (hinv : Inv c s) (h : FitPart s.pages s.commit) (hs : Step c s s') (hf : s'.faults = []) :
    FitPart s'.pages s'.commit := by
  cases hs with
  | commitStart h1 h2 h3 => exact h.idle rfl rfl rfl
  | @group g upTo es a' es' ws junk h1 h2 h3 h4 =>
    refine ⟨h.disk, fun p hp => (by cases hp), fun w hw => (by cases hw), ?_⟩
    intro e he d hd
    have hrem : (Kv.rem (some ⟨upTo, .moving ws (groupsOf c es')⟩)).Perm es' := by
      have : Kv.rem (some ⟨upTo, .moving ws (groupsOf c es')⟩) = (groupsOf c es').flatMap (·.2) := by
        simp [Kv.rem, tdo, wrk]
      rw [this]; exact groups_perm hc es'
    have he' := hrem.mem_iff.1 he
    cases d with
    | inline d => exact (moveAll_bytes h4).2 e he' d hd
    | heap n o =>
      have hok : ∀ {es : List (Key × Option Data)} {a a' : KvAlloc} {es' : List (Key × Option Data)} {ws : List (Nat × List Byte)},
          moveAll junk a es = (a', some (es', ws)) → (∀ e ∈ es, ∀ n o, e.2 = some (.heap n o) → 7 < n) →
          ∀ e ∈ es', ∀ n o, e.2 = some (.heap n o) → 7 < n := by
        intro es
        induction es with
        | nil =>
          intro a a' es' ws h _ e he
          simp only [moveAll, Prod.mk.injEq, Option.some.injEq] at h
          obtain ⟨_, rfl, _⟩ := h
          cases he
        | cons x es ih =>
          intro a a' es' ws h hx e he n o ho
          simp only [moveAll] at h
          split at h
          · simp at h
          · rename_i a1 e1 ws1 eq1
            split at h
            · simp at h
            · rename_i a2 es2 ws2 eq2
              simp only [Prod.mk.injEq, Option.some.injEq] at h
              obtain ⟨_, rfl, _⟩ := h
              rcases List.mem_cons.1 he with rfl | he
              · unfold moveEntry at eq1
                split at eq1
                · split at eq1
                  · rename_i hlen
                    split at eq1
                    · simp only [Prod.mk.injEq, Option.some.injEq] at eq1
                      obtain ⟨_, rfl, _⟩ := eq1
                      cases ho
                      exact hlen
                    · simp at eq1
                  · simp only [Prod.mk.injEq, Option.some.injEq] at eq1
                    obtain ⟨_, rfl, _⟩ := eq1
                    cases ho
                · simp only [Prod.mk.injEq, Option.some.injEq] at eq1
                  obtain ⟨_, rfl, _⟩ := eq1
                  exact hx _ (by simp) n o ho
              · exact ih eq2 (fun e he => hx e (by simp [he])) e he n o ho
      refine hok h4 ?_ e he' n o hd
      intro e he n o ho
      have he := h3.mem_iff.1 he
      rw [(hinv.ov.genCom g h1).2] at he
      obtain ⟨t, ht, rfl⟩ := List.mem_map.1 (mem_ofEntries he)
      have hi : t ∈ s.issued := by
        apply Props.C34_applied_issued hr
        have : t ∈ s.applied := by rw [hinv.ov.split]; simp [ht]
        simp [Props.everywhere, this]
      exact Nat.lt_of_le_of_lt h7 ((issued_len hr t hi).1 n o ho)
  | groupPanic junk h1 h2 h3 h4 => exact h.idle rfl rfl rfl
  | @moved upTo pre w post gs h1 => rw [h1] at h; exact ⟨h.disk, h.comp, h.work, h.rem⟩
  | @movedAll upTo gs h1 => rw [h1] at h; exact ⟨h.disk, fun p hp => (by cases hp), fun w hw => (by cases hw), h.rem⟩
  | @bundleRead upTo pre i es post work comp ts h1 h2 =>
    have hp := hinv.page
    rw [h1] at h hp
    obtain ⟨ts', e', hok⟩ := hp.disk i
    rw [h2] at e'
    cases e'
    refine ⟨h.disk, h.comp, ?_, ?_⟩
    · intro w hw t ht
      rcases List.mem_cons.1 hw with rfl | hw
      · have ht : t ∈ collectMap ts := ht
        rw [collectMap_eq ts hok.1, List.mem_reverse] at ht
        have := h.disk i t
        rw [h2] at this
        exact this ht
      · exact h.work w hw t ht
    · intro e he d hd
      refine h.rem e ?_ d hd
      simp only [Kv.rem, tdo, wrk, List.flatMap_append, List.flatMap_cons, List.mem_append] at he ⊢
      grind
  | @bundleEntry upTo todo pre i mp e es post comp a' mp' h1 h2 =>
    have hput : mp' = putEntry mp e := by
      unfold applyEntry at h2
      simp only at h2
      change (match tget mp e.1 with
        | some (.heap size off) => match s.alloc.release off size with
          | none => (s.alloc, none)
          | some a' => (a', some (putEntry mp e))
        | _ => (s.alloc, some (putEntry mp e))) = _ at h2
      repeat' split at h2
      all_goals first
        | (cases h2; rfl)
        | cases h2
    rw [h1] at h
    refine ⟨h.disk, h.comp, ?_, ?_⟩
    · intro w hw t ht
      have hw : w ∈ pre ++ ⟨i, mp', es⟩ :: post := hw
      rw [List.mem_append, List.mem_cons] at hw
      rcases hw with hw | rfl | hw
      · exact h.work w (show w ∈ pre ++ _ :: post by simp [hw]) t ht
      · have hmem : ∀ t ∈ mp, Fits t.2 := fun t ht => h.work ⟨i, mp, e :: es⟩ (show _ ∈ pre ++ _ :: post by simp) t ht
        have ht : t ∈ mp' := ht
        rw [hput] at ht
        unfold putEntry at ht
        cases he : e.2 with
        | none => rw [he] at ht; exact hmem t (List.mem_filter.1 ht).1
        | some d =>
          rw [he] at ht
          rcases List.mem_cons.1 ht with rfl | ht
          · exact h.rem e (by simp [Kv.rem, tdo, wrk]) d he
          · exact hmem t (List.mem_filter.1 ht).1
      · exact h.work w (show w ∈ pre ++ _ :: post by simp [hw]) t ht
    · intro e' he d hd
      refine h.rem e' ?_ d hd
      simp only [Kv.rem, tdo, wrk, List.flatMap_append, List.flatMap_cons, List.mem_append] at he ⊢
      grind
  | @bundleSerialise upTo todo pre i mp post comp order page junk h1 h2 h3 =>
    have hp := hinv.page
    rw [h1] at h hp
    have hmok : MapOk c i mp := hp.work ⟨i, mp, []⟩ (by simp [wrk])
    have hook : MapOk c i order := ⟨(h2.map _).nodup_iff.2 hmok.1, fun t ht => hmok.2 t (h2.mem_iff.1 ht)⟩
    have hdes := (bundle_roundtrip _ junk order (fun t ht => ⟨(hook.2 t ht).1, (hook.2 t ht).2.1⟩) h3).2
    refine ⟨h.disk, ?_, ?_, ?_⟩
    · intro p hp t ht
      have hp : p ∈ (i, page) :: comp := hp
      rcases List.mem_cons.1 hp with rfl | hp
      · simp only [hdes, Option.getD_some] at ht
        exact h.work ⟨i, mp, []⟩ (show _ ∈ pre ++ _ :: post by simp) t (h2.mem_iff.1 ht)
      · exact h.comp p hp t ht
    · intro w hw t ht
      have hw : w ∈ pre ++ post := hw
      exact h.work w (show w ∈ pre ++ _ :: post by simp only [List.mem_append, List.mem_cons] at hw ⊢; grind) t ht
    · intro e he d hd
      refine h.rem e ?_ d hd
      simp only [Kv.rem, tdo, wrk, List.flatMap_append, List.flatMap_cons, List.mem_append] at he ⊢
      grind
  | readPanic => simp at hf
  | entryPanic => simp at hf
  | serialisePanic => simp at hf
  | @bundleWritten upTo todo work pre i page post h1 =>
    rw [h1] at h
    refine ⟨?_, ?_, h.work, h.rem⟩
    · intro j t ht
      simp only at ht
      by_cases hj : j = i
      · rw [if_pos hj] at ht
        exact h.comp (i, page) (show _ ∈ pre ++ _ :: post by simp) t ht
      · rw [if_neg hj] at ht
        exact h.disk j t ht
    · intro p hp
      have hp : p ∈ pre ++ post := hp
      exact h.comp p (show p ∈ pre ++ _ :: post by simp only [List.mem_append, List.mem_cons] at hp ⊢; grind)
  | headWrite h1 => exact h.idle rfl rfl rfl
  | commitEnd h1 => exact h.idle rfl rfl rfl
  | _ => exact h

theorem reach_fit (h7 : 7 ≤ c.inlineThreshold) (hc : c.Ok) (h : Reach c s) (hf : s.faults = []) (hk : NoEmptyKey s) : FitPart s.pages s.commit := by
  induction h with
  | fresh h =>
    unfold fresh at h
    split at h
    · cases h
    · cases h
      refine ⟨?_, fun p hp => (by cases hp), fun w hw => (by cases hw), fun e he => (by cases he)⟩
      intro i t ht
      simp only [deser_zero, Option.getD_some] at ht
      cases ht
  | @restart s s' h hl ih =>
    obtain ⟨⟨x, hx⟩, hy⟩ := load_mono hl
    have h1 := hx ▸ hf
    rw [List.append_eq_nil_iff] at h1
    obtain ⟨e1, e2, _⟩ := load_pages hl
    rw [e1, e2]
    exact (ih h1.2 (fun t ht => hk t (by rw [hy]; exact ht))).idle rfl rfl rfl
  | @step s s' h hs ih =>
    obtain ⟨⟨x, hx⟩, y, hy⟩ := step_mono hs
    have h1 := hx ▸ hf
    rw [List.append_eq_nil_iff] at h1
    have hk' : NoEmptyKey s := fun t ht => hk t (by rw [hy]; simp [ht])
    exact fit_step h7 hc h (reach_inv hc h h1.2 hk') (ih h1.2 hk') hs hf

/-! ### Calls -/

structure Ops (s : St) (n : Nat) (m : Metrics) : Prop where
  len : n ≤ s.applied.length
  writes : m.writeOps = (answered s n isWrite + inLog s : Nat)
  deletes : m.deleteOps = (answered s n isDelete : Nat)
  ready : ∀ t ∈ s.preps.map (·.task) ++ s.ready, isWrite t = true

theorem inLog_eq (s : St) : inLog s = (s.queue.filter isWrite).length + (s.pending.filter isWrite).length +
    ((s.log.inflight.flatMap (·.tasks)).filter isWrite).length + (s.inserting.filter isWrite).length := by
  simp only [inLog, List.filter_append, List.length_append]

theorem ops_step {n : Nat} (h : Ops s n m) (hs : Step c s s') (hcnt : Count s s' m m') : Ops s' n m' := by
  obtain ⟨h0, h1, h2, h3⟩ := h
  have q : ∀ {s' : St}, Count s s' m m' → s'.preps.length ≤ s.preps.length → s.ready.length ≤ s'.ready.length → s'.applied = s.applied →
      (ungrouped s.commit = true → ungrouped s'.commit = true) → left s.commit ≤ left s'.commit → m' = m :=
    fun a b d e f g => quiet_of a b d (fun t ht => by rw [e] at ht; simp at ht) f g
  cases hs with
  | writeInline raw data g1 g2 =>
    cases q hcnt (Nat.le_refl _) (by simp) rfl (fun x => x) (Nat.le_refl _)
    refine ⟨h0, h1, h2, ?_⟩
    intro t ht
    simp only [List.mem_append, List.mem_singleton] at ht h3
    rcases ht with ht | ht | rfl
    · exact h3 t (.inl ht)
    · exact h3 t (.inr ht)
    · rfl
  | @writeHeap raw data junk off sizeOnDev a' g1 g2 g3 =>
    cases prepared_of hcnt (p := ⟨⟨Key.fromRaw c.H raw, some (.heap data.length off), some data⟩,
          (off, paddedBuf junk data sizeOnDev)⟩) rfl rfl rfl rfl rfl
    refine ⟨h0, h1, h2, ?_⟩
    intro t ht
    simp only [List.map_append, List.map_cons, List.map_nil, List.mem_append, List.mem_singleton] at ht h3
    rcases ht with (ht | rfl) | ht
    · exact h3 t (.inl ht)
    · rfl
    · exact h3 t (.inr ht)
  | @heapWritten pre p post g1 =>
    cases q hcnt (by rw [g1]; simp) (by simp) rfl (fun x => x) (Nat.le_refl _)
    refine ⟨h0, h1, h2, ?_⟩
    intro t ht
    simp only [g1, List.map_append, List.map_cons, List.mem_append, List.mem_singleton, List.mem_cons] at ht h3
    grind
  | @send pre t post g1 =>
    cases sent_of hcnt rfl g1 rfl rfl rfl
    have ht : isWrite t = true := h3 t (by rw [g1]; simp)
    refine ⟨h0, ?_, h2, ?_⟩
    · have e1 : answered { s with ready := pre ++ post, queue := s.queue ++ [t] } n isWrite = answered s n isWrite := rfl
      have e2 : inLog { s with ready := pre ++ post, queue := s.queue ++ [t] } = inLog s + 1 := by
        simp only [inLog_eq, List.filter_append, List.length_append, List.filter_cons, ht, if_true, List.filter_nil, List.length_cons,
          List.length_nil]
        omega
      rw [e1, e2]
      simp only [Metrics.onWrite]
      omega
    · intro t' ht'
      simp only [g1, List.mem_append, List.mem_cons] at ht' h3
      grind
  | delete raw =>
    cases q hcnt (Nat.le_refl _) (Nat.le_refl _) rfl (fun x => x) (Nat.le_refl _)
    refine ⟨h0, ?_, h2, h3⟩
    rw [h1]
    simp only [inLog_eq, answered, List.filter_append, List.length_append]
    simp [isWrite]
  | @recv t r g1 =>
    cases q hcnt (Nat.le_refl _) (Nat.le_refl _) rfl (fun x => x) (Nat.le_refl _)
    refine ⟨h0, ?_, h2, h3⟩
    rw [h1]
    have : inLog { s with queue := r, pending := s.pending ++ [t] } = inLog s := by
      simp only [inLog_eq, g1, List.filter_append, List.length_append]
      have : ((t :: r).filter isWrite).length = ([t].filter isWrite).length + (r.filter isWrite).length := by
        rw [← List.length_append, ← List.filter_append]; rfl
      omega
    rw [this]
    rfl
  | @flush log' f j1 j2 g1 g2 =>
    cases q hcnt (Nat.le_refl _) (Nat.le_refl _) rfl (fun x => x) (Nat.le_refl _)
    refine ⟨h0, ?_, h2, h3⟩
    rw [h1]
    simp only [inLog_eq, Props.plan_tasks g2, List.filter_append, List.length_append, List.filter_nil, List.length_nil, answered]
    omega
  | @logWritten i f g1 g2 =>
    cases q hcnt (Nat.le_refl _) (Nat.le_refl _) rfl (fun x => x) (Nat.le_refl _)
    refine ⟨h0, ?_, h2, h3⟩
    rw [h1]
    simp only [inLog_eq, Props.finish_tasks, answered]
  | @complete log' ts k g1 g2 =>
    cases q hcnt (Nat.le_refl _) (Nat.le_refl _) rfl (fun x => x) (Nat.le_refl _)
    refine ⟨h0, ?_, h2, h3⟩
    rw [h1]
    have hts : ts = (s.log.inflight.take k).flatMap (·.tasks) ∧ log'.inflight = s.log.inflight.drop k := by
      unfold completeFlushes at g2
      simp only at g2
      split at g2
      · cases g2
      · split at g2
        · simp only [Option.some.injEq, Prod.mk.injEq] at g2
          obtain ⟨rfl, rfl⟩ := g2
          exact ⟨rfl, rfl⟩
        · cases g2
    have : s.log.inflight.flatMap (·.tasks) = ts ++ log'.inflight.flatMap (·.tasks) := by
      rw [hts.1, hts.2, ← List.flatMap_append, List.take_append_drop]
    simp only [inLog_eq, this, g1, List.filter_append, List.length_append, List.filter_nil, List.length_nil, answered]
    omega
  | @apply t r g1 =>
    have ea : ∀ p : Task → Bool, answered { s with
        inserting := r
        gens := fun g => if g = s.cur then (s.gens g).insert t.key t.op else s.gens g
        applied := s.applied ++ [t], ul := s.ul ++ [t] } n p = answered s n p + ([t].filter p).length := by
      intro p
      simp only [answered]
      rw [List.drop_append_of_le_length h0, List.filter_append, List.length_append]
    have el : inLog { s with
        inserting := r
        gens := fun g => if g = s.cur then (s.gens g).insert t.key t.op else s.gens g
        applied := s.applied ++ [t], ul := s.ul ++ [t] } + ([t].filter isWrite).length = inLog s := by
      simp only [inLog_eq, g1]
      have : ((t :: r).filter isWrite).length = ([t].filter isWrite).length + (r.filter isWrite).length := by
        rw [← List.length_append, ← List.filter_append]; rfl
      omega
    have hcase : t.op = none ∨ ∃ d, t.op = some d := by
      cases t.op with
      | none => exact .inl rfl
      | some d => exact .inr ⟨d, rfl⟩
    rcases hcase with hop | ⟨d, hop⟩
    · cases deleted_of hcnt rfl rfl (t := t) rfl hop rfl
      refine ⟨by simp; omega, ?_, ?_, h3⟩
      · rw [ea]
        have : m.onDelete.writeOps = m.writeOps := rfl
        omega
      · rw [ea]
        have : ([t].filter isDelete).length = 1 := by simp [isDelete, hop]
        rw [this]
        simp only [Metrics.onDelete]
        omega
    · cases quiet_of hcnt (Nat.le_refl _) (Nat.le_refl _) (fun t' ht => by
          have := List.append_cancel_left ht
          simp only [List.cons.injEq, and_true] at this
          subst this
          rw [hop]; simp) (fun x => x) (Nat.le_refl _)
      refine ⟨by simp; omega, ?_, ?_, h3⟩
      · rw [ea]; omega
      · rw [ea]
        have : ([t].filter isDelete).length = 0 := by simp [isDelete, hop]
        omega
  | commitStart g1 g2 g3 =>
    cases q hcnt (Nat.le_refl _) (Nat.le_refl _) rfl (fun _ => rfl) (by rw [g2]; exact Nat.zero_le _)
    exact ⟨h0, h1, h2, h3⟩
  | @group g upTo es a' es' ws junk g1 g2 g3 g4 =>
    cases grouped_of hcnt rfl rfl rfl g1 g2 rfl
    exact ⟨h0, h1, h2, h3⟩
  | groupPanic junk g1 g2 g3 g4 =>
    obtain ⟨k, rfl⟩ := groupPanicked_of hcnt rfl rfl rfl g1 g2 rfl
    exact ⟨h0, h1, h2, h3⟩
  | moved g1 =>
    cases q hcnt (Nat.le_refl _) (Nat.le_refl _) rfl (by rw [g1]; exact fun x => x) (by rw [g1]; exact Nat.zero_le _)
    exact ⟨h0, h1, h2, h3⟩
  | movedAll g1 =>
    cases q hcnt (Nat.le_refl _) (Nat.le_refl _) rfl (by rw [g1]; exact fun x => by cases x) (by rw [g1]; exact Nat.zero_le _)
    exact ⟨h0, h1, h2, h3⟩
  | bundleRead g1 g2 =>
    cases q hcnt (Nat.le_refl _) (Nat.le_refl _) rfl (by rw [g1]; exact fun x => by cases x)
      (by rw [g1]; simp only [left, List.map_cons, List.sum_cons]; omega)
    exact ⟨h0, h1, h2, h3⟩
  | bundleEntry g1 g2 =>
    cases entered_of hcnt rfl rfl rfl g1 rfl
    exact ⟨h0, h1, h2, h3⟩
  | bundleSerialise junk g1 g2 g3 =>
    cases q hcnt (Nat.le_refl _) (Nat.le_refl _) rfl (by rw [g1]; exact fun x => by cases x)
      (by rw [g1, left_mid]; simp [left])
    exact ⟨h0, h1, h2, h3⟩
  | readPanic g1 g2 =>
    cases q hcnt (Nat.le_refl _) (Nat.le_refl _) rfl (by rw [g1]; exact fun x => by cases x) (by rw [g1]; exact Nat.le_refl _)
    exact ⟨h0, h1, h2, h3⟩
  | entryPanic g1 g2 =>
    have : m'.writeOps = m.writeOps ∧ m'.deleteOps = m.deleteOps := by
      cases hcnt with
      | sent e e' _ => have := congrArg List.length (e.symm.trans e'); simp at this
      | deleted e e' => simp at e
      | _ => exact ⟨rfl, rfl⟩
    exact ⟨h0, this.1.trans h1, this.2.trans h2, h3⟩
  | serialisePanic junk g1 g2 g3 =>
    cases q hcnt (Nat.le_refl _) (Nat.le_refl _) rfl (by rw [g1]; exact fun x => by cases x)
      (by rw [g1, left_mid]; simp [left])
    exact ⟨h0, h1, h2, h3⟩
  | bundleWritten g1 =>
    cases q hcnt (Nat.le_refl _) (Nat.le_refl _) rfl (by rw [g1]; exact fun x => by cases x) (by rw [g1]; exact Nat.le_refl _)
    exact ⟨h0, h1, h2, h3⟩
  | headWrite g1 =>
    cases q hcnt (Nat.le_refl _) (Nat.le_refl _) rfl (by rw [g1]; exact fun x => by cases x) (by rw [g1]; exact Nat.le_refl _)
    exact ⟨h0, h1, h2, h3⟩
  | commitEnd g1 =>
    cases q hcnt (Nat.le_refl _) (Nat.le_refl _) rfl (by rw [g1]; exact fun x => by cases x) (by rw [g1]; exact Nat.le_refl _)
    exact ⟨h0, h1, h2, h3⟩
  | _ =>
    cases q hcnt (Nat.le_refl _) (Nat.le_refl _) rfl (fun x => x) (Nat.le_refl _)
    exact ⟨h0, h1, h2, h3⟩

theorem mreach_ops {n : Nat} (h : MReach c s n m) : Ops s n m := by
  induction h with
  | fresh h =>
    unfold fresh at h
    split at h
    · cases h
    · cases h
      exact ⟨Nat.le_refl _, rfl, rfl, fun t ht => by cases ht⟩
  | step _ hs hcnt ih => exact ops_step ih hs hcnt
  | restart _ hl ih =>
    obtain ⟨_, _, e3, _, e5, e6, e7, e8, e9⟩ := load_pages hl
    refine ⟨Nat.le_refl _, ?_, ?_, ?_⟩
    · simp [loadCount, Metrics.zero, answered, inLog, e6, e7, e8, e9]
    · simp [loadCount, Metrics.zero, answered]
    · rw [e3, e5]; simp

/-! ### Every execution has counters -/

theorem count_total (hs : Step c s s') (m : Metrics) : ∃ m', Count s s' m m' := by
  cases hs with
  | writeInline raw data g1 g2 =>
    exact ⟨m, .quiet (Nat.le_refl _) (by simp) (fun t ht => by simp at ht) (fun x => x) (Nat.le_refl _)⟩
  | writeHeap raw data junk g1 g2 g3 => exact ⟨_, .prepared rfl rfl⟩
  | heapWritten g1 =>
    exact ⟨m, .quiet (by rw [g1]; simp) (by simp) (fun t ht => by simp at ht) (fun x => x) (Nat.le_refl _)⟩
  | send g1 => exact ⟨_, .sent g1 rfl rfl⟩
  | @apply t r g1 =>
    cases hop : t.op with
    | none => exact ⟨_, .deleted (t := t) rfl hop⟩
    | some d =>
      refine ⟨m, .quiet (Nat.le_refl _) (Nat.le_refl _) (fun t' ht => ?_) (fun x => x) (Nat.le_refl _)⟩
      have := List.append_cancel_left ht
      simp only [List.cons.injEq, and_true] at this
      subst this
      rw [hop]; simp
  | commitStart g1 g2 g3 =>
    exact ⟨m, .quiet (Nat.le_refl _) (Nat.le_refl _) (fun t ht => by simp at ht) (fun _ => rfl) (by rw [g2]; exact Nat.zero_le _)⟩
  | group junk g1 g2 g3 g4 => exact ⟨_, .grouped g1 g2 rfl⟩
  | @groupPanic g upTo es a' junk g1 g2 g3 g4 => exact ⟨_, .groupPanicked (done := []) (rest := s.gens g) g1 g2 rfl (.refl _)⟩
  | moved g1 =>
    exact ⟨m, .quiet (Nat.le_refl _) (Nat.le_refl _) (fun t ht => by simp at ht) (by rw [g1]; exact fun x => x) (by rw [g1]; exact Nat.zero_le _)⟩
  | movedAll g1 =>
    exact ⟨m, .quiet (Nat.le_refl _) (Nat.le_refl _) (fun t ht => by simp at ht) (by rw [g1]; exact fun x => by cases x) (by rw [g1]; exact Nat.zero_le _)⟩
  | bundleRead g1 g2 =>
    exact ⟨m, .quiet (Nat.le_refl _) (Nat.le_refl _) (fun t ht => by simp at ht) (by rw [g1]; exact fun x => by cases x)
      (by rw [g1]; simp only [left, List.map_cons, List.sum_cons]; omega)⟩
  | bundleEntry g1 g2 => exact ⟨_, .entered g1 rfl⟩
  | bundleSerialise junk g1 g2 g3 =>
    exact ⟨m, .quiet (Nat.le_refl _) (Nat.le_refl _) (fun t ht => by simp at ht) (by rw [g1]; exact fun x => by cases x)
      (by rw [g1, left_mid]; simp [left])⟩
  | readPanic g1 g2 =>
    exact ⟨m, .quiet (Nat.le_refl _) (Nat.le_refl _) (fun t ht => by simp at ht) (by rw [g1]; exact fun x => by cases x) (by rw [g1]; exact Nat.le_refl _)⟩
  | entryPanic g1 g2 => exact ⟨_, .entryPanicked g1 rfl⟩
  | serialisePanic junk g1 g2 g3 =>
    exact ⟨m, .quiet (Nat.le_refl _) (Nat.le_refl _) (fun t ht => by simp at ht) (by rw [g1]; exact fun x => by cases x)
      (by rw [g1, left_mid]; simp [left])⟩
  | bundleWritten g1 =>
    exact ⟨m, .quiet (Nat.le_refl _) (Nat.le_refl _) (fun t ht => by simp at ht) (by rw [g1]; exact fun x => by cases x) (by rw [g1]; exact Nat.le_refl _)⟩
  | headWrite g1 =>
    exact ⟨m, .quiet (Nat.le_refl _) (Nat.le_refl _) (fun t ht => by simp at ht) (by rw [g1]; exact fun x => by cases x) (by rw [g1]; exact Nat.le_refl _)⟩
  | commitEnd g1 =>
    exact ⟨m, .quiet (Nat.le_refl _) (Nat.le_refl _) (fun t ht => by simp at ht) (by rw [g1]; exact fun x => by cases x) (by rw [g1]; exact Nat.le_refl _)⟩
  | _ => exact ⟨m, .quiet (Nat.le_refl _) (Nat.le_refl _) (fun t ht => by simp at ht) (fun x => x) (Nat.le_refl _)⟩

theorem mreach_total (h : Reach c s) : ∃ n m, MReach c s n m := by
  induction h with
  | fresh h => exact ⟨_, _, .fresh h⟩
  | step _ hs ih =>
    obtain ⟨n, m, ih⟩ := ih
    obtain ⟨m', hm⟩ := count_total hs m
    exact ⟨n, m', .step ih hs hm⟩
  | restart _ hl ih => obtain ⟨n, m, ih⟩ := ih; exact ⟨_, _, .restart ih hl⟩

theorem mthrifty_total (h : Thrifty c s) : ∃ m, MThrifty c s m := by
  induction h with
  | fresh h => exact ⟨_, .fresh h⟩
  | restart h hl => obtain ⟨n, m, h⟩ := mreach_total h; exact ⟨_, .restart h hl⟩
  | step _ hs hn ih =>
    obtain ⟨m, ih⟩ := ih
    obtain ⟨m', hm⟩ := count_total hs m
    exact ⟨m', .step ih hs hm hn⟩

end Kv
end Blobd
