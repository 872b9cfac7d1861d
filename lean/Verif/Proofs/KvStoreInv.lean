import Verif.Proofs.KvStoreBase
/-! # KV store: the invariant -/
namespace Blobd
namespace Kv
open Spec KvAlloc

/-! ### Views of a running commit -/

def tdo : Option Commit → List Group
  | some ⟨_, .moving _ gs⟩ => gs
  | some ⟨_, .updating t _ _⟩ => t
  | _ => []

def wrk : Option Commit → List Work
  | some ⟨_, .updating _ w _⟩ => w
  | _ => []

def cmp : Option Commit → List (Nat × List Byte)
  | some ⟨_, .updating _ _ c⟩ => c
  | _ => []

def wrt : Option Commit → List (Nat × List Byte)
  | some ⟨_, .moving ws _⟩ => ws
  | _ => []

def isEarly : Option Commit → Bool
  | some ⟨_, .started⟩ => true
  | some ⟨_, .dead⟩ => true
  | _ => false

/-- the tail a commit that has not yet recorded its head works up to -/
def openAt : Option Commit → Option Nat
  | some ⟨_, .headWritten⟩ => none
  | some ⟨u, _⟩ => some u
  | none => none

/-- entries still to be applied to bundles -/
def rem (cm : Option Commit) : List (Key × Option Data) :=
  (tdo cm).flatMap (·.2) ++ (wrk cm).flatMap (·.rest)

/-- the tuples bundle `i` has in effect: in memory, in a page being written, or on the device -/
def eff (pages : Nat → List Byte) (cm : Option Commit) (i : Nat) : List (Key × Data) :=
  match (wrk cm).find? (fun w => w.idx = i) with
  | some w => w.map
  | none =>
    match (cmp cm).find? (fun p => p.1 = i) with
    | some p => (bundleDeserialise p.2).getD []
    | none => (bundleDeserialise (pages i)).getD []

def optRegs : Option Data → List (Nat × Nat)
  | none => []
  | some d => dataRegs d

def mapRegs (m : List (Key × Data)) : List (Nat × Nat) := m.flatMap (fun t => dataRegs t.2)
def entRegs (es : List (Key × Option Data)) : List (Nat × Nat) := es.flatMap (fun e => optRegs e.2)
def taskRegs (ts : List Task) : List (Nat × Nat) := ts.flatMap (fun t => optRegs t.op)
def effRegs (c : StoreCfg) (pages : Nat → List Byte) (cm : Option Commit) : List (Nat × Nat) :=
  (List.range c.bundleCount).flatMap (fun i => mapRegs (eff pages cm i))
def earlyRegs (cm : Option Commit) (cl : List Task) : List (Nat × Nat) :=
  if isEarly cm then taskRegs (surv cl) else []

/-- tasks on their way, and those in the current overlay -/
def pipe (ready queue pending : List Task) (inflight : List Flush) (inserting ul : List Task) : List Task :=
  ready ++ queue ++ pending ++ inflight.flatMap (·.tasks) ++ inserting ++ surv ul

/-! ### Parts of the invariant -/

structure LogPart (c : LogCfg) (log : LogSt) (op : Option Nat) (cl ul ins : List Task) : Prop where
  ex : ∃ recs, LogInv c log recs ∧ recTasks recs = (if op.isSome then cl else []) ++ ul ++ ins ∧
    ∀ u, op = some u → ∃ r1 r2, recs = r1 ++ r2 ∧ recsEnd c log.head r1 = u ∧ recTasks r1 = cl

structure OvPart (gens : Nat → Overlay) (cur : Nat) (com : Option Nat) (busy : Bool)
    (applied base cl ul : List Task) : Prop where
  split : applied = base ++ cl ++ ul
  genCur : gens cur = Overlay.ofEntries (ul.map Task.erase)
  genCom : ∀ g, com = some g → g < cur ∧ gens g = Overlay.ofEntries (cl.map Task.erase)
  idle : com = none → cl = []
  fresh : ∀ g, cur < g → gens g = []
  busyIff : busy = com.isSome

structure TaskGood (t : Task) : Prop where
  key : KeyOk t.key
  data : ∀ d, t.op = some d → DataOk d
  inl : ∀ d, t.op = some (.inline d) → d.length ≤ 2 ^ 24

def TaskVal (heap : Mem) (t : Task) : Prop := t.op.map (valueOf heap) = t.val

structure PipePart (heap : Mem) (pipe : List Task) : Prop where
  good : ∀ t ∈ pipe, TaskGood t
  val : ∀ t ∈ pipe, TaskVal heap t

structure PrepOk (pages : Pages) (p : Prep) : Prop where
  good : TaskGood p.task
  ex : ∃ n v, p.task.op = some (.heap n p.write.1) ∧ p.task.val = some v ∧ v.length = n ∧
    p.write.2.length = ceilPow2 n pages.spage ∧ p.write.2.take n = v

def MapOk (c : StoreCfg) (i : Nat) (m : List (Key × Data)) : Prop :=
  (m.map (·.1)).Nodup ∧ ∀ t ∈ m, KeyOk t.1 ∧ DataOk t.2 ∧ bundleOf c t.1 = i

def EntOk (c : StoreCfg) (i : Nat) (e : Key × Option Data) : Prop :=
  KeyOk e.1 ∧ (∀ d, e.2 = some d → DataOk d) ∧ bundleOf c e.1 = i

structure PagePart (c : StoreCfg) (pages : Nat → List Byte) (cm : Option Commit) (cl : List Task) : Prop where
  disk : ∀ i, ∃ ts, bundleDeserialise (pages i) = some ts ∧ MapOk c i ts
  comp : ∀ p ∈ cmp cm, ∃ ts, bundleDeserialise p.2 = some ts ∧ MapOk c p.1 ts
  work : ∀ w ∈ wrk cm, MapOk c w.idx w.map
  nodup : ((tdo cm).map (·.1) ++ (wrk cm).map (·.idx) ++ (cmp cm).map (·.1)).Nodup
  below : ∀ i ∈ (tdo cm).map (·.1) ++ (wrk cm).map (·.idx) ++ (cmp cm).map (·.1), i < c.bundleCount
  ents : ∀ g ∈ tdo cm, ∀ e ∈ g.2, EntOk c g.1 e
  wents : ∀ w ∈ wrk cm, ∀ e ∈ w.rest, EntOk c w.idx e
  keys : ((rem cm).map (·.1)).Nodup
  same : ∀ k, lastFor cl k = none →
    pageGet (pages (bundleOf c k)) k = tget (eff pages cm (bundleOf c k)) k

def AllocPart (c : StoreCfg) (alloc : KvAlloc) (preps : List Prep) (pipe : List Task)
    (cm : Option Commit) (cl : List Task) (pages : Nat → List Byte) : Prop :=
  ∃ rest, KvAlloc.Inv c.heap alloc (taskRegs (preps.map (·.task)) ++ (taskRegs pipe ++
    (earlyRegs cm cl ++ (entRegs (rem cm) ++ (effRegs c pages cm ++ rest)))))

structure WsPart (pages : Pages) (cm : Option Commit) (cl : List Task) : Prop where
  pw : (wrt cm).Pairwise (fun a b => ∀ x, ¬ (Covers a x ∧ Covers b x))
  inside : ∀ w ∈ wrt cm, ∃ r ∈ entRegs (rem cm), ∀ x, Covers w x → InRegion pages r x
  apart : ∀ w ∈ wrt cm, ∀ t ∈ surv cl, ∀ r ∈ optRegs t.op, ∀ x, Covers w x → ¬ InRegion pages r x

/-- regions that bundle `i` refers to, on the device or in effect or in entries to come -/
def Around (c : StoreCfg) (pages : Nat → List Byte) (cm : Option Commit) (i : Nat) (r : Nat × Nat) : Prop :=
  r ∈ mapRegs ((bundleDeserialise (pages i)).getD []) ∨ r ∈ mapRegs (eff pages cm i) ∨
  ∃ e ∈ rem cm, bundleOf c e.1 = i ∧ r ∈ optRegs e.2

structure DiskPart (c : StoreCfg) (pages : Nat → List Byte) (cm : Option Commit) : Prop where
  apart : ∀ i j, i < c.bundleCount → j < c.bundleCount → i ≠ j → ∀ r r', Around c pages cm i r →
    Around c pages cm j r' → RegionDisj c.heap.pages r r'
  pw : ∀ i, i < c.bundleCount → (mapRegs ((bundleDeserialise (pages i)).getD [])).Pairwise (RegionDisj c.heap.pages)
  ok : ∀ i, i < c.bundleCount → ∀ r, Around c pages cm i r → RegionOk c.heap r

/-- keys whose bundle tuple is not authoritative -/
def Shadow (cm : Option Commit) (cl ul : List Task) (k : Key) : Prop :=
  match cm with
  | none => lastFor ul k ≠ none
  | some cm => if isEarly (some cm) then lastFor cl k ≠ none else k ∈ (rem (some cm)).map (·.1)

structure ValPart (c : StoreCfg) (heap : Mem) (pages : Nat → List Byte) (cm : Option Commit)
    (base cl ul : List Task) : Prop where
  good : ∀ t ∈ surv cl, TaskGood t
  cls : ∀ t ∈ surv cl, TaskVal heap t
  /-- heap entries of the commit keep their place -/
  remHeap : ∀ e ∈ rem cm, ∀ t, lastFor cl e.1 = some t → ∀ n o, t.op = some (.heap n o) → e.2 = t.op
  doneHeap : isEarly cm = false → ∀ t ∈ surv cl, ∀ n o, t.op = some (.heap n o) →
    t.key ∉ (rem cm).map (·.1) → (t.key, Data.heap n o) ∈ eff pages cm (bundleOf c t.key)
  ents : ∀ e ∈ rem cm, ∃ t, lastFor cl e.1 = some t ∧ e.2.map (valueOf (heap.writeAll (wrt cm))) = t.val
  tup : ∀ k, ¬ Shadow cm cl ul k →
    (tget (eff pages cm (bundleOf c k)) k).map (valueOf heap) = specMap (base ++ cl) k

structure Inv (c : StoreCfg) (s : St) : Prop where
  log : LogPart c.log s.log (openAt s.commit) s.cl s.ul s.inserting
  ov : OvPart s.gens s.cur s.com s.commit.isSome s.applied s.base s.cl s.ul
  pipe : PipePart s.heap (pipe s.ready s.queue s.pending s.log.inflight s.inserting s.ul)
  preps : ∀ p ∈ s.preps, PrepOk c.heap.pages p
  page : PagePart c s.pages s.commit s.cl
  alloc : AllocPart c s.alloc s.preps (Kv.pipe s.ready s.queue s.pending s.log.inflight s.inserting s.ul)
    s.commit s.cl s.pages
  ws : WsPart c.heap.pages s.commit s.cl
  disk : DiskPart c s.pages s.commit
  vals : ValPart c s.heap s.pages s.commit s.base s.cl s.ul

/-! ### Lists -/

theorem count_flatMap_update {α β : Type} [BEq β] (l : List α) [DecidableEq α] (hn : l.Nodup) (f f' : α → List β)
    (i : α) (hi : i ∈ l) (h : ∀ j ∈ l, j ≠ i → f' j = f j) (a : β) :
    (l.flatMap f).count a + (f' i).count a = (l.flatMap f').count a + (f i).count a := by
  induction l with
  | nil => cases hi
  | cons x l ih =>
    simp only [List.flatMap_cons, List.count_append]
    rw [List.nodup_cons] at hn
    by_cases hx : x = i
    · subst hx
      have : l.flatMap f' = l.flatMap f := by
        rw [List.flatMap_def, List.flatMap_def]
        congr 1
        apply List.map_congr_left
        intro j hj
        exact h j (by simp [hj]) (fun e => hn.1 (e ▸ hj))
      rw [this]; omega
    · rw [h x (by simp) hx]
      have := ih hn.2 (by simpa [Ne.symm hx] using hi) (fun j hj => h j (by simp [hj]))
      omega

theorem pairwise_flatMap_ne {α β : Type} {R : β → β → Prop} (hs : ∀ x y, R x y → R y x) {l : List α} {f : α → List β}
    (h : (l.flatMap f).Pairwise R) {a b : α} (ha : a ∈ l) (hb : b ∈ l) (hab : a ≠ b) {x y : β}
    (hx : x ∈ f a) (hy : y ∈ f b) : R x y := by
  induction l with
  | nil => cases ha
  | cons z l ih =>
    rw [List.flatMap_cons, List.pairwise_append] at h
    rcases List.mem_cons.1 ha with e1 | ha'
    · rcases List.mem_cons.1 hb with e2 | hb'
      · exact absurd (e1.trans e2.symm) hab
      · exact h.2.2 x (e1 ▸ hx) y (List.mem_flatMap.2 ⟨b, hb', hy⟩)
    · rcases List.mem_cons.1 hb with e2 | hb'
      · exact hs _ _ (h.2.2 y (e2 ▸ hy) x (List.mem_flatMap.2 ⟨a, ha', hx⟩))
      · exact ih h.2.1 ha' hb'

theorem pw_app {β : Type} {R : β → β → Prop} {l1 l2 : List β} (h : (l1 ++ l2).Pairwise R) :
    l1.Pairwise R ∧ l2.Pairwise R ∧ ∀ x ∈ l1, ∀ y ∈ l2, R x y := by
  rw [List.pairwise_append] at h; exact h

/-! ### Tuples in effect -/

theorem nodup_split {α : Type} {a b d : List α} (h : (a ++ b ++ d).Nodup) :
    a.Nodup ∧ b.Nodup ∧ d.Nodup ∧ (∀ x ∈ a, x ∉ b) ∧ (∀ x ∈ a, x ∉ d) ∧ (∀ x ∈ b, x ∉ d) := by
  rw [List.nodup_append, List.nodup_append] at h
  refine ⟨h.1.1, h.1.2.1, h.2.1, fun x h1 h2 => h.1.2.2 x h1 x h2 rfl, fun x h1 h2 => h.2.2 x (by simp [h1]) x h2 rfl,
    fun x h1 h2 => h.2.2 x (by simp [h1]) x h2 rfl⟩

theorem find_idx {α : Type} {f : α → Nat} {l : List α} (hn : (l.map f).Nodup) {a : α} (ha : a ∈ l) :
    l.find? (fun x => f x = f a) = some a := by
  induction l with
  | nil => cases ha
  | cons b l ih =>
    rw [List.map_cons, List.nodup_cons] at hn
    rw [List.find?_cons]
    rcases List.mem_cons.1 ha with rfl | ha
    · simp
    · have : f b ≠ f a := fun e => hn.1 (e ▸ List.mem_map.2 ⟨a, ha, rfl⟩)
      simp [this, ih hn.2 ha]

theorem eff_work {pages : Nat → List Byte} {cm : Option Commit} (hn : ((wrk cm).map (·.idx)).Nodup) {w : Work}
    (hw : w ∈ wrk cm) : eff pages cm w.idx = w.map := by
  unfold eff; rw [find_idx (f := (·.idx)) hn hw]

theorem eff_comp {pages : Nat → List Byte} {cm : Option Commit} {p : Nat × List Byte}
    (hnw : p.1 ∉ (wrk cm).map (·.idx)) (hn : ((cmp cm).map (·.1)).Nodup)
    (hp : p ∈ cmp cm) : eff pages cm p.1 = (bundleDeserialise p.2).getD [] := by
  unfold eff
  have : (wrk cm).find? (fun w => w.idx = p.1) = none := by
    rw [List.find?_eq_none]
    intro w hw
    simp only [decide_eq_true_eq]
    exact fun e => hnw (List.mem_map.2 ⟨w, hw, e⟩)
  rw [this, find_idx (f := (·.1)) hn hp]

theorem eff_disk {pages : Nat → List Byte} {cm : Option Commit} {i : Nat}
    (hnw : i ∉ (wrk cm).map (·.idx)) (hn : i ∉ (cmp cm).map (·.1)) :
    eff pages cm i = (bundleDeserialise (pages i)).getD [] := by
  unfold eff
  have : (wrk cm).find? (fun w => w.idx = i) = none := by
    rw [List.find?_eq_none]
    intro w hw
    simp only [decide_eq_true_eq]
    exact fun e => hnw (List.mem_map.2 ⟨w, hw, e⟩)
  have h2 : (cmp cm).find? (fun p => p.1 = i) = none := by
    rw [List.find?_eq_none]
    intro w hw
    simp only [decide_eq_true_eq]
    exact fun e => hn (List.mem_map.2 ⟨w, hw, e⟩)
  rw [this, h2]

theorem eff_cases (pages : Nat → List Byte) (cm : Option Commit) (i : Nat) :
    (∃ w ∈ wrk cm, w.idx = i ∧ eff pages cm i = w.map) ∨
    (∃ p ∈ cmp cm, p.1 = i ∧ eff pages cm i = (bundleDeserialise p.2).getD []) ∨
    eff pages cm i = (bundleDeserialise (pages i)).getD [] := by
  unfold eff
  cases h : (wrk cm).find? (fun w => w.idx = i) with
  | some w =>
    exact .inl ⟨w, List.mem_of_find?_eq_some h, by simpa using List.find?_some h, rfl⟩
  | none =>
    cases h2 : (cmp cm).find? (fun p => p.1 = i) with
    | some p =>
      exact .inr (.inl ⟨p, List.mem_of_find?_eq_some h2, by simpa using List.find?_some h2, rfl⟩)
    | none => exact .inr (.inr rfl)

theorem PagePart.effOk {c : StoreCfg} {pages : Nat → List Byte} {cm : Option Commit} {cl : List Task}
    (h : PagePart c pages cm cl) (i : Nat) : MapOk c i (eff pages cm i) := by
  rcases eff_cases pages cm i with ⟨w, hw, rfl, e⟩ | ⟨p, hp, rfl, e⟩ | e
  · rw [e]; exact h.work w hw
  · rw [e]; obtain ⟨ts, e', ok⟩ := h.comp p hp; rw [e']; exact ok
  · rw [e]; obtain ⟨ts, e', ok⟩ := h.disk i; rw [e']; exact ok

theorem eff_idle {pages : Nat → List Byte} {cm : Option Commit} (h1 : wrk cm = []) (h2 : cmp cm = []) (i : Nat) :
    eff pages cm i = (bundleDeserialise (pages i)).getD [] := by
  unfold eff; rw [h1, h2]; rfl

theorem PagePart.ents_rem {c : StoreCfg} {pages : Nat → List Byte} {cm : Option Commit} {cl : List Task}
    (h : PagePart c pages cm cl) {e : Key × Option Data} (he : e ∈ rem cm) : EntOk c (bundleOf c e.1) e := by
  unfold rem at he
  rw [List.mem_append, List.mem_flatMap, List.mem_flatMap] at he
  rcases he with ⟨g, hg, he⟩ | ⟨w, hw, he⟩
  · have := h.ents g hg e he; rw [this.2.2]; exact this
  · have := h.wents w hw e he; rw [this.2.2]; exact this

theorem bundleOf_lt {c : StoreCfg} (hc : c.Ok) (k : Key) : bundleOf c k < c.bundleCount :=
  Nat.mod_lt _ hc.bundles

end Kv
end Blobd
