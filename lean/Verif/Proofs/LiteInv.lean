import Verif.Proofs.LiteRec
set_option autoImplicit false
/-! # Invariant of the lite store -/
namespace Blobd
namespace Lite
open Spec

/-- who a record belongs to: a running `create`, its bucket's list, a call that has unlinked it -/
inductive Own
  | fresh (i : Nat)
  | linked
  | dying (i : Nat)
  deriving DecidableEq

/-- what the invariant talks about: device contents once the journal has drained, pending transactions, overlay,
records and bucket lists -/
structure V where
  L : Mem
  U : List Journal.Txn
  ov : Overlay.Ov Cell Nat
  recs : List (Own × Rec)
  ch : Nat → List Rec

def CellAt (c : LCfg) (v : V) : Cell → Nat → Prop
  | .head b, a => b < 2 ^ c.bits ∧ a = c.bkDev + bucketOff b
  | .state id, a => ∃ r, (Own.linked, r) ∈ v.recs ∧ r.o.id = id ∧ a = r.off
  | .next id, a => ∃ r, (Own.linked, r) ∈ v.recs ∧ r.o.id = id ∧ a = r.off + 2

def Cell.val (m : Mem) (a : Nat) : Cell → Nat
  | .head _ => rdBe m a 5 <<< minPageSizePow2
  | .state _ => leVal (m.read a 1)
  | .next _ => rdBe m a 6

def PendOk (c : LCfg) (v : V) (w : Nat × List Byte) : Prop :=
  (∃ b, b < 2 ^ c.bits ∧ w.1 = c.bkDev + bucketOff b ∧ w.2.length = 5) ∨
  ∃ x ∈ v.recs, (∀ i, x.1 ≠ .fresh i) ∧ (w.1 = x.2.off ∧ w.2.length = 1 ∨ w.1 = x.2.off + 2 ∧ w.2.length = 6)

/-- pending writes at `a` are gone once transaction `txn` is acknowledged -/
def Done (U : List Journal.Txn) (txn : Option Nat) (a : Nat) : Prop :=
  ∀ t ∈ U, ∀ w ∈ t.writes, w.1 = a → ∃ n, txn = some n ∧ t.id ≤ n

/-- the cells: what the overlay says is the current value, and the journal writes nothing the overlay does not know of -/
structure Cells (c : LCfg) (v : V) (ids : List Nat) : Prop where
  pend : ∀ t ∈ v.U, ∀ w ∈ t.writes, PendOk c v w
  cur : ∀ k a x, CellAt c v k a → v.ov.get k = some x → k.val v.L a = x
  quiet : ∀ k a, CellAt c v k a → v.ov.map k = none → Done v.U none a
  ovid : ∀ id, v.ov.map (.state id) ≠ none ∨ v.ov.map (.next id) ≠ none →
    id ∈ ids ∧ ∀ i r, (Own.fresh i, r) ∈ v.recs → r.o.id ≠ id
  ser : ∀ k n x, v.ov.map k = some (n, x) → n < v.ov.nextSerial

/-- the bucket lists -/
structure Lists (c : LCfg) (v : V) : Prop where
  att : ∀ r, (Own.linked, r) ∈ v.recs → At r.o v.L r.off ∧ (rdState v.L r.off = stIncomplete ∨ rdState v.L r.off = stCommitted)
  lnk : ∀ r, (Own.linked, r) ∈ v.recs ↔ r ∈ v.ch (c.bkt r.o.key)
  chb : ∀ b r, r ∈ v.ch b → c.bkt r.o.key = b
  chn : ∀ b, ((v.ch b).map Rec.off).Nodup
  chain : ∀ b, b < 2 ^ c.bits → Seg v.L (rdHead v.L c.bkDev b) (v.ch b) 0

structure Base (c : LCfg) (recs : List (Own × Rec)) (ids : List Nat) : Prop where
  fit : ∀ x ∈ recs, RecFits c.pages x.2.o ∧ x.2.o.id ∈ ids
  offs : (recs.map (·.2.off)).Nodup
  idn : (recs.map (·.2.o.id)).Nodup

structure Good (c : LCfg) (v : V) (ids : List Nat) : Prop extends Cells c v ids, Lists c v, Base c v.recs ids

/-- a copy of a record read earlier: current wherever the overlay has nothing -/
structure Copy (v : V) (r : Rec) (raw : List Byte) : Prop where
  id : rdId (ofBytes raw) 0 = r.o.id
  pow2 : rdMetaPow2 (ofBytes raw) 0 = r.o.metaSizePow2
  size : rdSize (ofBytes raw) 0 = r.o.size
  key : rdKey (ofBytes raw) 0 = r.o.key
  state : v.ov.map (.state r.o.id) = none → rdState (ofBytes raw) 0 = rdState v.L r.off
  next : v.ov.map (.next r.o.id) = none → rdNext (ofBytes raw) 0 = rdNext v.L r.off

/-- the last record of the part of a list already visited -/
def prevOff (l : List Rec) : Option Nat := l.getLast?.map Rec.off

def Match (m : Mem) (key : List Byte) (st : Nat) (want : Option Nat) (r : Rec) : Prop :=
  r.o.key = key ∧ rdState m r.off = st ∧ (want = none ∨ want = some r.o.id)

/-- the found object a walk remembers, among those visited -/
def Held (v : V) (vis : List Rec) (P : Rec → Prop) : Option Found → Prop
  | none => ∀ r ∈ vis, ¬ P r
  | some f => ∃ a r d, vis = a ++ r :: d ∧ P r ∧ f.off = r.off ∧ f.prev = prevOff a ∧ Copy v r f.raw

def Tick (c : LCfg) (v : V) (txn : Option Nat) (tickets : List (Overlay.Ticket Cell)) : Prop :=
  ∀ tk ∈ tickets, tk.serial < v.ov.nextSerial ∧
    ∀ x, v.ov.map tk.key = some (tk.serial, x) → ∀ a, CellAt c v tk.key a → Done v.U txn a

def Seen (v : V) (req : Req) (key : List Byte) (vis : List Rec) (inc ex : Option Found) : Prop :=
  match req with
  | .commit id => Held v vis (Match v.L key stIncomplete (some id)) inc ∧ Held v vis (Match v.L key stCommitted none) ex
  | req => inc = none ∧ ex = none ∧ ∀ r ∈ vis, ¬ Match v.L key req.expects.1 req.expects.2 r

def PcOk (c : LCfg) (v : V) (i : Nat) : PC → Prop
  | .createWrite o off => (Own.fresh i, ⟨off, o⟩) ∈ v.recs
  | .createLink o off => (Own.fresh i, ⟨off, o⟩) ∈ v.recs ∧ At o v.L off ∧ rdState v.L off = stIncomplete
  | .walk req key cur prev raw inc ex =>
    ∃ vis rest, v.ch (c.bkt key) = vis ++ rest ∧ cur = headOff rest ∧ prev = prevOff vis ∧
      (∀ b, raw = some b → ∃ r rest', rest = r :: rest' ∧ Copy v r b) ∧ Seen v req key vis inc ex
  | .writing key id targets =>
    ∃ r, r ∈ v.ch (c.bkt key) ∧ (r.o.key = key ∧ r.o.id = id) ∧ rdState v.L r.off = stIncomplete ∧
      ∀ t ∈ targets, ∃ p ∈ dataPgs c.pages r.o, p.1 = t.2 ∧ t.1 ≤ 2 ^ p.2
  | .wait txn free tickets _ =>
    Tick c v txn tickets ∧ (free = [] ∨ ∃ r, (Own.dying i, r) ∈ v.recs ∧ free = regs c.pages r ∧ Done v.U txn r.off ∧
      Done v.U txn (r.off + 2))
  | .evict tickets _ => Tick c v none tickets
  | .dead => True

/-- from `v` to `v'` nothing changed that a call other than `i` relies on, unless it works in a bucket in `P` or has a
copy of a cell in `E` -/
structure Keep (c : LCfg) (v v' : V) (i : Nat) (P : Nat → Prop) (E : Cell → Prop) : Prop where
  ch : ∀ b, ¬ P b → v'.ch b = v.ch b
  cell : ∀ b, ¬ P b → ∀ r ∈ v.ch b, rdState v'.L r.off = rdState v.L r.off ∧ rdNext v'.L r.off = rdNext v.L r.off
  ov : ∀ b, ¬ P b → ∀ r ∈ v.ch b, ∀ k, k = .state r.o.id ∨ k = .next r.o.id → ¬ E k → v'.ov.map k = none → v.ov.map k = none
  fresh : ∀ j r, j ≠ i → (Own.fresh j, r) ∈ v.recs → (Own.fresh j, r) ∈ v'.recs ∧ (At r.o v.L r.off → At r.o v'.L r.off) ∧
    rdState v'.L r.off = rdState v.L r.off
  dying : ∀ j r, j ≠ i → (Own.dying j, r) ∈ v.recs → (Own.dying j, r) ∈ v'.recs ∧
    ∀ t ∈ v'.U, ∀ w ∈ t.writes, w.1 = r.off ∨ w.1 = r.off + 2 → t ∈ v.U
  ser : v.ov.nextSerial ≤ v'.ov.nextSerial
  tick : ∀ k n x, v'.ov.map k = some (n, x) → n < v.ov.nextSerial → v.ov.map k = some (n, x) ∧
    ∀ a, CellAt c v' k a → CellAt c v k a ∧ ∀ t ∈ v'.U, ∀ w ∈ t.writes, w.1 = a → t ∈ v.U

theorem Tick.keep {c : LCfg} {v v' : V} {i : Nat} {P : Nat → Prop} {E : Cell → Prop} (h : Keep c v v' i P E)
    {txn : Option Nat} {ts : List (Overlay.Ticket Cell)} (ht : Tick c v txn ts) : Tick c v' txn ts := by
  intro tk hm
  obtain ⟨h1, h2⟩ := ht tk hm
  refine ⟨Nat.lt_of_lt_of_le h1 h.ser, ?_⟩
  intro x hx a ha t hu w hw e
  obtain ⟨k1, k2⟩ := h.tick _ _ _ hx h1
  obtain ⟨k3, k4⟩ := k2 a ha
  exact h2 x k1 a k3 t (k4 t hu w hw e) w hw e

theorem Copy.keep {v v' : V} {r : Rec} {raw : List Byte} (hc : Copy v r raw)
    (hst : rdState v'.L r.off = rdState v.L r.off) (hnx : rdNext v'.L r.off = rdNext v.L r.off)
    (h1 : v'.ov.map (.state r.o.id) = none → v.ov.map (.state r.o.id) = none)
    (h2 : v'.ov.map (.next r.o.id) = none → v.ov.map (.next r.o.id) = none) : Copy v' r raw :=
  ⟨hc.id, hc.pow2, hc.size, hc.key, fun h => by rw [hst]; exact hc.state (h1 h), fun h => by rw [hnx]; exact hc.next (h2 h)⟩

theorem Held.keep {v v' : V} {vis : List Rec} {P P' : Rec → Prop} {f : Option Found} (h : Held v vis P f)
    (hP : ∀ r ∈ vis, P' r ↔ P r) (hC : ∀ r ∈ vis, ∀ raw, (∃ g, f = some g ∧ g.raw = raw) → Copy v r raw → Copy v' r raw) : Held v' vis P' f := by
  cases f with
  | none => intro r hr; rw [hP r hr]; exact h r hr
  | some f =>
    obtain ⟨a, r, d, e1, e2, e3, e4, e5⟩ := h
    have hr : r ∈ vis := by rw [e1]; simp
    exact ⟨a, r, d, e1, (hP r hr).2 e2, e3, e4, hC r hr f.raw ⟨f, rfl, rfl⟩ e5⟩

theorem PcOk.keep {c : LCfg} {v v' : V} {i j : Nat} {P : Nat → Prop} {E : Cell → Prop} (h : Keep c v v' i P E) {pc : PC}
    (hp : PcOk c v j pc) (hj : j ≠ i) (hl : ∀ b e, pc.lock c = some (b, e) → ¬ P b)
    (he : ∀ raw ∈ pc.raws, ¬ E (.state (rdId (ofBytes raw) 0)) ∧ ¬ E (.next (rdId (ofBytes raw) 0))) : PcOk c v' j pc := by
  cases pc with
  | createWrite o off => exact (h.fresh j _ hj hp).1
  | createLink o off =>
    obtain ⟨h1, h2, h3⟩ := hp
    obtain ⟨k1, k2, k3⟩ := h.fresh j _ hj h1
    exact ⟨k1, k2 h2, k3.trans h3⟩
  | walk req key cur prev raw inc ex =>
    obtain ⟨vis, rest, h1, h2, h3, h4, h5⟩ := hp
    have hb : ¬ P (c.bkt key) := hl _ _ rfl
    have hcell := h.cell _ hb
    have hcp : ∀ r ∈ v.ch (c.bkt key), ∀ rw ∈ (PC.walk req key cur prev raw inc ex).raws, Copy v r rw → Copy v' r rw := by
      intro r hr rw hrw hc
      obtain ⟨c1, c2⟩ := hcell r hr
      have hE := he rw hrw
      rw [hc.id] at hE
      exact hc.keep c1 c2 (h.ov _ hb r hr _ (.inl rfl) hE.1) (h.ov _ hb r hr _ (.inr rfl) hE.2)
    have hm : ∀ r ∈ vis, ∀ st want, Match v'.L key st want r ↔ Match v.L key st want r := by
      intro r hr st want
      unfold Match
      rw [(hcell r (by rw [h1]; simp [hr])).1]
    refine ⟨vis, rest, by rw [h.ch _ hb]; exact h1, h2, h3, ?_, ?_⟩
    · intro b hb'
      obtain ⟨r, rest', e1, e2⟩ := h4 b hb'
      exact ⟨r, rest', e1, hcp r (by rw [h1, e1]; simp) b (by simp [PC.raws, hb']) e2⟩
    · unfold Seen at h5 ⊢
      have hv : ∀ r ∈ vis, r ∈ v.ch (c.bkt key) := fun r hr => by rw [h1]; simp [hr]
      cases req with
      | commit id =>
        refine ⟨h5.1.keep (fun r hr => hm r hr _ _) ?_, h5.2.keep (fun r hr => hm r hr _ _) ?_⟩
        · rintro r hr raw' ⟨g, rfl, rfl⟩ hc
          exact hcp r (hv r hr) _ (by simp [PC.raws]) hc
        · rintro r hr raw' ⟨g, rfl, rfl⟩ hc
          exact hcp r (hv r hr) _ (by simp [PC.raws]) hc
      | look want => exact ⟨h5.1, h5.2.1, fun r hr => by rw [hm r hr]; exact h5.2.2 r hr⟩
      | write id o l => exact ⟨h5.1, h5.2.1, fun r hr => by rw [hm r hr]; exact h5.2.2 r hr⟩
      | delete want => exact ⟨h5.1, h5.2.1, fun r hr => by rw [hm r hr]; exact h5.2.2 r hr⟩
  | writing key id targets =>
    obtain ⟨r, h1, h2, h3, h4⟩ := hp
    have hb : ¬ P (c.bkt key) := hl _ _ rfl
    exact ⟨r, by rw [h.ch _ hb]; exact h1, h2, ((h.cell _ hb r h1).1).trans h3, h4⟩
  | wait txn free tickets resp =>
    obtain ⟨h1, h2⟩ := hp
    refine ⟨h1.keep h, ?_⟩
    rcases h2 with h2 | ⟨r, k1, k2, k3, k4⟩
    · exact .inl h2
    · obtain ⟨d1, d2⟩ := h.dying j r hj k1
      exact .inr ⟨r, d1, k2, fun t ht w hw e => k3 t (d2 t ht w hw (.inl e)) w hw e,
        fun t ht w hw e => k4 t (d2 t ht w hw (.inr e)) w hw e⟩
  | evict tickets resp => exact Tick.keep h hp
  | dead => trivial

/-! ## Geometry -/

/-- where records are, from the allocator's invariant -/
structure Geo (c : LCfg) (recs : List (Own × Rec)) : Prop where
  pg : ∀ x ∈ recs, ∀ p ∈ regs c.pages x.2, c.heap.base ≤ p.1 ∧ p.1 + 2 ^ p.2 ≤ c.heap.base + c.heap.heap ∧ 2 ^ p.2 ∣ p.1 ∧ 8 ≤ p.2
  apart : ∀ x ∈ recs, ∀ y ∈ recs, x.2.off ≠ y.2.off → ∀ p ∈ regs c.pages x.2, ∀ q ∈ regs c.pages y.2, PageDisj p q
  own : ∀ x ∈ recs, ∀ p ∈ dataPgs c.pages x.2.o, PageDisj p (x.2.off, x.2.o.metaSizePow2)

def Heap (c : LCfg) (recs : List (Own × Rec)) (a : Buddy) (leak : List (Nat × Nat)) : Prop :=
  Buddy.Inv c.heap a (recs.flatMap (fun x => regs c.pages x.2) ++ leak)

theorem geo_of {c : LCfg} (hc : c.Ok) {recs : List (Own × Rec)} {a : Buddy} {leak : List (Nat × Nat)} (h : Heap c recs a leak) :
    Geo c recs := by
  have hd := List.pairwise_append.1 h.disj
  have hf := List.pairwise_flatMap.1 hd.1
  refine ⟨?_, ?_, ?_⟩
  · intro x hx p hp
    obtain ⟨⟨h1, h2, h3⟩, h4, h5⟩ := h.pgs p (List.mem_append_left _ (List.mem_flatMap.2 ⟨x, hx, hp⟩))
    exact ⟨h2, h3, h1, Nat.le_trans hc.s8 h4⟩
  · intro x hx y hy hne p hp q hq
    have : Std.Symm (fun x y : Own × Rec => ∀ p ∈ regs c.pages x.2, ∀ q ∈ regs c.pages y.2, PageDisj p q) :=
      ⟨fun a b hab p hp q hq => (hab q hq p hp).symm⟩
    have hxy : x ≠ y := fun e => hne (by rw [e])
    exact hf.2.forall hx hy hxy p hp q hq
  · intro x hx p hp
    have := hf.1 x hx
    unfold regs at this
    exact (List.pairwise_append.1 this).2.2 p hp _ (by simp)

theorem meta_mem {pages : Pages} (r : Rec) : (r.off, r.o.metaSizePow2) ∈ regs pages r := by simp [regs]

theorem Geo.off {c : LCfg} {recs : List (Own × Rec)} (g : Geo c recs) {x : Own × Rec} (hx : x ∈ recs) :
    c.heap.base ≤ x.2.off ∧ x.2.off + 2 ^ x.2.o.metaSizePow2 ≤ c.heap.base + c.heap.heap ∧ 256 ∣ x.2.off ∧
      256 ≤ 2 ^ x.2.o.metaSizePow2 := by
  obtain ⟨h1, h2, h3, h4⟩ := g.pg x hx _ (meta_mem x.2)
  have hp : 2 ^ 8 ≤ 2 ^ x.2.o.metaSizePow2 := Nat.pow_le_pow_right (by decide) h4
  exact ⟨h1, h2, Nat.dvd_trans (Nat.pow_dvd_pow 2 h4) h3, hp⟩

/-- two records' metadata pages are apart -/
theorem Geo.metas {c : LCfg} {recs : List (Own × Rec)} (g : Geo c recs) {x y : Own × Rec} (hx : x ∈ recs) (hy : y ∈ recs)
    (hne : x.2.off ≠ y.2.off) :
    x.2.off + 2 ^ x.2.o.metaSizePow2 ≤ y.2.off ∨ y.2.off + 2 ^ y.2.o.metaSizePow2 ≤ x.2.off :=
  g.apart x hx y hy hne _ (meta_mem _) _ (meta_mem _)

end Lite
end Blobd
