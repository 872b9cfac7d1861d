import Verif.Spec.DirectMetrics
import Verif.Proofs.DirectSpace
import Verif.Proofs.DirectRun
set_option autoImplicit false
/-! # Direct store: the counters follow the objects (C75) -/
namespace Blobd
namespace Direct
open List

/-! ## Lists of map entries -/

theorem Lists.insert {α : Type} {f f' : α → Option Obj} {key : Obj → α} {l : List Obj} (h : Lists f key l) {a : α} {o : Obj}
    (hk : key o = a) (h0 : f a = none) (h1 : f' a = some o) (h2 : ∀ j, j ≠ a → f' j = f j) : Lists f' key (o :: l) := by
  refine ⟨?_, fun j x => ?_⟩
  · rw [map_cons, nodup_cons]
    refine ⟨fun hm => ?_, h.1⟩
    obtain ⟨x, hx, e⟩ := mem_map.1 hm
    have := (h.2 (key x) x).2 ⟨hx, rfl⟩
    rw [e, hk, h0] at this
    cases this
  · by_cases hj : j = a
    · subst hj
      rw [h1]
      constructor
      · intro e; cases e; exact ⟨mem_cons_self, hk⟩
      · rintro ⟨hx, hkx⟩
        rcases mem_cons.1 hx with rfl | hx
        · rfl
        · have := (h.2 (key x) x).2 ⟨hx, rfl⟩
          rw [hkx, h0] at this
          cases this
    · rw [h2 j hj, h.2]
      constructor
      · rintro ⟨hx, hkx⟩; exact ⟨mem_cons_of_mem _ hx, hkx⟩
      · rintro ⟨hx, hkx⟩
        rcases mem_cons.1 hx with rfl | hx
        · exact absurd (hkx.symm.trans hk) hj
        · exact ⟨hx, hkx⟩

theorem Lists.remove {α : Type} {f f' : α → Option Obj} {key : Obj → α} {l : List Obj} (h : Lists f key l) {a : α} {o : Obj}
    (h0 : f a = some o) (h1 : f' a = none) (h2 : ∀ j, j ≠ a → f' j = f j) : ∃ l', l.Perm (o :: l') ∧ Lists f' key l' := by
  obtain ⟨hm, hk⟩ := (h.2 a o).1 h0
  obtain ⟨s, t, rfl⟩ := append_of_mem hm
  refine ⟨s ++ t, perm_middle, ?_⟩
  have hn := h.1
  have hp : (s ++ o :: t).Perm (o :: (s ++ t)) := perm_middle
  have hn2 := (hp.map key).nodup_iff.1 hn
  rw [map_cons, nodup_cons] at hn2
  refine ⟨hn2.2, fun j x => ?_⟩
  by_cases hj : j = a
  · subst hj
    rw [h1]
    constructor
    · intro e; cases e
    · rintro ⟨hx, e⟩
      exact absurd (mem_map.2 ⟨x, hx, e.trans hk.symm⟩) hn2.1
  · rw [h2 j hj, h.2]
    simp only [mem_append, mem_cons]
    constructor
    · rintro ⟨hx | rfl | hx, e⟩
      · exact ⟨Or.inl hx, e⟩
      · exact absurd (e.symm.trans hk) hj
      · exact ⟨Or.inr hx, e⟩
    · rintro ⟨hx | hx, e⟩
      · exact ⟨Or.inl hx, e⟩
      · exact ⟨Or.inr (Or.inr hx), e⟩

theorem Lists.len {α : Type} {f : α → Option Obj} {key : Obj → α} {l : List Obj} (h : Lists f key l) {n : Nat} (hn : HasLen f n) :
    n = l.length := by
  obtain ⟨ks, hks, rfl, hk⟩ := hn
  have hp : ks.Perm (l.map key) := by
    rw [perm_ext_iff_of_nodup hks h.1]
    intro a
    rw [← hk, Option.ne_none_iff_exists']
    constructor
    · rintro ⟨o, ho⟩
      obtain ⟨hm, e⟩ := (h.2 a o).1 ho
      exact mem_map.2 ⟨o, hm, e⟩
    · intro hm
      obtain ⟨o, hm, e⟩ := mem_map.1 hm
      exact ⟨o, (h.2 a o).2 ⟨hm, e⟩⟩
  rw [hp.length_eq, length_map]

theorem Lists.hasLen {α : Type} {f : α → Option Obj} {key : Obj → α} {l : List Obj} (h : Lists f key l) : HasLen f l.length := by
  refine ⟨l.map key, h.1, length_map _, fun a => ?_⟩
  rw [Option.ne_none_iff_exists']
  constructor
  · rintro ⟨o, ho⟩
    obtain ⟨hm, e⟩ := (h.2 a o).1 ho
    exact mem_map.2 ⟨o, hm, e⟩
  · intro hm
    obtain ⟨o, hm, e⟩ := mem_map.1 hm
    exact ⟨o, (h.2 a o).2 ⟨hm, e⟩⟩

theorem Lists.perm {α : Type} {f : α → Option Obj} {key : Obj → α} {l l' : List Obj} (h : Lists f key l) (h' : Lists f key l') :
    l.Perm l' := by
  have n1 : l.Nodup := Nodup.of_map key h.1
  have n2 : l'.Nodup := Nodup.of_map key h'.1
  rw [perm_ext_iff_of_nodup n1 n2]
  intro o
  constructor
  · intro hm; exact ((h'.2 (key o) o).1 ((h.2 (key o) o).2 ⟨hm, rfl⟩)).1
  · intro hm; exact ((h.2 (key o) o).1 ((h'.2 (key o) o).2 ⟨hm, rfl⟩)).1

/-! ## What calls in progress are still to count -/

/-- incomplete objects the call has taken but not yet discounted -/
def PC.tInc : PC → Int
  | .commitClaimed _ _ => 1
  | .commitSealed _ _ => 1
  | .commitPublished _ _ _ => 1
  | .commitTuple _ _ _ => 1
  | .reap _ (.replaced _) => 1
  | .reap _ .kept => 1
  | .reapTuple _ _ _ (.replaced _) => 1
  | .reapTuple _ _ _ .kept => 1
  | _ => 0

/-- committed objects the call has removed but not yet discounted, less those it has added but not yet counted -/
def PC.tCom : PC → Int
  | .commitPublished _ _ none => -1
  | .commitTuple _ none _ => -1
  | .reap _ .deleted => 1
  | .reapTuple _ _ _ .deleted => 1
  | _ => 0

/-- objects that are in no map and whose bytes are still counted -/
def PC.held : PC → List Obj
  | .commitClaimed o _ => [o]
  | .commitSealed o _ => [o]
  | .commitPublished _ _ ex => ex.toList
  | .commitTuple _ ex _ => ex.toList
  | .reap o _ => [o]
  | .reapTuple o _ _ _ => [o]
  | _ => []

def sumOf (f : Obj → Int) (l : List Obj) : Int := (l.map f).sum

theorem sumOf_cons (f : Obj → Int) (o : Obj) (l : List Obj) : sumOf f (o :: l) = f o + sumOf f l := by simp [sumOf]
theorem sumOf_app (f : Obj → Int) (a b : List Obj) : sumOf f (a ++ b) = sumOf f a + sumOf f b := by simp [sumOf]
theorem sumOf_nil (f : Obj → Int) : sumOf f [] = 0 := rfl
theorem sumOf_perm (f : Obj → Int) {a b : List Obj} (h : a.Perm b) : sumOf f a = sumOf f b := (h.map f).sum_eq

def thInc (ths : List Thread) : Int := (ths.map (fun th => th.pc.tInc)).sum
def thCom (ths : List Thread) : Int := (ths.map (fun th => th.pc.tCom)).sum
def thHeld (ths : List Thread) : List Obj := ths.flatMap (fun th => th.pc.held)

def noDeadT (ths : List Thread) : Prop := ∀ th ∈ ths, th.pc ≠ .dead

/-- the counters, exactly, with calls in progress; `X` are the superseded versions the last start counted -/
structure Bal (s : DSt) (m : Metrics) (I C X : List Obj) : Prop where
  inc : Lists s.incomplete (·.id) I
  com : Lists s.committed (·.m.key) C
  nInc : m.incomplete = I.length + thInc s.threads
  nCom : m.committed = C.length + thCom s.threads
  metaB : m.metaBytes = sumOf (fun o => (o.metaSize : Int)) I + sumOf (fun o => (o.metaSize : Int)) C +
    sumOf (fun o => (o.metaSize : Int)) (thHeld s.threads) + sumOf (fun o => (o.metaSize : Int)) X
  dataB : m.dataBytes = sumOf (fun o => (o.m.size : Int)) I + sumOf (fun o => (o.m.size : Int)) C +
    sumOf (fun o => (o.m.size : Int)) (thHeld s.threads) + sumOf (fun o => (o.m.size : Int)) X

theorem thInc_mid (pre post : List Thread) (th : Thread) : thInc (pre ++ th :: post) = th.pc.tInc + thInc (pre ++ post) := by
  simp [thInc]; omega
theorem thCom_mid (pre post : List Thread) (th : Thread) : thCom (pre ++ th :: post) = th.pc.tCom + thCom (pre ++ post) := by
  simp [thCom]; omega
theorem thHeld_mid (f : Obj → Int) (pre post : List Thread) (th : Thread) :
    sumOf f (thHeld (pre ++ th :: post)) = sumOf f th.pc.held + sumOf f (thHeld (pre ++ post)) := by
  simp [thHeld, sumOf]; omega
theorem thInc_snoc (l : List Thread) (th : Thread) : thInc (l ++ [th]) = th.pc.tInc + thInc l := by simp [thInc]; omega
theorem thCom_snoc (l : List Thread) (th : Thread) : thCom (l ++ [th]) = th.pc.tCom + thCom l := by simp [thCom]; omega
theorem thHeld_snoc (f : Obj → Int) (l : List Thread) (th : Thread) :
    sumOf f (thHeld (l ++ [th])) = sumOf f th.pc.held + sumOf f (thHeld l) := by
  simp [thHeld, sumOf]; omega

/-! ## The counters after a step are determined -/

theorem perm_head {α : Type} [DecidableEq α] {a b : α} {l : List α} (h : (a :: l).Perm (b :: l)) : a = b := by
  by_contra hne
  have := h.count_eq a
  rw [count_cons_self, count_cons_of_ne (Ne.symm hne)] at this
  omega

theorem count_drop {s s' : DSt} {m m' : Metrics} {pre post : List Thread} {th : Thread} (h : Count s s' m m')
    (h1 : s.threads = pre ++ th :: post) (h2 : s'.threads = pre ++ post) : m' = th.pc.count m := by
  cases h with
  | @ended pre2 post2 th2 _ e1 e2 =>
    have hp : (th2 :: (pre ++ post)).Perm (th :: (pre ++ post)) := by
      have a : (pre2 ++ th2 :: post2).Perm (th2 :: (pre ++ post)) := by
        rw [← h2, e2]; exact perm_middle
      rw [← e1, h1] at a
      exact a.symm.trans perm_middle
    rw [perm_head hp]
  | inspected e1 => rw [h1, h2] at e1; have := congrArg length e1; simp at this
  | quiet e1 => rw [h1, h2] at e1; simp only [length_append, length_cons] at e1; omega

theorem count_keep {s s' : DSt} {m m' : Metrics} (h : Count s s' m m')
    (h1 : s.threads.length ≤ s'.threads.length) (h2 : s'.acks = s.acks ∨ ∃ a, s'.acks = s.acks ++ [a] ∧ a.resp = .notFound) : m' = m := by
  cases h with
  | ended e1 e2 => rw [e1, e2] at h1; simp only [length_append, length_cons] at h1; omega
  | @inspected a _ e1 e2 e3 =>
    rcases h2 with h2 | ⟨b, h2, h3⟩
    · rw [h2] at e2; have := congrArg length e2; simp at this
    · rw [h2] at e2
      have := append_cancel_left e2
      simp only [cons.injEq, and_true] at this
      subst this
      rw [h3] at e3; cases e3
  | quiet => rfl

theorem count_swap {s s' : DSt} {m m' : Metrics} {pre post : List Thread} {th th' : Thread} (h : Count s s' m m')
    (h1 : s.threads = pre ++ th :: post) (h2 : s'.threads = pre ++ th' :: post) (h3 : s'.acks = s.acks) : m' = m :=
  count_keep h (by rw [h1, h2]; simp) (Or.inl h3)

theorem count_snoc {s s' : DSt} {m m' : Metrics} {th : Thread} (h : Count s s' m m')
    (h2 : s'.threads = s.threads ++ [th]) (h3 : s'.acks = s.acks) : m' = m :=
  count_keep h (by rw [h2]; simp) (Or.inl h3)

/-- every step has a count -/
theorem count_total {c : SCfg} {s s' : DSt} (hs : Step c s s') (m : Metrics) : ∃ m', Count s s' m m' := by
  cases hs with
  | createData => exact ⟨_, .quiet (by simp) (Or.inl rfl)⟩
  | createDataPanic => exact ⟨_, .quiet (by simp) (Or.inl rfl)⟩
  | createMeta _ ht => exact ⟨_, .quiet (by simp [ht]) (Or.inl rfl)⟩
  | createMetaPanic ht => exact ⟨_, .quiet (by simp [ht]) (Or.inl rfl)⟩
  | device => exact ⟨_, .quiet (by simp) (Or.inl rfl)⟩
  | metaWritten ht => exact ⟨_, .quiet (by simp [ht]) (Or.inl rfl)⟩
  | createInsert ht => exact ⟨_, .quiet (by simp [ht]) (Or.inl rfl)⟩
  | createInsertPanic ht => exact ⟨_, .quiet (by simp [ht]) (Or.inl rfl)⟩
  | created ht => exact ⟨_, .ended ht rfl⟩
  | openHandle => exact ⟨_, .quiet (by simp) (Or.inl rfl)⟩
  | writeStart => exact ⟨_, .quiet (by simp) (Or.inl rfl)⟩
  | writeDone => exact ⟨_, .quiet (by simp) (Or.inl rfl)⟩
  | writeCancel => exact ⟨_, .quiet (by simp) (Or.inl rfl)⟩
  | orphanDone => exact ⟨_, .quiet (by simp) (Or.inl rfl)⟩
  | commitClaim => exact ⟨_, .quiet (by simp) (Or.inl rfl)⟩
  | commitRefused => exact ⟨_, .quiet (by simp) (Or.inr ⟨_, rfl, rfl⟩)⟩
  | commitSeal ht => exact ⟨_, .quiet (by simp [ht]) (Or.inl rfl)⟩
  | commitKept ht => exact ⟨_, .quiet (by simp [ht]) (Or.inl rfl)⟩
  | commitPublish ht => exact ⟨_, .quiet (by simp [ht]) (Or.inl rfl)⟩
  | commitUpdate ht => exact ⟨_, .quiet (by simp [ht]) (Or.inl rfl)⟩
  | commitUpdatePanic ht => exact ⟨_, .quiet (by simp [ht]) (Or.inl rfl)⟩
  | commitDone ht => exact ⟨_, .ended ht rfl⟩
  | commitReap ht => exact ⟨_, .quiet (by simp [ht]) (Or.inl rfl)⟩
  | delete => exact ⟨_, .quiet (by simp) (Or.inl rfl)⟩
  | missing => exact ⟨_, .quiet (by simp) (Or.inr ⟨_, rfl, rfl⟩)⟩
  | inspect => exact ⟨_, .inspected rfl rfl rfl⟩
  | reapTuple ht => exact ⟨_, .quiet (by simp [ht]) (Or.inl rfl)⟩
  | reapPanic ht => exact ⟨_, .quiet (by simp [ht]) (Or.inl rfl)⟩
  | reaped ht => exact ⟨_, .ended ht rfl⟩
  | bg => exact ⟨_, .quiet (by simp) (Or.inl rfl)⟩

/-! ## The balance is kept by every step -/

/-- a thread moves on and what it owes does not change; maps and answers stay -/
theorem Bal.swap {s s' : DSt} {m m' : Metrics} {I C X : List Obj} {pre post : List Thread} {th : Thread} {pc : PC} (h : Bal s m I C X)
    (hn : Count s s' m m') (ht : s.threads = pre ++ th :: post) (ht' : s'.threads = pre ++ withPc th pc :: post)
    (ha : s'.acks = s.acks) (hi : s'.incomplete = s.incomplete) (hc : s'.committed = s.committed)
    (h1 : pc.tInc = th.pc.tInc) (h2 : pc.tCom = th.pc.tCom) (h3 : pc.held = th.pc.held) : Bal s' m' I C X := by
  rw [count_swap hn ht ht' ha]
  refine ⟨hi ▸ h.inc, hc ▸ h.com, ?_, ?_, ?_, ?_⟩
  · rw [h.nInc, ht, ht', thInc_mid, thInc_mid]; simp [withPc, h1]
  · rw [h.nCom, ht, ht', thCom_mid, thCom_mid]; simp [withPc, h2]
  · rw [h.metaB, ht, ht', thHeld_mid, thHeld_mid]; simp [withPc, h3]
  · rw [h.dataB, ht, ht', thHeld_mid, thHeld_mid]; simp [withPc, h3]

theorem Bal.same {s s' : DSt} {m m' : Metrics} {I C X : List Obj} (h : Bal s m I C X)
    (hm : m'.incomplete = m.incomplete ∧ m'.committed = m.committed ∧ m'.metaBytes = m.metaBytes ∧ m'.dataBytes = m.dataBytes)
    (ht : s'.threads = s.threads) (hi : s'.incomplete = s.incomplete) (hc : s'.committed = s.committed) : Bal s' m' I C X := by
  obtain ⟨e1, e2, e3, e4⟩ := hm
  exact ⟨hi ▸ h.inc, hc ▸ h.com, by rw [e1, ht]; exact h.nInc, by rw [e2, ht]; exact h.nCom, by rw [e3, ht]; exact h.metaB,
    by rw [e4, ht]; exact h.dataB⟩

/-- a new thread that owes nothing -/
theorem Bal.snoc {s s' : DSt} {m m' : Metrics} {I C X : List Obj} {th : Thread} (h : Bal s m I C X)
    (hn : Count s s' m m') (ht' : s'.threads = s.threads ++ [th])
    (ha : s'.acks = s.acks) (hi : s'.incomplete = s.incomplete) (hc : s'.committed = s.committed)
    (h1 : th.pc.tInc = 0) (h2 : th.pc.tCom = 0) (h3 : th.pc.held = []) : Bal s' m' I C X := by
  rw [count_snoc hn ht' ha]
  refine ⟨hi ▸ h.inc, hc ▸ h.com, ?_, ?_, ?_, ?_⟩
  · rw [h.nInc, ht', thInc_snoc, h1]; omega
  · rw [h.nCom, ht', thCom_snoc, h2]; omega
  · rw [h.metaB, ht', thHeld_snoc, h3, sumOf_nil]; omega
  · rw [h.dataB, ht', thHeld_snoc, h3, sumOf_nil]; omega

theorem bal_step {c : SCfg} {s s' : DSt} {m m' : Metrics} {I C X : List Obj} (hid : IdInv s) (h : Bal s m I C X) (hs : Step c s s')
    (hn : Count s s' m m') (hd' : NoDead s') : ∃ I' C', Bal s' m' I' C' X := by
  have quiet : ∀ {a b : Metrics}, a = b → a.incomplete = b.incomplete ∧ a.committed = b.committed ∧ a.metaBytes = b.metaBytes ∧
      a.dataBytes = b.dataBytes := by rintro a _ rfl; exact ⟨rfl, rfl, rfl, rfl⟩
  cases hs with
  | createData => exact ⟨I, C, h.snoc hn rfl rfl rfl rfl rfl rfl rfl⟩
  | createDataPanic => exact absurd rfl (hd' _ (mem_append_right _ mem_cons_self))
  | createMeta _ ht hp => exact ⟨I, C, h.swap hn ht rfl rfl rfl rfl (by rw [hp]; rfl) (by rw [hp]; rfl) (by rw [hp]; rfl)⟩
  | createMetaPanic => exact absurd hd' (not_noDead rfl)
  | device => exact ⟨I, C, h.same (quiet (count_keep hn (by simp) (Or.inl rfl))) rfl rfl rfl⟩
  | metaWritten ht hp => exact ⟨I, C, h.swap hn ht rfl rfl rfl rfl (by rw [hp]; rfl) (by rw [hp]; rfl) (by rw [hp]; rfl)⟩
  | createInsert ht hp => exact ⟨I, C, h.swap hn ht rfl rfl rfl rfl (by rw [hp]; rfl) (by rw [hp]; rfl) (by rw [hp]; rfl)⟩
  | createInsertPanic => exact absurd hd' (not_noDead rfl)
  | @created pre th post o ticket ht hp hf =>
    rw [count_drop hn ht rfl, hp]
    have hnone : s.incomplete o.id = none := (hid.cidFree th (by rw [ht]; simp) o.id (by rw [hp]; simp [PC.cid])).1
    refine ⟨o :: I, C, h.inc.insert rfl hnone (by simp [upd]) (by intro j hj; simp [upd, hj]), h.com, ?_, ?_, ?_, ?_⟩
    · have := h.nInc; rw [ht, thInc_mid, hp] at this
      simp only [PC.count, Metrics.onCreated, PC.tInc, length_cons] at this ⊢; omega
    · have := h.nCom; rw [ht, thCom_mid, hp] at this
      simp only [PC.count, Metrics.onCreated, PC.tCom] at this ⊢; omega
    · have := h.metaB; rw [ht, thHeld_mid, hp] at this
      simp only [PC.count, Metrics.onCreated, PC.held, sumOf_nil, sumOf_cons] at this ⊢; omega
    · have := h.dataB; rw [ht, thHeld_mid, hp] at this
      simp only [PC.count, Metrics.onCreated, PC.held, sumOf_nil, sumOf_cons] at this ⊢; omega
  | openHandle => exact ⟨I, C, h.same (quiet (count_keep hn (by simp) (Or.inl rfl))) rfl rfl rfl⟩
  | writeStart => exact ⟨I, C, h.same (quiet (count_keep hn (by simp) (Or.inl rfl))) rfl rfl rfl⟩
  | writeDone => exact ⟨I, C, h.same (quiet (count_keep hn (by simp) (Or.inl rfl))) rfl rfl rfl⟩
  | writeCancel => exact ⟨I, C, h.same (quiet (count_keep hn (by simp) (Or.inl rfl))) rfl rfl rfl⟩
  | orphanDone => exact ⟨I, C, h.same (quiet (count_keep hn (by simp) (Or.inl rfl))) rfl rfl rfl⟩
  | @commitClaim o id ifne ho =>
    rw [count_snoc hn rfl rfl]
    obtain ⟨I', hp, hl⟩ := h.inc.remove (f' := upd s.incomplete id none) ho (by simp [upd]) (by intro j hj; simp [upd, hj])
    refine ⟨I', C, hl, h.com, ?_, ?_, ?_, ?_⟩
    · rw [h.nInc, thInc_snoc, hp.length_eq]; simp only [PC.tInc, length_cons]; omega
    · rw [h.nCom, thCom_snoc]; simp only [PC.tCom]; omega
    · rw [h.metaB, thHeld_snoc, sumOf_perm _ hp]; simp only [PC.held, sumOf_cons, sumOf_nil]; omega
    · rw [h.dataB, thHeld_snoc, sumOf_perm _ hp]; simp only [PC.held, sumOf_cons, sumOf_nil]; omega
  | commitRefused => exact ⟨I, C, h.same (quiet (count_keep hn (by simp) (Or.inr ⟨_, rfl, rfl⟩))) rfl rfl rfl⟩
  | commitSeal ht hp => exact ⟨I, C, h.swap hn ht rfl rfl rfl rfl (by rw [hp]; rfl) (by rw [hp]; rfl) (by rw [hp]; rfl)⟩
  | commitKept ht hp => exact ⟨I, C, h.swap hn ht rfl rfl rfl rfl (by rw [hp]; rfl) (by rw [hp]; rfl) (by rw [hp]; rfl)⟩
  | @commitPublish pre th post o ifne newId ht hp hw hx hnm =>
    rw [count_swap hn ht rfl rfl]
    cases he : s.committed o.m.key with
    | none =>
      refine ⟨I, ⟨newId, o.m⟩ :: C, h.inc, h.com.insert rfl he (by simp [updKey]) (by intro j hj; simp [updKey, hj]), ?_, ?_, ?_, ?_⟩
      · rw [h.nInc, ht, thInc_mid, thInc_mid, hp]; simp only [PC.tInc, withPc]
      · rw [h.nCom, ht, thCom_mid, thCom_mid, hp]; simp only [PC.tCom, withPc, length_cons]; omega
      · rw [h.metaB, ht, thHeld_mid, thHeld_mid, hp]
        simp only [PC.held, withPc, sumOf_cons, sumOf_nil, Option.toList_none]
        show _ = _ + ((o.metaSize : Int) + _) + _ + _
        omega
      · rw [h.dataB, ht, thHeld_mid, thHeld_mid, hp]
        simp only [PC.held, withPc, sumOf_cons, sumOf_nil, Option.toList_none]; omega
    | some e =>
      obtain ⟨C', hp', hl⟩ := h.com.remove (f' := updKey s.committed o.m.key none) he (by simp [updKey]) (by intro j hj; simp [updKey, hj])
      refine ⟨I, ⟨newId, o.m⟩ :: C', h.inc, hl.insert rfl (by simp [updKey]) (by simp [updKey]) (by intro j hj; simp [updKey, hj]), ?_, ?_, ?_, ?_⟩
      · rw [h.nInc, ht, thInc_mid, thInc_mid, hp]; simp only [PC.tInc, withPc]
      · rw [h.nCom, ht, thCom_mid, thCom_mid, hp, hp'.length_eq]; simp only [PC.tCom, withPc, length_cons]
      · rw [h.metaB, ht, thHeld_mid, thHeld_mid, hp, sumOf_perm _ hp']
        simp only [PC.held, withPc, sumOf_cons, sumOf_nil, Option.toList_some]
        show _ = _ + ((o.metaSize : Int) + _) + _ + _
        omega
      · rw [h.dataB, ht, thHeld_mid, thHeld_mid, hp, sumOf_perm _ hp']
        simp only [PC.held, withPc, sumOf_cons, sumOf_nil, Option.toList_some]; omega
  | @commitUpdate pre th post old o ex ts' ht hp =>
    refine ⟨I, C, h.swap hn ht rfl rfl rfl rfl (by rw [hp]; rfl) ?_ (by rw [hp]; rfl)⟩
    rw [hp]; cases ex <;> rfl
  | commitUpdatePanic => exact absurd hd' (not_noDead rfl)
  | @commitDone pre th post o ticket ht hp hf =>
    rw [count_drop hn ht rfl, hp]
    refine ⟨I, C, h.inc, h.com, ?_, ?_, ?_, ?_⟩
    · have := h.nInc; rw [ht, thInc_mid, hp] at this
      simp only [PC.count, Metrics.onCommitted, PC.tInc] at this ⊢; omega
    · have := h.nCom; rw [ht, thCom_mid, hp] at this
      simp only [PC.count, Metrics.onCommitted, PC.tCom, if_true] at this ⊢; omega
    · have := h.metaB; rw [ht, thHeld_mid, hp] at this
      simp only [PC.count, Metrics.onCommitted, PC.held, sumOf_nil, Option.toList_none] at this ⊢; omega
    · have := h.dataB; rw [ht, thHeld_mid, hp] at this
      simp only [PC.count, Metrics.onCommitted, PC.held, sumOf_nil, Option.toList_none] at this ⊢; omega
  | commitReap ht hp =>
    exact ⟨I, C, h.swap hn ht rfl rfl rfl rfl (by rw [hp]; rfl) (by rw [hp]; rfl) (by rw [hp]; rfl)⟩
  | @delete o k want ho hw =>
    rw [count_snoc hn rfl rfl]
    obtain ⟨C', hp, hl⟩ := h.com.remove (f' := updKey s.committed k none) ho (by simp [updKey]) (by intro j hj; simp [updKey, hj])
    refine ⟨I, C', h.inc, hl, ?_, ?_, ?_, ?_⟩
    · rw [h.nInc, thInc_snoc]; simp only [PC.tInc]; omega
    · rw [h.nCom, thCom_snoc, hp.length_eq]; simp only [PC.tCom, length_cons]; omega
    · rw [h.metaB, thHeld_snoc, sumOf_perm _ hp]; simp only [PC.held, sumOf_cons, sumOf_nil]; omega
    · rw [h.dataB, thHeld_snoc, sumOf_perm _ hp]; simp only [PC.held, sumOf_cons, sumOf_nil]; omega
  | missing => exact ⟨I, C, h.same (quiet (count_keep hn (by simp) (Or.inr ⟨_, rfl, rfl⟩))) rfl rfl rfl⟩
  | @inspect o k want ho hw =>
    refine ⟨I, C, h.same ?_ rfl rfl rfl⟩
    cases hn with
    | ended e1 e2 => simp only at e2; rw [e1] at e2; have := congrArg length e2; simp at this
    | inspected => exact ⟨rfl, rfl, rfl, rfl⟩
    | quiet => exact ⟨rfl, rfl, rfl, rfl⟩
  | @reapTuple pre th post o why ts' t ht hp =>
    refine ⟨I, C, h.swap hn ht rfl rfl rfl rfl ?_ ?_ (by rw [hp]; rfl)⟩ <;> rw [hp] <;> cases why <;> rfl
  | reapPanic => exact absurd hd' (not_noDead rfl)
  | @reaped pre th post o t ticket why a' ht hp hf ha =>
    rw [count_drop hn ht rfl, hp]
    have i1 := h.nInc; rw [ht, thInc_mid, hp] at i1
    have i2 := h.nCom; rw [ht, thCom_mid, hp] at i2
    have i3 := h.metaB; rw [ht, thHeld_mid, hp] at i3
    have i4 := h.dataB; rw [ht, thHeld_mid, hp] at i4
    refine ⟨I, C, h.inc, h.com, ?_, ?_, ?_, ?_⟩ <;> cases why <;>
      simp only [PC.count, Metrics.onReaped, Metrics.onCommitted, Metrics.onDeleted, PC.tInc, PC.tCom, PC.held, sumOf_cons, sumOf_nil,
        Bool.false_eq_true, if_false] at i1 i2 i3 i4 ⊢ <;> omega
  | bg => exact ⟨I, C, h.same (quiet (count_keep hn (by simp) (Or.inl rfl))) rfl rfl rfl⟩


theorem faults_mono {c : SCfg} {s s' : DSt} (hs : Step c s s') (h : .duplicateKey ∉ s'.faults) : .duplicateKey ∉ s.faults := by
  cases hs <;> simp only [mem_append, mem_cons, not_or] at h <;> first | exact h | exact h.2

/-! ## Start -/

theorem loadCounted_cons {c : SCfg} {dev : Mem} {l l' : LoadSt} {t : Tuple} {ts : List Tuple} (h : loadOne c dev l t = some l') :
    loadCounted c dev l (t :: ts) = (loadKeeps dev l t).toList ++ loadCounted c dev l' ts := by
  simp only [loadCounted, h]

theorem loadCounted_spec {c : SCfg} {dev : Mem} : ∀ {order : List Tuple} {l l' : LoadSt} {I C : List Obj},
    Lists l.incomplete (·.id) I → Lists l.committed (·.m.key) C → loadAll c dev l order = some l' →
    ∃ I' C' X, Lists l'.incomplete (·.id) I' ∧ Lists l'.committed (·.m.key) C' ∧
      (I ++ C ++ loadCounted c dev l order).Perm (I' ++ C' ++ X) ∧ (l'.dup = false → l.dup = false ∧ X = []) := by
  intro order
  induction order with
  | nil =>
    intro l l' I C hI hC h
    simp only [loadAll, foldlM_nil] at h; cases h
    exact ⟨I, C, [], hI, hC, by simp [loadCounted], fun h => ⟨h, rfl⟩⟩
  | cons t ts ih =>
    intro l l' I C hI hC h
    rw [loadAll_cons] at h
    cases h1 : loadOne c dev l t with
    | none => rw [h1] at h; simp at h
    | some l1 =>
      rw [h1] at h
      rw [loadCounted_cons h1]
      obtain ⟨m, hm, _, hx⟩ := loadOne_some h1
      rcases hx with ⟨e, e0, e1, e2, e3, _⟩ | ⟨e, e0, e1, e2, e3, _⟩ | ⟨e, x, e0, e1, e3, hx⟩
      · have hk : loadKeeps dev l t = some ⟨t.id, m⟩ := by simp [loadKeeps, hm, e]
        obtain ⟨I', C', X, a1, a2, a3, a4⟩ := ih (I := ⟨t.id, m⟩ :: I) (C := C)
          (hI.insert rfl e0 (by rw [e1]; simp [upd]) (by intro j hj; rw [e1]; simp [upd, hj])) (e2 ▸ hC) h
        refine ⟨I', C', X, a1, a2, ?_, e3 ▸ a4⟩
        rw [hk]
        refine Perm.trans ?_ a3
        simp only [Option.toList_some, singleton_append, cons_append]
        exact perm_middle
      · have hk : loadKeeps dev l t = some ⟨t.id, m⟩ := by simp [loadKeeps, hm, e, e0]
        obtain ⟨I', C', X, a1, a2, a3, a4⟩ := ih (I := I) (C := ⟨t.id, m⟩ :: C) (e1 ▸ hI)
          (hC.insert rfl e0 (by rw [e2]; simp [updKey]) (by intro j hj; rw [e2]; simp [updKey, hj])) h
        refine ⟨I', C', X, a1, a2, ?_, e3 ▸ a4⟩
        rw [hk]
        refine Perm.trans ?_ a3
        simp only [Option.toList_some, singleton_append, append_assoc, cons_append]
        exact Perm.append_left _ perm_middle
      · rcases hx with ⟨hgt, e4, _⟩ | ⟨hlt, e4, _⟩
        · have hk : loadKeeps dev l t = none := by simp [loadKeeps, hm, e, e0, hgt]
          obtain ⟨I', C', X, a1, a2, a3, a4⟩ := ih (e1 ▸ hI) (e4 ▸ hC) h
          refine ⟨I', C', X, a1, a2, ?_, fun hd => ?_⟩
          · rw [hk]; simpa using a3
          · rw [e3] at a4; cases (a4 hd).1
        · have hk : loadKeeps dev l t = some ⟨t.id, m⟩ := by
            simp only [loadKeeps, hm, e, e0]; rw [if_neg (by omega)]
          obtain ⟨C0, hp, hl⟩ := hC.remove (f' := updKey l.committed m.key none) e0 (by simp [updKey]) (by intro j hj; simp [updKey, hj])
          obtain ⟨I', C', X, a1, a2, a3, a4⟩ := ih (I := I) (C := ⟨t.id, m⟩ :: C0) (e1 ▸ hI)
            (hl.insert rfl (by simp [updKey]) (by rw [e4]; simp [updKey]) (by intro j hj; rw [e4]; simp [updKey, hj])) h
          refine ⟨I', C', x :: X, a1, a2, ?_, fun hd => ?_⟩
          · rw [hk]
            have b1 : (I ++ C ++ ((some (⟨t.id, m⟩ : Obj)).toList ++ loadCounted c dev l1 ts)).Perm
                (x :: (I ++ ⟨t.id, m⟩ :: C0 ++ loadCounted c dev l1 ts)) := by
              simp only [Option.toList_some, singleton_append, append_assoc, cons_append]
              refine (Perm.append_left I (Perm.append_right _ hp)).trans ?_
              simp only [cons_append]
              refine perm_middle.trans (Perm.cons _ (Perm.append_left _ perm_middle))
            exact b1.trans ((Perm.cons x a3).trans perm_middle.symm)
          · rw [e3] at a4; cases (a4 hd).1

theorem lists_empty {α : Type} (key : Obj → α) : Lists (fun _ => none) key [] := ⟨by simp, by simp⟩

theorem bal_load {c : SCfg} {s s' : DSt} {m : Metrics} {order : List Tuple} (hl : load c s order = some s')
    (hm : LoadCount c s s' order m) : ∃ I C X, Bal s' m I C X ∧ (.duplicateKey ∉ s'.faults → X = []) := by
  obtain ⟨a0, l, h0, h1, _, rfl⟩ := load_some hl
  obtain ⟨a0', ni, nc, h0', hi, hc, rfl⟩ := hm
  rw [h0] at h0'; cases h0'
  obtain ⟨I, C, X, b1, b2, b3, b4⟩ := loadCounted_spec (lists_empty _) (lists_empty _) h1
  have hsum : ∀ f : Obj → Int, (((loadCounted c s.dev ⟨a0, fun _ => none, fun _ => none, false⟩ order).map f).sum) =
      sumOf f I + sumOf f C + sumOf f [] + sumOf f X := by
    intro f
    have := sumOf_perm f b3
    simp only [sumOf_app, sumOf_nil, nil_append] at this ⊢
    rw [show ((loadCounted c s.dev ⟨a0, fun _ => none, fun _ => none, false⟩ order).map f).sum = sumOf f (loadCounted c s.dev ⟨a0, fun _ => none, fun _ => none, false⟩ order) from rfl, this]; omega
  refine ⟨I, C, X, ⟨b1, b2, ?_, ?_, hsum _, hsum _⟩, fun hd => ?_⟩
  · rw [b1.len hi]; simp [thInc]
  · rw [b2.len hc]; simp [thCom]
  · refine (b4 ?_).2
    cases e : l.dup with
    | false => rfl
    | true => simp [e] at hd

theorem loadCount_total {c : SCfg} {s s' : DSt} {order : List Tuple} (hl : load c s order = some s') : ∃ m, LoadCount c s s' order m := by
  obtain ⟨a0, l, h0, h1, _, rfl⟩ := load_some hl
  obtain ⟨I, C, X, b1, b2, _, _⟩ := loadCounted_spec (lists_empty _) (lists_empty _) h1
  exact ⟨_, a0, _, _, h0, b1.hasLen, b2.hasLen, rfl⟩

/-! ## All executions -/

theorem mreach_reach {c : SCfg} {s : DSt} {m : Metrics} (h : MReach c s m) : Reach c s := by
  induction h with
  | fresh h => exact .fresh h
  | step _ hs _ ih => exact ih.step hs
  | restart order _ hp hl _ ih => exact ih.restart order hp hl

theorem mreach_total {c : SCfg} {s : DSt} (h : Reach c s) : ∃ m, MReach c s m := by
  induction h with
  | fresh h => exact ⟨_, .fresh h⟩
  | step _ hs ih =>
    obtain ⟨m, hm⟩ := ih
    obtain ⟨m', hm'⟩ := count_total hs m
    exact ⟨m', hm.step hs hm'⟩
  | restart order _ hp hl ih =>
    obtain ⟨m, hm⟩ := ih
    obtain ⟨m', hm'⟩ := loadCount_total hl
    exact ⟨m', hm.restart order hp hl hm'⟩

theorem noDead_step {c : SCfg} {s s' : DSt} (hs : Step c s s') (h : NoDead s') : NoDead s := by
  cases hs with
  | createData => exact noDead_snoc rfl h
  | createDataPanic => exact noDead_snoc rfl h
  | createMeta _ ht hp => exact noDead_swap ht (by rw [hp]; simp) rfl h
  | createMetaPanic ht hp => exact noDead_swap ht (by rw [hp]; simp) rfl h
  | metaWritten ht hp => exact noDead_swap ht (by rw [hp]; simp) rfl h
  | createInsert ht hp => exact noDead_swap ht (by rw [hp]; simp) rfl h
  | createInsertPanic ht hp => exact noDead_swap ht (by rw [hp]; simp) rfl h
  | created ht hp => exact noDead_drop ht (by rw [hp]; simp) rfl h
  | commitClaim => exact noDead_snoc rfl h
  | commitSeal ht hp => exact noDead_swap ht (by rw [hp]; simp) rfl h
  | commitKept ht hp => exact noDead_swap ht (by rw [hp]; simp) rfl h
  | commitPublish ht hp => exact noDead_swap ht (by rw [hp]; simp) rfl h
  | commitUpdate ht hp => exact noDead_swap ht (by rw [hp]; simp) rfl h
  | commitUpdatePanic ht hp => exact noDead_swap ht (by rw [hp]; simp) rfl h
  | commitDone ht hp => exact noDead_drop ht (by rw [hp]; simp) rfl h
  | commitReap ht hp => exact noDead_swap ht (by rw [hp]; simp) rfl h
  | delete => exact noDead_snoc rfl h
  | reapTuple ht hp => exact noDead_swap ht (by rw [hp]; simp) rfl h
  | reapPanic ht hp => exact noDead_swap ht (by rw [hp]; simp) rfl h
  | reaped ht hp => exact noDead_drop ht (by rw [hp]; simp) rfl h
  | _ => exact h

theorem mreach_bal {c : SCfg} {s : DSt} {m : Metrics} (h : MReach c s m) : NoDead s →
    ∃ I C X, Bal s m I C X ∧ (.duplicateKey ∉ s.faults → X = []) := by
  induction h with
  | fresh h =>
    intro _
    simp only [fresh] at h
    split at h
    · cases h
    · cases h
      exact ⟨[], [], [], ⟨lists_empty _, lists_empty _, rfl, rfl, rfl, rfl⟩, fun _ => rfl⟩
  | step hr hs hn ih =>
    intro hd
    obtain ⟨I, C, X, hb, hx⟩ := ih (noDead_step hs hd)
    obtain ⟨I', C', hb'⟩ := bal_step (reach_id (mreach_reach hr)) hb hs hn hd
    exact ⟨I', C', X, hb', fun h => hx (faults_mono hs h)⟩
  | restart order hr hp hl hm _ => intro _; exact bal_load hl hm

/-! ## Successful calls -/

theorem answered_snoc {s s' : DSt} {a : Ack} (p : Resp → Bool) (h : s'.acks = s.acks ++ [a]) :
    answered s' p = answered s p + (if p a.resp then 1 else 0) := by
  simp only [answered, h, filter_append, length_append, filter_cons, filter_nil]
  split <;> simp

/-- op counters count answers -/
structure Ops (s : DSt) (m : Metrics) : Prop where
  cre : m.createOps = answered s Resp.isCreated
  com : m.commitOps = answered s Resp.isCommitted
  del : m.deleteOps = answered s Resp.isDeleted
  ins : m.inspectOps = answered s Resp.inspects

theorem Ops.same {s s' : DSt} {m m' : Metrics} (h : Ops s m) (hm : m' = m) (ha : s'.acks = s.acks) : Ops s' m' := by
  subst hm
  exact ⟨by simpa [answered, ha] using h.cre, by simpa [answered, ha] using h.com, by simpa [answered, ha] using h.del,
    by simpa [answered, ha] using h.ins⟩

theorem Ops.none {s s' : DSt} {m m' : Metrics} {a : Ack} (h : Ops s m) (hm : m' = m) (ha : s'.acks = s.acks ++ [a]) (hr : a.resp = .notFound) :
    Ops s' m' := by
  subst hm
  constructor <;> rw [answered_snoc _ ha, hr] <;> simp [Resp.isCreated, Resp.isCommitted, Resp.isDeleted, Resp.inspects, h.cre, h.com, h.del, h.ins]

theorem ops_step {c : SCfg} {s s' : DSt} {m m' : Metrics} (h : Ops s m) (hs : Step c s s') (hn : Count s s' m m') : Ops s' m' := by
  cases hs with
  | createData => exact h.same (count_snoc hn rfl rfl) rfl
  | createDataPanic => exact h.same (count_snoc hn rfl rfl) rfl
  | createMeta _ ht => exact h.same (count_swap hn ht rfl rfl) rfl
  | createMetaPanic ht => exact h.same (count_swap hn ht rfl rfl) rfl
  | metaWritten ht => exact h.same (count_swap hn ht rfl rfl) rfl
  | createInsert ht => exact h.same (count_swap hn ht rfl rfl) rfl
  | createInsertPanic ht => exact h.same (count_swap hn ht rfl rfl) rfl
  | commitClaim => exact h.same (count_snoc hn rfl rfl) rfl
  | commitSeal ht => exact h.same (count_swap hn ht rfl rfl) rfl
  | commitKept ht => exact h.same (count_swap hn ht rfl rfl) rfl
  | commitPublish ht => exact h.same (count_swap hn ht rfl rfl) rfl
  | commitUpdate ht => exact h.same (count_swap hn ht rfl rfl) rfl
  | commitUpdatePanic ht => exact h.same (count_swap hn ht rfl rfl) rfl
  | commitReap ht => exact h.same (count_swap hn ht rfl rfl) rfl
  | delete => exact h.same (count_snoc hn rfl rfl) rfl
  | reapTuple ht => exact h.same (count_swap hn ht rfl rfl) rfl
  | reapPanic ht => exact h.same (count_swap hn ht rfl rfl) rfl
  | commitRefused => exact h.none (count_keep hn (by simp) (Or.inr ⟨_, rfl, rfl⟩)) rfl rfl
  | missing => exact h.none (count_keep hn (by simp) (Or.inr ⟨_, rfl, rfl⟩)) rfl rfl
  | inspect =>
    have hm : m' = m.onInspected := by
      cases hn with
      | ended e1 e2 => simp only at e2; rw [e1] at e2; have := congrArg length e2; simp at this
      | inspected => rfl
      | quiet _ e =>
        rcases e with e | ⟨b, e, hb⟩
        · have := congrArg length e; simp at this
        · have := append_cancel_left e
          simp only [cons.injEq, and_true] at this
          subst this; cases hb
    subst hm
    constructor <;> rw [answered_snoc _ rfl] <;>
      simp [Metrics.onInspected, Resp.isCreated, Resp.isCommitted, Resp.isDeleted, Resp.inspects, h.cre, h.com, h.del, h.ins]
  | created ht hp =>
    rw [count_drop hn ht rfl, hp]
    constructor <;> rw [answered_snoc _ rfl] <;>
      simp [PC.count, Metrics.onCreated, Resp.isCreated, Resp.isCommitted, Resp.isDeleted, Resp.inspects, h.cre, h.com, h.del, h.ins]
  | commitDone ht hp =>
    rw [count_drop hn ht rfl, hp]
    constructor <;> rw [answered_snoc _ rfl] <;>
      simp [PC.count, Metrics.onCommitted, Resp.isCreated, Resp.isCommitted, Resp.isDeleted, Resp.inspects, h.cre, h.com, h.del, h.ins]
  | @reaped pre th post o t ticket why a' ht hp hf ha =>
    rw [count_drop hn ht rfl, hp]
    cases why <;> constructor <;> rw [answered_snoc _ rfl] <;>
      simp [PC.count, Why.resp, Metrics.onReaped, Metrics.onCommitted, Metrics.onDeleted, Resp.isCreated, Resp.isCommitted, Resp.isDeleted,
        Resp.inspects, h.cre, h.com, h.del, h.ins]
  | _ => exact h.same (count_keep hn (by simp) (Or.inl rfl)) rfl

theorem mreach_ops {c : SCfg} {s : DSt} {m : Metrics} (h : MReach c s m) : Ops s m := by
  induction h with
  | fresh h =>
    simp only [fresh] at h
    split at h
    · cases h
    · cases h; exact ⟨rfl, rfl, rfl, rfl⟩
  | step hr hs hn ih => exact ops_step ih hs hn
  | restart order hr hp hl hm _ =>
    obtain ⟨a0, l, h0, h1, _, rfl⟩ := load_some hl
    obtain ⟨a0', ni, nc, h0', hi, hc, rfl⟩ := hm
    exact ⟨rfl, rfl, rfl, rfl⟩

/-! ## Running particular executions with their counters -/

/-- the thread that is in the first list and not in the second -/
def removedT : List Thread → List Thread → Option Thread
  | a :: as, b :: bs => if a = b then removedT as bs else some a
  | a :: _, [] => some a
  | [], _ => none

theorem removedT_mid (pre post : List Thread) (th : Thread) : removedT (pre ++ th :: post) (pre ++ post) = some th := by
  induction pre with
  | cons a pre ih => simp [removedT, ih]
  | nil =>
    simp only [nil_append]
    induction post generalizing th with
    | nil => rfl
    | cons p ps ih =>
      simp only [removedT]
      split
      · rename_i e; subst e; exact ih _
      · rfl

/-- the counters after a step, computed -/
def countF (s s' : DSt) (m : Metrics) : Metrics :=
  if s'.threads.length < s.threads.length then
    match removedT s.threads s'.threads with
    | some th => th.pc.count m
    | none => m
  else if s'.acks.length > s.acks.length then
    match s'.acks.getLast? with
    | some a => if a.resp.inspects then m.onInspected else m
    | none => m
  else m

theorem countF_ok {c : SCfg} {s s' : DSt} (hs : Step c s s') (m : Metrics) : Count s s' m (countF s s' m) := by
  obtain ⟨m', h⟩ := count_total hs m
  suffices e : countF s s' m = m' by rw [e]; exact h
  cases h with
  | @ended pre post th _ e1 e2 =>
    unfold countF
    rw [if_pos (by rw [e1, e2]; simp only [length_append, length_cons]; omega), e1, e2, removedT_mid]
  | @inspected a _ e1 e2 e3 =>
    unfold countF
    rw [if_neg (by rw [e1]; simp), if_pos (by rw [e2]; simp), e2]
    simp [e3]
  | quiet e1 e2 =>
    unfold countF
    rw [if_neg (by omega)]
    rcases e2 with e2 | ⟨a, e2, e3⟩
    · rw [if_neg (by rw [e2]; simp)]
    · rw [if_pos (by rw [e2]; simp), e2]
      simp [e3, Resp.inspects]

def Cmd.isRestart : Cmd → Bool
  | .restart _ => true
  | _ => false

/-- run choices other than restarts, with the counters -/
def execM (c : SCfg) (x : DSt × Metrics) (cmd : Cmd) : Option (DSt × Metrics) :=
  if cmd.isRestart then none else (exec c x.1 cmd).map (fun s' => (s', countF x.1 s' x.2))

def runM (c : SCfg) (x : DSt × Metrics) (cmds : List Cmd) : Option (DSt × Metrics) := cmds.foldlM (execM c) x

theorem runM_reach {c : SCfg} {cmds : List Cmd} : ∀ {x y : DSt × Metrics}, MReach c x.1 x.2 → runM c x cmds = some y → MReach c y.1 y.2 ∧ y.1.base = x.1.base := by
  induction cmds with
  | nil => intro x y h e; cases e; exact ⟨h, rfl⟩
  | cons cmd cmds ih =>
    intro x y h e
    simp only [runM, foldlM_cons, Option.bind_eq_bind, Option.bind_eq_some_iff] at e
    obtain ⟨z, e1, e2⟩ := e
    unfold execM at e1
    split at e1
    · cases e1
    · rename_i hr
      obtain ⟨s1, e3, rfl⟩ := Option.map_eq_some_iff.1 e1
      have hs := exec_step e3 (by rintro rev rfl; exact hr rfl)
      have hb : s1.base = x.1.base := by
        generalize x.1 = s at hs
        cases hs <;> rfl
      obtain ⟨a, b⟩ := ih (x := (s1, countF x.1 s1 x.2)) (h.step hs (countF_ok hs _)) e2
      exact ⟨a, b.trans hb⟩

def wrunM (cmds : List Cmd) : Option (DSt × Metrics) := (fresh wcfg (fun _ => 0)).bind (fun s => runM wcfg (s, .zero) cmds)

theorem wrunM_reach {cmds : List Cmd} {y : DSt × Metrics} (h : wrunM cmds = some y) :
    MReach wcfg y.1 y.2 ∧ y.1.base = (fun _ => none, fun _ => none) := by
  simp only [wrunM, Option.bind_eq_some_iff] at h
  obtain ⟨s0, h1, h2⟩ := h
  obtain ⟨a, b⟩ := runM_reach (x := (s0, .zero)) (.fresh h1) h2
  refine ⟨a, b.trans ?_⟩
  simp only [fresh] at h1
  split at h1
  · cases h1
  · cases h1; rfl

end Direct
end Blobd
