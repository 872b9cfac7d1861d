import Verif.Proofs.LiteEnds
set_option autoImplicit false
/-! # Lite store: a call that can move does; every call ends -/
namespace Blobd
namespace Lite
open Spec

variable {c : LCfg} {σ : Nat → LSt}

theorem wait_hist {s : LSt} (hr : Reach c s) : ∀ {i n f ts r}, at? s i = some (.wait (some n) f ts r) → n < s.j.hist.length := by
  induction hr with
  | @fresh dev s hf =>
    intro i n f ts r ha
    unfold fresh at hf
    split at hf
    · cases hf; cases ha
    · cases hf
  | @step s s' hr hs ih =>
    intro i n f ts r ha
    have old : at? s i = some (.wait (some n) f ts r) → n < s'.j.hist.length := fun h => hist_step (ih h) hs
    cases step_did hs with
    | silent h1 h2 h3 => apply old; unfold at? at ha ⊢; rw [h1] at ha; exact ha
    | start t h1 h2 h3 =>
      obtain ⟨st, ht⟩ := at_some.1 ha
      rw [h1] at ht
      simp only [upd] at ht
      split at ht
      · cases ht; exact absurd rfl (h3 _ _ _ _)
      · exact old (at_some.2 ⟨st, ht⟩)
    | move j t pc' evs h1 h2 h3 h4 =>
      obtain ⟨st, ht⟩ := at_some.1 ha
      rw [h2] at ht
      simp only [upd] at ht
      split at ht
      · cases ht
        generalize t.pc = pc at h4
        cases h4 with
        | link _ hn => exact hn n rfl
        | change _ _ _ hn => exact hn n rfl
      · exact old (at_some.2 ⟨st, ht⟩)
    | answer j t evs a h1 h2 =>
      obtain ⟨st, ht⟩ := at_some.1 ha
      rw [h2] at ht
      simp only [upd] at ht
      split at ht
      · cases ht
      · exact old (at_some.2 ⟨st, ht⟩)

theorem Moves.ne {s s' : LSt} {pc pc' : PC} {evs : List Ev} (h : Moves c s s' pc pc' evs) : pc' ≠ pc := by
  cases h with
  | evict => intro e; simp only [PC.evict.injEq] at e; exact absurd (congrArg List.length e.1) (by simp)
  | dies h1 _ => exact fun e => h1 e.symm
  | _ => simp

@[simp] theorem at_setPc (s : LSt) (i : Nat) (t : Thread) (pc : PC) : at? (setPc s i t pc) i = some pc := by simp [at?, setPc, upd]
@[simp] theorem at_respond (s : LSt) (i : Nat) (t : Thread) (r : Resp) : at? (respond s i t r) i = none := by simp [at?, respond, upd]

/-- the call goes on, without having been dropped -/
def Goes (c : LCfg) (s : LSt) (i : Nat) (pc : PC) : Prop :=
  ∃ a s', act c s a = some s' ∧ at? s' i ≠ some pc ∧ at? s' i ≠ some .dead

section
variable (hc : c.Ok) {s : LSt} {base : Mem} {v : V} {leak : List (Nat × Nat)} (h : LInv c s base v leak)
include hc h

/-- unlinking an inode of a list does not panic -/
theorem unlink_some {b : Nat} {r : Rec} (hr : r ∈ v.ch b) {f : Found} (hoff : f.off = r.off) (hcp : Copy v r f.raw) (b' : Nat) :
    unlink c s b' f ≠ none := by
  have he := linked_of hc h hr
  have hat := dev_at hc h.good (h.geo hc) h.jinv h.L h.U he
  have hrp := recPages_eq hc.rw hat (h.good.fit _ he).1
  unfold unlink
  rw [hoff, hcp.pow2, hrp]
  simp only
  split <;> simp

theorem layout_some {b : Nat} {r : Rec} (hr : r ∈ v.ch b) {raw : List Byte} (hcp : Copy v r raw) :
    calcObjectLayout c.pages (rdSize (ofBytes raw) 0) ≠ none := by
  obtain ⟨lay, hs⟩ := (h.good.fit _ (linked_of hc h hr)).1.shaped
  rw [hcp.size, hs.eq]
  simp

/-- processing an inode does not panic -/
theorem inode_alive {i : Nat} {t t' : Thread} {req : Req} {key : List Byte} {cur : Nat} {prev : Option Nat} {raw : List Byte}
    {inc ex : Option Found} (ht : s.thr i = some t) (hp : t.pc = .walk req key cur prev (some raw) inc ex) (idle : Bool) :
    at? (onInode c s i t' req key cur prev raw inc ex idle) i ≠ some t.pc ∧
    at? (onInode c s i t' req key cur prev raw inc ex idle) i ≠ some .dead := by
  have hpc := (h.thr i t ht).2
  rw [hp] at hpc ⊢
  obtain ⟨vis, rest, q1, q2, q3, q4, q5⟩ := hpc
  obtain ⟨r, rest', r1, hcp⟩ := q4 raw rfl
  subst r1
  have hrc : r ∈ v.ch (c.bkt key) := by rw [q1]; simp
  have hr := linked_of hc h hrc
  have hst : rawState s raw = rdState v.L r.off := copy_state h.good h.ov hr hcp
  have hst2 := states hc h hrc
  have hnd : ¬ (rawState s raw ≠ stIncomplete ∧ rawState s raw ≠ stCommitted) := by
    rw [hst]; rintro ⟨h1, h2⟩; rcases hst2 with h' | h' <;> contradiction
  unfold onInode
  simp only [if_neg hnd]
  split
  · cases req with
    | commit id =>
      simp only
      split
      · simp
      · split <;> simp
    | look want =>
      simp only
      split
      · simp [onFound]
      · simp
    | write id o l =>
      simp only
      split
      · simp only [onFound]
        split
        · simp
        · cases hl : calcObjectLayout c.pages (rdSize (ofBytes raw) 0) with
          | none => exact absurd hl (layout_some hc h hrc hcp)
          | some lay => simp
      · simp
    | delete want =>
      simp only
      split
      · simp only [onFound]
        cases hu : unlink c s (c.bkt key) ⟨cur, prev, raw⟩ with
        | none => exact absurd hu (unlink_some hc h hrc (f := ⟨cur, prev, raw⟩) q2 hcp _)
        | some r4 => simp
      · simp
  · simp

/-- nor does the end of the list -/
theorem atEnd_alive {i : Nat} {t t' : Thread} {req : Req} {key : List Byte} {prev : Option Nat}
    {inc ex : Option Found} (ht : s.thr i = some t) (hp : t.pc = .walk req key 0 prev none inc ex) (idle : Bool) :
    at? (onEnd c s i t' req key inc ex idle) i ≠ some t.pc ∧ at? (onEnd c s i t' req key inc ex idle) i ≠ some .dead := by
  have hpc := (h.thr i t ht).2
  rw [hp] at hpc ⊢
  obtain ⟨vis, rest, q1, q2, q3, q4, q5⟩ := hpc
  unfold onEnd
  cases req with
  | look want => simp
  | write id o l => simp
  | delete want => simp
  | commit id =>
    cases inc with
    | none => simp
    | some f =>
      cases ex with
      | none => simp
      | some e =>
        simp only
        split
        · rename_i hd
          exfalso
          split at hd
          · cases hd
          · rw [Option.map_eq_none_iff] at hd
            obtain ⟨pre, re, post, e1, e2, e3, e4, e5⟩ := q5.2
            exact unlink_some hc h (b := c.bkt key) (r := re) (by rw [q1, e1]; simp) e3 e5 _ hd
        · simp

/-- whatever a call waits for, it goes on once it has it -/
theorem can_move {i : Nat} {pc : PC} (ha : at? s i = some pc) (hd : pc ≠ .dead) (hw : ∀ n f ts r, pc = .wait (some n) f ts r → n ∈ s.j.acked)
    (hl : ∀ o off, pc = .createLink o off → canLock c s (c.bkt o.key) true = true) : Goes c s i pc := by
  obtain ⟨st, ht⟩ := at_some.1 ha
  have mk : ∀ (a : Act) (o : Option PC), (act c s a).map (at? · i) = some o → o ≠ some pc → o ≠ some .dead → Goes c s i pc := by
    intro a o h1 h2 h3
    obtain ⟨s', e, rfl⟩ := Option.map_eq_some_iff.1 h1
    exact ⟨a, s', e, h2, h3⟩
  cases pc with
  | createWrite o off => exact mk (.createWritten i) (some (.createLink o off)) (by simp [act, ht]) (by simp) (by simp)
  | createLink o off =>
    refine mk (.createLink i false) (at? (link c s i ⟨st, .dead⟩ o off false) i) ?_ (by simp [link]) (by simp [link])
    simp only [act, ht, hl o off rfl, if_true]; rfl
  | walk req key cur prev raw inc ex =>
    cases raw with
    | some raw =>
      have := inode_alive hc h (t' := ⟨st, .dead⟩) ht rfl false
      exact mk (.inode i false) _ (by simp only [act, ht]; rfl) this.1 this.2
    | none =>
      by_cases h0 : cur = 0
      · subst h0
        have := atEnd_alive hc h (t' := ⟨st, .dead⟩) ht rfl false
        exact mk (.atEnd i false) _ (by simp only [act, ht]; rfl) this.1 this.2
      · refine mk (.read i) (some (.walk req key cur prev (some _) inc ex)) (by simp only [act, ht, if_neg h0, Option.map_some, at_setPc]; rfl) (by simp) (by simp)
  | writing key id ts => exact mk (.writeEnd i (.ok ())) none (by simp [act, ht]) (by simp) (by simp)
  | wait txn free ts r =>
    obtain ⟨a, e⟩ := release_ok h ht rfl
    have : txn.all (fun n => decide (n ∈ s.j.acked)) = true := by
      cases txn with
      | none => rfl
      | some n => simpa using hw n _ _ _ rfl
    exact mk (.signalled i) (some (.evict ts r)) (by simp only [act, ht, this, if_true, e, Option.map_some, at_setPc]) (by simp) (by simp)
  | evict ts r =>
    cases ts with
    | nil => exact mk (.respond i) none (by simp [act, ht]) (by simp) (by simp)
    | cons k ks =>
      refine mk (.evict i) (some (.evict ks r)) (by simp [act, ht]) ?_ (by simp)
      intro e
      simp only [Option.some.injEq, PC.evict.injEq] at e
      exact absurd (congrArg List.length e.1) (by simp)
  | dead => exact absurd rfl hd

end

theorem Goes.step {s : LSt} {i : Nat} {pc : PC} (h : Goes c s i pc) : ∃ s', Step c s s' ∧ at? s' i ≠ some pc := by
  obtain ⟨a, s', h1, h2, _⟩ := h
  exact ⟨s', .act a h1, h2⟩

def PC.isCreate : PC → Bool
  | .createWrite .. => true
  | .createLink .. => true
  | _ => false

theorem Moves.create {s s' : LSt} {pc pc' : PC} {evs : List Ev} (h : Moves c s s' pc pc' evs) (hp : pc'.isCreate = true) : pc.isCreate = true := by
  cases h <;> first | rfl | cases hp

/-- the call is over: answered, or its future was dropped -/
def Over (s : LSt) (i : Nat) : Prop := at? s i = none ∨ at? s i = some .dead

theorem over_not_holds {s : LSt} {i b : Nat} (ho : Over s i) : ¬ Holds c s i b := by
  rintro ⟨pc, e, h1, h2⟩
  rcases ho with ho | ho
  · rw [ho] at h1; cases h1
  · rw [ho, Option.some.injEq] at h1; subst h1; cases h2

/-- the lock a waiting create wants is free from some moment on -/
def LockFree (c : LCfg) (σ : Nat → LSt) (i : Nat) : Prop :=
  ∀ o off n, (∀ m, n ≤ m → at? (σ m) i = some (.createLink o off)) → ∃ m, n ≤ m ∧ ∀ k, m ≤ k → canLock c (σ k) (c.bkt o.key) true = true

section
variable (hc : c.Ok) (h : FairRun c σ) (hf : ∀ m, (σ m).faults = [])
include hc h hf

theorem run_bound (m : Nat) : ∀ i t, (σ m).thr i = some t → i < (σ m).nextCall := by
  obtain ⟨base, v, leak, hi⟩ := reach_inv hc (h.toRun.reach m) (hf m)
  exact fun i t ht => (hi.thr i t ht).1

theorem ends_by_rank {i : Nat} : ∀ (r n : Nat) (pc : PC), at? (σ n) i = some pc → RankIs (σ n) pc r →
    (pc.isCreate = true → LockFree c σ i) → ∃ m, n ≤ m ∧ Over (σ m) i := by
  intro r
  induction r using Nat.strong_induction_on with
  | _ r ih =>
    intro n pc ha hk hlf
    by_cases hd : pc = .dead
    · subst hd; exact ⟨n, Nat.le_refl _, .inr ha⟩
    have hex : ∃ m, n ≤ m ∧ ¬ at? (σ m) i = some pc := by
      by_contra hall
      replace hall : ∀ m, n ≤ m → at? (σ m) i = some pc := fun m hm => by_contra (fun hx => hall ⟨m, hm, hx⟩)
      -- from some moment on nothing stands in the way
      have key : ∃ m0, n ≤ m0 ∧ ∀ k, m0 ≤ k → (∀ x f ts r, pc = .wait (some x) f ts r → x ∈ (σ k).j.acked) ∧
          (∀ o off, pc = .createLink o off → canLock c (σ k) (c.bkt o.key) true = true) := by
        cases pc with
        | wait txn f ts r =>
          cases txn with
          | none => exact ⟨n, Nat.le_refl _, fun k hk => ⟨fun x f ts r e => (by cases e), fun o off e => (by cases e)⟩⟩
          | some x =>
            obtain ⟨m0, h1, h2⟩ := txn_acked hc h hf (wait_hist (h.toRun.reach n) ha)
            have := h.toRun.keep (P := fun s => x ∈ s.j.acked) (fun s s' hp hs => acked_step hp hs) h2
            exact ⟨m0, h1, fun k hk => ⟨fun x' f ts r e => by cases e; exact this k hk, fun o off e => (by cases e)⟩⟩
        | createLink o off =>
          obtain ⟨m0, h1, h2⟩ := hlf rfl o off n hall
          exact ⟨m0, h1, fun k hk => ⟨fun x' f ts r e => (by cases e), fun o off e => by cases e; exact h2 k hk⟩⟩
        | _ => exact ⟨n, Nat.le_refl _, fun k hk => ⟨fun x f ts r e => (by cases e), fun o off e => (by cases e)⟩⟩
      obtain ⟨m0, hm0, hk0⟩ := key
      obtain ⟨m, hm, hx⟩ := h.calls i m0 (fun m hm => by
        have hat := hall m (by omega)
        refine ⟨by rw [hat]; simp, ?_⟩
        obtain ⟨base, v, leak, hi⟩ := reach_inv hc (h.toRun.reach m) (hf m)
        obtain ⟨s', h1, h2⟩ := (can_move hc hi hat hd (hk0 m hm).1 (hk0 m hm).2).step
        exact ⟨s', h1, by rw [hat]; exact h2⟩)
      exact hx ((hall (m + 1) (by omega)).trans (hall m (by omega)).symm)
    obtain ⟨m, hm, hall, hn, hs⟩ := h.toRun.first (P := fun s => at? s i = some pc) ha hex
    have hrank : ∀ k, n ≤ k → k ≤ m → RankIs (σ k) pc r := by
      intro k
      induction k with
      | zero =>
        intro h1 _
        have : n = 0 := by omega
        subst this; exact hk
      | succ k ihk =>
        intro h1 h2
        rcases Nat.lt_or_ge k n with hl | hl
        · have : n = k + 1 := by omega
          subst this; exact hk
        · have hk' := ihk hl (by omega)
          rcases h.next k with e | e
          · rw [e]; exact hk'
          · have a1 := hall k hl (by omega)
            have a2 := hall (k + 1) h1 h2
            rcases step_at e (run_bound hc h hf k) a1 with ⟨_, hq⟩ | ⟨pc', evs, b1, b2, _⟩ | ⟨b1, _⟩
            · exact rank_keep hc (h.toRun.reach k) e (hf _) a1 a2 hq hk'
            · rw [a2, Option.some.injEq] at b1
              exact absurd b1.symm b2.ne
            · rw [a2] at b1; cases b1
    have a1 := hall m hm (Nat.le_refl _)
    rcases step_at hs (run_bound hc h hf m) a1 with ⟨b1, _⟩ | ⟨pc', evs, b1, b2, b3⟩ | ⟨b1, _⟩
    · exact absurd b1 hn
    · obtain ⟨r', c1, c2⟩ := rank_drop hc (h.toRun.reach m) hs (hf _) a1 b1 b2 b3 (hrank m hm (Nat.le_refl _))
      obtain ⟨m', d1, d2⟩ := ih r' c2 (m + 1) pc' b1 c1 (fun e => hlf (b2.create e))
      exact ⟨m', by omega, d2⟩
    · exact ⟨m + 1, by omega, .inl b1⟩

theorem ends_if {i n : Nat} {pc : PC} (ha : at? (σ n) i = some pc) (hlf : pc.isCreate = true → LockFree c σ i) : ∃ m, n ≤ m ∧ Over (σ m) i := by
  obtain ⟨base, v, leak, hi⟩ := reach_inv hc (h.toRun.reach n) (hf n)
  obtain ⟨st, ht⟩ := at_some.1 ha
  obtain ⟨r, hr⟩ := rank_exists hc hi ht
  exact ends_by_rank hc h hf r n pc ha hr hlf

/-- whoever holds a lock gives it back -/
theorem holder_ends {i b n : Nat} (hh : Holds c (σ n) i b) : ∃ m, n ≤ m ∧ Over (σ m) i := by
  obtain ⟨pc, e, h1, h2⟩ := hh
  refine ends_if hc h hf h1 (fun hp => ?_)
  cases pc <;> first | (cases h2; done) | (cases hp; done)

theorem lock_free {b n : Nat} (hn : ∀ k, n ≤ k → ¬ Takes c b (σ k) (σ (k + 1))) : ∃ m, n ≤ m ∧ ∀ k, m ≤ k → canLock c (σ k) b true = true := by
  have keep : ∀ i m, n ≤ m → ¬ Holds c (σ m) i b → ∀ k, m ≤ k → ¬ Holds c (σ k) i b := by
    intro i m hm h0
    refine keeps (P := fun s => ¬ Holds c s i b) h0 ?_
    intro k hk hp hx
    exact hn k (by omega) ⟨i, hp, hx⟩
  have each : ∀ i, ∃ m, n ≤ m ∧ ∀ k, m ≤ k → ¬ Holds c (σ k) i b := by
    intro i
    by_cases hh : Holds c (σ n) i b
    · obtain ⟨m, h1, h2⟩ := holder_ends hc h hf hh
      exact ⟨m, h1, keep i m h1 (over_not_holds h2)⟩
    · exact ⟨n, Nat.le_refl _, keep i n (Nat.le_refl _) hh⟩
  have upto : ∀ N, ∃ m, n ≤ m ∧ ∀ i, i < N → ∀ k, m ≤ k → ¬ Holds c (σ k) i b := by
    intro N
    induction N with
    | zero => exact ⟨n, Nat.le_refl _, fun i hi => absurd hi (by omega)⟩
    | succ N ih =>
      obtain ⟨m1, a1, a2⟩ := ih
      obtain ⟨m2, b1, b2⟩ := each N
      refine ⟨max m1 m2, by omega, fun i hi k hk => ?_⟩
      rcases Nat.lt_or_ge i N with hl | hl
      · exact a2 i hl k (by omega)
      · have : i = N := by omega
        subst this; exact b2 k (by omega)
  obtain ⟨m, hm, hall⟩ := upto (σ n).nextCall
  refine ⟨m, hm, fun k hk => ?_⟩
  unfold canLock
  rw [List.all_eq_true]
  intro i _
  have hno : ¬ Holds c (σ k) i b := by
    rcases Nat.lt_or_ge i (σ n).nextCall with hl | hl
    · exact hall i hl k hk
    · refine keep i n (Nat.le_refl _) ?_ k (by omega)
      rintro ⟨pc, e, h1, _⟩
      obtain ⟨st, ht⟩ := at_some.1 h1
      have := run_bound hc h hf n i _ ht
      omega
  cases hb : ((σ k).thr i).bind (fun t => t.pc.lock c) with
  | none => rfl
  | some p =>
    obtain ⟨b', e'⟩ := p
    simp only
    obtain ⟨t, h1, h2⟩ := Option.bind_eq_some_iff.1 hb
    have : b' ≠ b := by
      rintro rfl
      exact hno ⟨t.pc, e', at_some.2 ⟨t.start, h1⟩, h2⟩
    simp [this]

theorem create_gets_lock (i : Nat) : LockFree c σ i := by
  intro o off n hall
  obtain ⟨m, h1, h2⟩ := h.lock i o off n hall
  obtain ⟨m', h3, h4⟩ := lock_free hc h hf h2
  exact ⟨m', by omega, h4⟩

theorem call_ends {i n : Nat} (ha : at? (σ n) i ≠ none) : ∃ m, n ≤ m ∧ Over (σ m) i := by
  obtain ⟨pc, hp⟩ := Option.ne_none_iff_exists'.1 ha
  exact ends_if hc h hf hp (fun _ => create_gets_lock hc h hf i)

end

theorem setPc_thr {s s1 : LSt} {j : Nat} {t : Thread} {pc : PC} (e : s1.thr = s.thr) : ∃ o, (setPc s1 j t pc).thr = upd s.thr j o :=
  ⟨some { t with pc := pc }, by simp only [setPc, e]⟩

theorem onFound_thr (s : LSt) (j : Nat) (t : Thread) (req : Req) (key : List Byte) (f : Found) (idle : Bool) :
    ∃ o, (onFound c s j t req key f idle).thr = upd s.thr j o := by
  unfold onFound
  cases req with
  | look want => exact ⟨_, rfl⟩
  | write wid o l =>
    simp only
    split
    · exact ⟨_, rfl⟩
    · split <;> exact ⟨_, rfl⟩
  | delete want =>
    simp only
    split
    · exact ⟨_, rfl⟩
    · rename_i s1 tk ws free hu
      exact setPc_thr ((commitTxn_same _ _ _).2.2.1.trans (unlink_same hu).2.2.1)
  | commit id => exact ⟨s.thr j, by funext x; simp only [upd]; split <;> simp_all⟩

theorem onInode_thr (s : LSt) (j : Nat) (t : Thread) (req : Req) (key : List Byte) (cur : Nat) (prev : Option Nat) (raw : List Byte)
    (inc ex : Option Found) (idle : Bool) : ∃ o, (onInode c s j t req key cur prev raw inc ex idle).thr = upd s.thr j o := by
  unfold onInode
  simp only
  split
  · split
    · exact ⟨_, rfl⟩
    · cases req with
      | commit id =>
        simp only
        split
        · exact ⟨_, rfl⟩
        · split <;> exact ⟨_, rfl⟩
      | look want => simp only; split; exacts [onFound_thr .., ⟨_, rfl⟩]
      | write id o l => simp only; split; exacts [onFound_thr .., ⟨_, rfl⟩]
      | delete want => simp only; split; exacts [onFound_thr .., ⟨_, rfl⟩]
  · exact ⟨_, rfl⟩

theorem onEnd_thr (s : LSt) (j : Nat) (t : Thread) (req : Req) (key : List Byte) (inc ex : Option Found) (idle : Bool) :
    ∃ o, (onEnd c s j t req key inc ex idle).thr = upd s.thr j o := by
  unfold onEnd
  cases req with
  | look want => exact ⟨_, rfl⟩
  | write id o l => exact ⟨_, rfl⟩
  | delete want => exact ⟨_, rfl⟩
  | commit id =>
    cases inc with
    | none => exact ⟨_, rfl⟩
    | some f =>
      cases ex with
      | none =>
        exact setPc_thr (commitTxn_same _ _ _).2.2.1
      | some e =>
        simp only
        split
        · exact ⟨_, rfl⟩
        · rename_i s1 tk ws free hd
          refine setPc_thr ((commitTxn_same _ _ _).2.2.1.trans ?_)
          split at hd
          · cases hd; rfl
          · rw [Option.map_eq_some_iff] at hd
            obtain ⟨⟨s1', tk', ws', free'⟩, hu, hd⟩ := hd
            cases hd
            exact (unlink_same hu).2.2.1

/-- a fault-free store's calls die of nothing but being dropped -/
theorem why_dead (hc : c.Ok) {s s' : LSt} (hr : Reach c s) (hs : Step c s s') (hf : s'.faults = []) {i : Nat} {pc : PC} (ha : at? s i = some pc)
    (hd : pc ≠ .dead) (ha' : at? s' i = some .dead) : act c s (.drop i) = some s' := by
  obtain ⟨base, v, leak, base', v', leak', h, h', hrel⟩ := step_rel hc hr hs hf
  obtain ⟨st, ht⟩ := at_some.1 ha
  have hb : i < s.nextCall := (h.thr i _ ht).1
  have same : s'.thr = s.thr → False := fun e => by
    unfold at? at ha ha'
    rw [e] at ha'
    rw [ha] at ha'
    cases ha'
    exact hd rfl
  cases hs with
  | journal hj hh => exact (same rfl).elim
  | act a hact =>
    -- only the call itself changes its own place
    have mine : ∀ j o, s'.thr = upd s.thr j o → j ≠ i → False := by
      intro j o e hji
      unfold at? at ha ha'
      rw [e] at ha'
      simp only [upd, if_neg (Ne.symm hji)] at ha'
      rw [ha] at ha'
      cases ha'
      exact hd rfl
    have hsets : ∀ {s1 : LSt} {j : Nat} {t : Thread} {pc' : PC}, s' = setPc s1 j t pc' → s1.thr = s.thr → j = i ∧ pc' = .dead := by
      intro s1 j t pc' e e1
      by_cases hji : j = i
      · subst hji
        subst e
        rw [at_setPc, Option.some.injEq] at ha'
        exact ⟨rfl, ha'⟩
      · exact (mine j (some { t with pc := pc' }) (by rw [e]; simp only [setPc, e1]) hji).elim
    have hresp : ∀ {s1 : LSt} {j : Nat} {t : Thread} {r : Resp}, s' = respond s1 j t r → s1.thr = s.thr → False := by
      intro s1 j t r e e1
      by_cases hji : j = i
      · subst hji
        subst e
        rw [at_respond] at ha'
        cases ha'
      · exact mine j none (by rw [e]; simp only [respond, e1]) hji
    cases a with
    | create key size assoc created id =>
      have hact : create c s key size assoc created id = some s' := hact
      unfold create at hact
      exfalso
      split at hact
      · split at hact
        · cases hact
        · simp only at hact
          split at hact
          · cases hact; exact same rfl
          · split at hact
            · cases hact; exact mine _ _ rfl (by omega)
            · split at hact <;> (cases hact; exact mine _ _ rfl (by omega))
      · cases hact
    | createWritten j =>
      simp only [act] at hact
      split at hact
      · rw [Option.some.injEq] at hact
        have := hsets hact.symm rfl
        cases this.2
      · cases hact
    | createLink j idle =>
      simp only [act] at hact
      split at hact
      · split at hact
        · rw [Option.some.injEq] at hact
          unfold link at hact
          have := hsets hact.symm (commitTxn_same _ _ _).2.2.1
          cases this.2
        · cases hact
      · cases hact
    | lookup req key =>
      simp only [act] at hact
      split at hact
      · cases hact; exact (mine _ _ rfl (by omega)).elim
      · cases hact
    | read j =>
      simp only [act] at hact
      split at hact
      · split at hact
        · cases hact
        · rw [Option.some.injEq] at hact
          have := hsets hact.symm rfl
          cases this.2
      · cases hact
    | inode j idle =>
      simp only [act] at hact
      split at hact
      · rename_i hth
        rw [Option.some.injEq] at hact
        by_cases hji : j = i
        · subst hji
          rw [← hact] at ha'
          exact absurd ha' (inode_alive hc h hth rfl idle).2
        · obtain ⟨o, e⟩ := onInode_thr (c := c) s j ⟨_, .dead⟩ _ _ _ _ _ _ _ idle
          rw [hact] at e
          exact (mine j o e hji).elim
      · cases hact
    | atEnd j idle =>
      simp only [act] at hact
      split at hact
      · rename_i hth
        rw [Option.some.injEq] at hact
        by_cases hji : j = i
        · subst hji
          rw [← hact] at ha'
          exact absurd ha' (atEnd_alive hc h hth rfl idle).2
        · obtain ⟨o, e⟩ := onEnd_thr (c := c) s j ⟨_, .dead⟩ _ _ _ _ idle
          rw [hact] at e
          exact (mine j o e hji).elim
      · cases hact
    | signalled j =>
      simp only [act] at hact
      split at hact
      · rename_i hth
        split at hact
        · obtain ⟨a, e⟩ := release_ok h hth rfl
          rw [e] at hact
          simp only [Option.some.injEq] at hact
          have := hsets hact.symm rfl
          cases this.2
        · cases hact
      · cases hact
    | evict j =>
      simp only [act] at hact
      split at hact
      · rw [Option.some.injEq] at hact
        have := hsets hact.symm rfl
        cases this.2
      · cases hact
    | respond j =>
      simp only [act] at hact
      split at hact
      · rw [Option.some.injEq] at hact
        exact (hresp hact.symm rfl).elim
      · cases hact
    | data j n skip bytes =>
      simp only [act] at hact
      split at hact
      · split at hact
        · split at hact
          · cases hact; exact (same rfl).elim
          · cases hact
        · cases hact
      · cases hact
    | writeEnd j r =>
      simp only [act] at hact
      split at hact
      · rw [Option.some.injEq] at hact
        exact (hresp hact.symm rfl).elim
      · cases hact
    | drop j =>
      have hact0 := hact
      simp only [act] at hact
      split at hact
      · rw [Option.some.injEq] at hact
        have := hsets hact.symm rfl
        rw [← this.1]; exact hact0
      · rw [Option.some.injEq] at hact
        have := hsets hact.symm rfl
        rw [← this.1]; exact hact0
      · cases hact
    | cancel j n bytes =>
      simp only [act] at hact
      split at hact
      · split at hact
        · split at hact
          · rw [Option.some.injEq] at hact
            rw [← hact] at hf
            simp [setPc] at hf
          · cases hact
        · cases hact
      · cases hact
    | orphan n =>
      simp only [act] at hact
      split at hact
      · cases hact; exact (same rfl).elim
      · cases hact

end Lite
end Blobd
