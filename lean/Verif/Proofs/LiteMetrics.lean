import Verif.Proofs.LiteChange
import Verif.Proofs.LiteAcks
import Verif.Spec.LiteMetrics
set_option autoImplicit false
/-! # C75 (lite store): the counters follow the lists -/
namespace Blobd
namespace Lite
open Spec

/-- what an action does to the stored objects, the creates in progress and the two counters -/
inductive Kind (vs : Bool) (a : Abs) : Option Ev → (Nat → Option Nat) → (Nat → Option Nat) → Int → Int → Prop
  | link {k : List Byte} {id size i : Nat} {p : Nat → Option Nat} : p i = none → Kind vs a (some (.created k id size)) p (upd p i (some size)) 0 0
  | answer {i n : Nat} {p : Nat → Option Nat} : p i = some n → Kind vs a none p (upd p i none) 1 n
  | removed {k : List Byte} {want : Option Nat} {v : Ver} {p : Nat → Option Nat} : v ∈ a k →
      Kind vs a (some (.removed k want v.id)) p p (-1) (-(v.size : Int))
  | replaced {k : List Byte} {id : Nat} {v : Ver} {p : Nat → Option Nat} : vs = false → v ∈ a k → v.committed = true →
      Kind vs a (some (.committed k id)) p p (-1) (-(v.size : Int))
  | kept {k : List Byte} {id : Nat} {p : Nat → Option Nat} : (vs = true ∨ ∀ v ∈ a k, v.committed = false) →
      Kind vs a (some (.committed k id)) p p 0 0
  | quiet {e : Option Ev} {p : Nat → Option Nat} : (∀ k id n, e ≠ some (.created k id n)) → (∀ k w id, e ≠ some (.removed k w id)) →
      (∀ k id, e ≠ some (.committed k id)) → Kind vs a e p p 0 0

section
variable {c : LCfg} {s s' : LSt}

theorem creating_upd {i : Nat} {t : Option Thread} (h : s'.thr = upd s.thr i t) : creating s' = upd (creating s) i (creatingT t) := by
  funext j
  simp only [creating, h, upd]
  split <;> rfl

theorem upd_same {β : Type} {f : Nat → β} {i : Nat} {x : β} (h : f i = x) : upd f i x = f := by
  funext j
  unfold upd
  split
  · rename_i e; rw [e, h]
  · rfl

/-- a call that is not a create about to answer, before and after: nothing changes -/
theorem creating_same {i : Nat} {t : Option Thread} (h : s'.thr = upd s.thr i t) (h0 : creating s i = none)
    (ht : creatingT t = none) : creating s' = creating s := by
  rw [creating_upd h, ht, upd_same h0]

theorem creating_pc {i : Nat} {t : Thread} (h : s.thr i = some t) (hp : ∀ a b d r, t.pc ≠ .wait a b d r) (hp' : ∀ a r, t.pc ≠ .evict a r) :
    creating s i = none := by
  unfold creating
  rw [h]
  obtain ⟨⟨cl, n⟩, pc⟩ := t
  cases pc with
  | wait a b d r => exact absurd rfl (hp a b d r)
  | evict a r => exact absurd rfl (hp' a r)
  | _ => cases cl <;> rfl

theorem creatingT_lookup (req : Req) (key : List Byte) (n : Nat) (pc : PC) : creatingT (some ⟨⟨.lookup req key, n⟩, pc⟩) = none := by
  cases pc <;> rfl

theorem unlink_map {b : Nat} {f : Found} {r : LSt × Overlay.Ticket Cell × List (Nat × List Byte) × List (Nat × Nat)} (h : unlink c s b f = some r) :
    (unlink c s b f).map (fun _ => f) = some f := by rw [h]; rfl

/-- the outcome `s1` of an action has been sorted -/
def Sorted (c : LCfg) (s : LSt) (v : V) (m m' : Metrics) (s1 : LSt) : Prop :=
  ∃ (e : Option Ev) (i : Nat) (dO dD : Int), s1.lin = s.lin ++ (e.map (fun e => (i, e))).toList ∧
    Kind c.versioning (absOf c v) e (creating s) (creating s1) dO dD ∧ m'.objects = m.objects + dO ∧ m'.data = m.data + dD

theorem Sorted.of {v : V} {m m' : Metrics} (e : Ev) (i : Nat) {dO dD : Int} (hl : s'.lin = s.lin ++ [(i, e)])
    (hc : creating s' = creating s) (hk : Kind c.versioning (absOf c v) (some e) (creating s) (creating s) dO dD)
    (ho : m'.objects = m.objects + dO) (hd : m'.data = m.data + dD) : Sorted c s v m m' s' :=
  ⟨some e, i, dO, dD, hl, by rw [hc]; exact hk, ho, hd⟩

theorem Sorted.calm0 {v : V} {m m' : Metrics} (hl : s'.lin = s.lin) (hc : creating s' = creating s) (ho : m'.objects = m.objects)
    (hd : m'.data = m.data) : Sorted c s v m m' s' :=
  ⟨none, 0, 0, 0, by simp [hl], by rw [hc]; exact .quiet (by simp) (by simp) (by simp), by omega, by omega⟩

theorem Sorted.calm {v : V} {m m' : Metrics} (e : Ev) (i : Nat) (h1 : ∀ k id n, e ≠ .created k id n) (h2 : ∀ k w id, e ≠ .removed k w id)
    (h3 : ∀ k id, e ≠ .committed k id) (hl : s'.lin = s.lin ++ [(i, e)]) (hc : creating s' = creating s) (ho : m'.objects = m.objects)
    (hd : m'.data = m.data) : Sorted c s v m m' s' :=
  .of e i hl hc (.quiet (by simpa using h1) (by simpa using h2) (by simpa using h3)) (by omega) (by omega)

theorem classify (hc : c.Ok) {base : Mem} {v : V} {leak : List (Nat × Nat)} (h : LInv c s base v leak) (hai : AI s) {a : Act}
    (ha : act c s a = some s') (m : Metrics) : Sorted c s v m (m.count c s a) s' := by
  have newcall : creating s s.nextCall = none := by
    unfold creating
    cases hn : s.thr s.nextCall with
    | none => rfl
    | some t => exact absurd (h.thr _ _ hn).1 (Nat.lt_irrefl _)
  cases a with
  | create key size assoc created id =>
    have hm : (m.count c s (.create key size assoc created id)).objects = m.objects ∧ (m.count c s (.create key size assoc created id)).data = m.data := by
      simp only [Metrics.count]; split <;> exact ⟨rfl, rfl⟩
    have ha : create c s key size assoc created id = some s' := ha
    unfold create at ha
    split at ha
    · split at ha
      · cases ha
      · simp only at ha
        split at ha
        · cases ha
          exact .calm0 rfl rfl hm.1 hm.2
        · split at ha
          · cases ha
            exact .calm0 rfl (creating_same rfl newcall rfl) hm.1 hm.2
          · split at ha
            · cases ha
              exact .calm0 rfl (creating_same rfl newcall rfl) hm.1 hm.2
            · cases ha
              exact .calm0 rfl (creating_same rfl newcall rfl) hm.1 hm.2
    · cases ha
  | createWritten i =>
    simp only [act] at ha
    split at ha
    · rename_i st o off hth
      cases ha
      exact .calm0 rfl (creating_same rfl (creating_pc hth (by simp) (by simp)) (by obtain ⟨cl, n⟩ := st; cases cl <;> rfl)) rfl rfl
    · cases ha
  | createLink i idle =>
    simp only [act] at ha
    split at ha
    · rename_i st o off hth
      split at ha
      · cases ha
        have hcall := (hai.thr _ _ hth).2.2.2
        obtain ⟨cl, n⟩ := st
        simp only at hcall
        subst hcall
        have k := commitTxn_same (c := c) (event { s with ov := ((s.ov.set (.head (c.bkt o.key)) off).1.set (.next o.id) (getHead c s (c.bkt o.key))).1 } i
          (.created o.key o.id o.size)) idle
          [(c.bkDev + bucketOff (c.bkt o.key), encHead off), (off + ObjectOffsets.nextNode, beBytes 6 (getHead c s (c.bkt o.key)))]
        refine ⟨some (.created o.key o.id o.size), i, 0, 0, k.1, ?_, by simp [Metrics.count, unlinked], by simp [Metrics.count, unlinked]⟩
        rw [creating_upd (s := s) (s' := link c s i ⟨⟨.create o.key o.size, n⟩, .dead⟩ o off idle) (i := i)
          (by show upd _ i _ = _; rw [k.2.2.1]; rfl)]
        exact .link (creating_pc hth (by simp) (by simp))
      · cases ha
    · cases ha
  | lookup req key =>
    simp only [act] at ha
    split at ha
    · cases ha
      exact .calm0 rfl (creating_same rfl newcall rfl) rfl rfl
    · cases ha
  | read i =>
    simp only [act] at ha
    split at ha
    · rename_i st req key cur prev inc ex hth
      split at ha
      · cases ha
      · cases ha
        exact .calm0 rfl (creating_same rfl (creating_pc hth (by simp) (by simp)) (by obtain ⟨cl, n⟩ := st; cases cl <;> rfl)) rfl rfl
    · cases ha
  | inode i idle =>
    simp only [act] at ha
    split at ha
    · rename_i st req key cur prev raw inc ex hth
      have hcr := creating_pc hth (by simp) (by simp)
      have hcall : st.call = .lookup req key := (hai.thr _ _ hth).2.2.2
      obtain ⟨cl, n⟩ := st
      simp only at hcall
      subst hcall
      have move : ∀ {s1 : LSt} {pc' : PC}, s1.thr = upd s.thr i (some ⟨⟨.lookup req key, n⟩, pc'⟩) → creating s1 = creating s :=
        fun h1 => creating_same h1 hcr (creatingT_lookup _ _ _ _)
      have gone : ∀ {s1 : LSt}, s1.thr = upd s.thr i none → creating s1 = creating s := fun h1 => creating_same h1 hcr rfl
      cases ha
      have other : (∀ want, req ≠ .delete want) → m.count c s (.inode i idle) = m := by
        intro hne
        simp only [Metrics.count, unlinked, hth]
        cases req with
        | delete want => exact absurd rfl (hne want)
        | _ => rfl
      have hpc := (h.thr i _ hth).2
      obtain ⟨vis, rest, q1, q2, q3, q4, q5⟩ := hpc
      obtain ⟨r, rest', e1, hcopy⟩ := q4 raw rfl
      have hrc : r ∈ v.ch (c.bkt key) := by rw [q1, e1]; simp
      have hmem := mem_abs hc h hrc
      unfold onInode
      simp only
      by_cases hk : rdKey (ofBytes raw) 0 = key
      · rw [if_pos hk]
        by_cases hst : rawState s raw ≠ stIncomplete ∧ rawState s raw ≠ stCommitted
        · rw [if_pos hst]
          have hmc : m.count c s (.inode i idle) = m := by
            cases req with
            | delete want =>
              simp only [Metrics.count, unlinked, hth]
              rw [if_neg (fun x => hst.2 x.2.1)]
            | _ => exact other (by simp)
          exact .calm0 rfl (move rfl) (by rw [hmc]) (by rw [hmc])
        · rw [if_neg hst]
          cases req with
          | commit id =>
            have hmc := other (by simp)
            simp only
            split
            · exact .calm0 rfl (move rfl) (by rw [hmc]) (by rw [hmc])
            · split
              · exact .calm0 rfl (move rfl) (by rw [hmc]) (by rw [hmc])
              · exact .calm0 rfl (move rfl) (by rw [hmc]) (by rw [hmc])
          | look want =>
            have hmc := other (by simp)
            simp only
            split
            · exact .calm (.found key want (rdId (ofBytes raw) 0) (rdSize (ofBytes raw) 0)) i (by simp) (by simp) (by simp) rfl (gone rfl)
                (by rw [hmc]) (by rw [hmc])
            · exact .calm0 rfl (move rfl) (by rw [hmc]) (by rw [hmc])
          | write wid offset len =>
            have hmc := other (by simp)
            simp only [onFound]
            split
            · split
              · exact .calm (.opened key wid (rdSize (ofBytes raw) 0)) i (by simp) (by simp) (by simp) rfl (gone rfl)
                  (by rw [hmc]) (by rw [hmc])
              · split
                · exact .calm (.opened key wid (rdSize (ofBytes raw) 0)) i (by simp) (by simp) (by simp) rfl (move rfl)
                    (by rw [hmc]) (by rw [hmc])
                · exact .calm (.opened key wid (rdSize (ofBytes raw) 0)) i (by simp) (by simp) (by simp) rfl (move rfl)
                    (by rw [hmc]) (by rw [hmc])
            · exact .calm0 rfl (move rfl) (by rw [hmc]) (by rw [hmc])
          | delete want =>
            by_cases hx : rawState s raw = stCommitted ∧ (want.isNone ∨ want = some (rdId (ofBytes raw) 0))
            · have hcond : rawState s raw = (Req.delete want).expects.1 ∧ ((Req.delete want).expects.2.isNone ∨ (Req.delete want).expects.2 = some (rdId (ofBytes raw) 0)) := hx
              simp only
              rw [if_pos hcond]
              simp only [onFound]
              have hun : unlinked c s (.inode i idle) = (unlink c s (c.bkt key) ⟨cur, prev, raw⟩).map (fun _ => ⟨cur, prev, raw⟩) := by
                simp only [unlinked, hth]
                rw [if_pos ⟨hk, hx⟩]
              cases hu : unlink c s (c.bkt key) ⟨cur, prev, raw⟩ with
              | none =>
                simp only [hu]
                have hmc : m.count c s (.inode i idle) = m := by simp only [Metrics.count, hun, hu, Option.map_none]
                exact .calm0 rfl (move rfl) (by rw [hmc]) (by rw [hmc])
              | some u =>
                obtain ⟨s1, tk, ws, free⟩ := u
                obtain ⟨u1, u2, u3, u4⟩ := unlink_same hu
                have k := commitTxn_same (c := c) (event s1 i (.removed key want (rdId (ofBytes raw) 0))) idle ws
                simp only [hu]
                have hmc : m.count c s (.inode i idle) = m.onUnlinked ⟨cur, prev, raw⟩ := by simp only [Metrics.count, hun, hu, Option.map_some]
                refine .of (.removed key want (ver v.L r).id) i ?_ (move (pc' := .wait (commitTxn c (event s1 i (.removed key want (rdId (ofBytes raw) 0))) idle ws).2 free [tk] .deleted) ?_)
                  (.removed ?_) ?_ ?_
                · refine k.1.trans ?_
                  simp [event, u1, ver, hcopy.id]
                · show upd _ i _ = _
                  rw [k.2.2.1]; simp only [event, u3]
                · rw [← hcopy.key, hk] at hmem
                  exact hmem
                · rw [hmc]; simp only [Metrics.onUnlinked]; omega
                · rw [hmc]; simp only [Metrics.onUnlinked, ver, hcopy.size]; omega
            · have hcond : ¬ (rawState s raw = (Req.delete want).expects.1 ∧ ((Req.delete want).expects.2.isNone ∨ (Req.delete want).expects.2 = some (rdId (ofBytes raw) 0))) := hx
              simp only
              rw [if_neg hcond]
              have hmc : m.count c s (.inode i idle) = m := by
                simp only [Metrics.count, unlinked, hth]
                rw [if_neg (fun x => hx x.2)]
              exact .calm0 rfl (move rfl) (by rw [hmc]) (by rw [hmc])
      · rw [if_neg hk]
        have hmc : m.count c s (.inode i idle) = m := by
          cases req with
          | delete want =>
            simp only [Metrics.count, unlinked, hth]
            rw [if_neg (fun x => hk x.1)]
          | _ => exact other (by simp)
        exact .calm0 rfl (move rfl) (by rw [hmc]) (by rw [hmc])
    · cases ha
  | atEnd i idle =>
    simp only [act] at ha
    split at ha
    · rename_i st req key prev inc ex hth
      have hcr := creating_pc hth (by simp) (by simp)
      have hcall : st.call = .lookup req key := (hai.thr _ _ hth).2.2.2
      obtain ⟨cl, n⟩ := st
      simp only at hcall
      subst hcall
      have gone : ∀ {s1 : LSt}, s1.thr = upd s.thr i none → creating s1 = creating s := fun h1 => creating_same h1 hcr rfl
      have move : ∀ {s1 : LSt} {pc' : PC}, s1.thr = upd s.thr i (some ⟨⟨.lookup req key, n⟩, pc'⟩) → creating s1 = creating s :=
        fun h1 => creating_same h1 hcr (creatingT_lookup _ _ _ _)
      cases ha
      have hpc := (h.thr i _ hth).2
      obtain ⟨vis, rest, q1, q2, q3, q4, q5⟩ := hpc
      have hre := rest_nil hc h q1 q2
      subst hre
      rw [List.append_nil] at q1
      unfold onEnd
      cases req with
      | look want =>
        have hmc : m.count c s (.atEnd i idle) = m := by simp only [Metrics.count, unlinked, hth]
        exact .calm (.missing key want) i (by simp) (by simp) (by simp) rfl (gone rfl) (by rw [hmc]) (by rw [hmc])
      | write id o l =>
        have hmc : m.count c s (.atEnd i idle) = m := by simp only [Metrics.count, unlinked, hth]
        exact .calm (.refused key id) i (by simp) (by simp) (by simp) rfl (gone rfl) (by rw [hmc]) (by rw [hmc])
      | delete want =>
        have hmc : m.count c s (.atEnd i idle) = m := by simp only [Metrics.count, unlinked, hth]
        exact .calm (.missing key want) i (by simp) (by simp) (by simp) rfl (gone rfl) (by rw [hmc]) (by rw [hmc])
      | commit id =>
        cases inc with
        | none =>
          have hmc : m.count c s (.atEnd i idle) = m := by simp only [Metrics.count, unlinked, hth]
          exact .calm (.refused key id) i (by simp) (by simp) (by simp) rfl (gone rfl) (by rw [hmc]) (by rw [hmc])
        | some f =>
          have fin : ∀ {s1 : LSt} {tickets : List (Overlay.Ticket Cell)} {ws : List (Nat × List Byte)} {free : List (Nat × Nat)} {pc : PC} {dO dD : Int},
              (s1.lin = s.lin ∧ s1.nextCall = s.nextCall ∧ s1.thr = s.thr ∧ s1.acks = s.acks) →
              Kind c.versioning (absOf c v) (some (.committed key id)) (creating s) (creating s) dO dD →
              (m.count c s (.atEnd i idle)).objects = m.objects + dO → (m.count c s (.atEnd i idle)).data = m.data + dD →
              Sorted c s v m (m.count c s (.atEnd i idle))
                (setPc (commitTxn c (event { s1 with ov := (s1.ov.set (.state id) stCommitted).1 } i (.committed key id)) idle ws).1 i ⟨⟨.lookup (.commit id) key, n⟩, pc⟩
                (.wait (commitTxn c (event { s1 with ov := (s1.ov.set (.state id) stCommitted).1 } i (.committed key id)) idle ws).2 free tickets .committed)) := by
            intro s1 tickets ws free pc dO dD ⟨u1, u2, u3, u4⟩ hk h1 h2
            have k := commitTxn_same (c := c) (event { s1 with ov := (s1.ov.set (.state id) stCommitted).1 } i (.committed key id)) idle ws
            refine .of (.committed key id) i ?_ (move (pc' := .wait (commitTxn c (event { s1 with ov := (s1.ov.set (.state id) stCommitted).1 } i (.committed key id)) idle ws).2 free
              tickets .committed) ?_) hk h1 h2
            · exact k.1.trans (by simp [event, u1])
            · show upd _ i _ = _
              rw [k.2.2.1]; simp only [event, u3]
          cases ex with
          | none =>
            have hmc : m.count c s (.atEnd i idle) = m := by simp only [Metrics.count, unlinked, hth]
            refine fin ⟨rfl, rfl, rfl, rfl⟩ (.kept (.inr ?_)) (by rw [hmc]; omega) (by rw [hmc]; omega)
            intro w hw
            obtain ⟨r, r1, r2⟩ := List.mem_map.1 hw
            obtain ⟨r3, r4⟩ := List.mem_filter.1 r1
            rw [q1] at r3
            have := q5.2 r r3
            rw [← r2]
            simp only [ver, decide_eq_false_iff_not]
            intro hs
            exact this ⟨by simpa using r4, hs, .inl rfl⟩
          | some e =>
            by_cases hv : c.versioning = true
            · have hmc : m.count c s (.atEnd i idle) = m := by simp only [Metrics.count, unlinked, hth, hv, if_true]
              simp only [hv, if_true]
              exact fin ⟨rfl, rfl, rfl, rfl⟩ (.kept (.inl hv)) (by rw [hmc]; omega) (by rw [hmc]; omega)
            · have hv : c.versioning = false := by simpa using hv
              simp only [hv, Bool.false_eq_true, if_false]
              have hun : unlinked c s (.atEnd i idle) = (unlink c s (c.bkt key) e).map (fun _ => e) := by
                simp only [unlinked, hth, hv, Bool.false_eq_true, if_false]
              cases hu : unlink c s (c.bkt key) e with
              | none =>
                simp only [hu, Option.map_none]
                have hmc : m.count c s (.atEnd i idle) = m := by simp only [Metrics.count, hun, hu, Option.map_none]
                exact .calm0 rfl (move rfl) (by rw [hmc]) (by rw [hmc])
              | some u =>
                obtain ⟨s1, tk, ws, free⟩ := u
                simp only [hu, Option.map_some]
                have hmc : m.count c s (.atEnd i idle) = m.onUnlinked e := by simp only [Metrics.count, hun, hu, Option.map_some]
                obtain ⟨a, r, d, f1, f2, f3, f4, f5⟩ := q5.2
                have hrc : r ∈ v.ch (c.bkt key) := by rw [q1, f1]; simp
                have hmem := mem_abs hc h hrc
                rw [f2.1] at hmem
                exact fin (unlink_same hu) (.replaced hv hmem (by simp [ver, f2.2.1]))
                  (by rw [hmc]; simp only [Metrics.onUnlinked]; omega) (by rw [hmc]; simp only [Metrics.onUnlinked, ver, f5.size]; omega)
    · cases ha
  | signalled i =>
    simp only [act] at ha
    split at ha
    · rename_i st txn free tickets resp hth
      split at ha
      · split at ha
        · cases ha
          refine .calm0 rfl ?_ rfl rfl
          rw [creating_upd (s := s) rfl]
          refine upd_same ?_
          simp only [creating, hth]
          obtain ⟨cl, n⟩ := st
          cases cl <;> cases resp <;> rfl
        · rename_i hnone
          obtain ⟨al, hal⟩ := release_ok h hth rfl
          rw [hal] at hnone; cases hnone
      · cases ha
    · cases ha
  | evict i =>
    simp only [act] at ha
    split at ha
    · rename_i st k ks resp hth
      cases ha
      refine .calm0 rfl ?_ rfl rfl
      rw [creating_upd (s := s) rfl]
      refine upd_same ?_
      simp only [creating, hth]
      obtain ⟨cl, n⟩ := st
      cases cl <;> cases resp <;> rfl
    · cases ha
  | respond i =>
    simp only [act] at ha
    split at ha
    · rename_i st resp hth
      cases ha
      have hsay : Says st.call resp _ := (hai.thr _ _ hth).2.2
      obtain ⟨cl, n⟩ := st
      by_cases hcr : ∃ key sz id, cl = .create key sz ∧ resp = .created id
      · obtain ⟨key, sz, id, rfl, rfl⟩ := hcr
        refine ⟨none, 0, 1, sz, by simp [respond], ?_, by simp [Metrics.count, hth, Metrics.onCreated], by simp [Metrics.count, hth, Metrics.onCreated]⟩
        rw [creating_upd (s := s) (s' := respond s i ⟨⟨.create key sz, n⟩, .dead⟩ (.created id)) (i := i) (t := none) rfl]
        exact .answer (by rw [creating, hth]; rfl)
      · have hmc : m.count c s (.respond i) = m := by
          simp only [Metrics.count, hth]
          cases cl <;> cases resp <;> first | rfl | (exfalso; exact hcr ⟨_, _, _, rfl, rfl⟩)
        refine .calm0 rfl ?_ (by rw [hmc]) (by rw [hmc])
        refine creating_same rfl ?_ rfl
        simp only [creating, hth]
        cases cl <;> cases resp <;> first | rfl | (exfalso; exact hcr ⟨_, _, _, rfl, rfl⟩)
    · cases ha
  | data i n skip bytes =>
    simp only [act] at ha
    split at ha
    · split at ha
      · split at ha
        · cases ha
          exact .calm0 rfl rfl rfl rfl
        · cases ha
      · cases ha
    · cases ha
  | writeEnd i r =>
    simp only [act] at ha
    split at ha
    · rename_i hth
      cases ha
      exact .calm0 rfl (creating_same rfl (creating_pc hth (by simp) (by simp)) rfl) rfl rfl
    · cases ha
  | drop i =>
    simp only [act] at ha
    split at ha
    · rename_i st _ _ _ _ _ _ _ hth
      cases ha
      exact .calm0 rfl (creating_same rfl (creating_pc hth (by simp) (by simp)) (by obtain ⟨cl, n⟩ := st; cases cl <;> rfl)) rfl rfl
    · rename_i st _ _ _ hth
      cases ha
      exact .calm0 rfl (creating_same rfl (creating_pc hth (by simp) (by simp)) (by obtain ⟨cl, n⟩ := st; cases cl <;> rfl)) rfl rfl
    · cases ha
  | cancel i n bytes =>
    simp only [act] at ha
    split at ha
    · rename_i st _ _ _ hth
      split at ha
      · split at ha
        · cases ha
          exact .calm0 rfl (creating_same rfl (creating_pc hth (by simp) (by simp)) (by obtain ⟨cl, n⟩ := st; cases cl <;> rfl)) rfl rfl
        · cases ha
      · cases ha
    · cases ha
  | orphan n =>
    simp only [act] at ha
    split at ha
    · cases ha
      exact .calm0 rfl rfl rfl rfl
    · cases ha

end

/-! ## The balance -/

def dat (l : List (List Byte × Ver)) : Int := (l.map (fun x => (x.2.size : Int))).sum

theorem cut_list {a : Abs} {l : List (List Byte × Ver)} (h : a.Listing l) {k : List Byte} {v : Ver} (hv : v ∈ a k) :
    ∃ l1, (a.set k ((a k).filter (fun w => w.id ≠ v.id))).Listing l1 ∧ (l1.length : Int) = l.length - 1 ∧ dat l1 = dat l - v.size := by
  obtain ⟨s, t, e⟩ := List.append_of_mem ((h.2 k v).2 hv)
  have hn := h.1
  rw [e, List.map_append, List.map_cons, List.nodup_middle] at hn
  obtain ⟨hn1, hn2⟩ := List.nodup_cons.1 hn
  rw [← List.map_append] at hn1 hn2
  refine ⟨s ++ t, ⟨hn2, ?_⟩, by rw [e]; simp only [List.length_append, List.length_cons]; omega, ?_⟩
  · intro k' w
    simp only [Abs.set]
    have hm : ((k', w) ∈ l) ↔ w ∈ a k' := h.2 k' w
    rw [e] at hm
    have hin : (k', w) ∈ s ++ t → ¬ (k' = k ∧ w.id = v.id) := by
      rintro hi ⟨rfl, hid⟩
      exact hn1 (List.mem_map.2 ⟨(k', w), hi, by simp [hid]⟩)
    have hl : (k', w) ∈ s ++ (k, v) :: t ↔ (k', w) = (k, v) ∨ (k', w) ∈ s ++ t := by
      simp only [List.mem_append, List.mem_cons]; tauto
    rw [hl] at hm
    by_cases hk : k' = k
    · subst hk
      rw [if_pos rfl, List.mem_filter, ← hm]
      constructor
      · intro hi
        exact ⟨.inr hi, by simpa using fun hid => hin hi ⟨rfl, hid⟩⟩
      · rintro ⟨hi | hi, hid⟩
        · simp only [Prod.mk.injEq, true_and] at hi
          rw [hi] at hid; simp at hid
        · exact hi
    · rw [if_neg hk, ← hm]
      constructor
      · exact .inr
      · rintro (hi | hi)
        · simp only [Prod.mk.injEq] at hi
          exact absurd hi.1 hk
        · exact hi
  · rw [e]
    unfold dat
    simp only [List.map_append, List.map_cons, List.sum_append, List.sum_cons]
    omega

def mark (id : Nat) (w : Ver) : Ver := if w.id = id then { w with committed := true } else w

theorem mark_id (id : Nat) (w : Ver) : (mark id w).id = w.id := by unfold mark; split <;> rfl
theorem mark_size (id : Nat) (w : Ver) : (mark id w).size = w.size := by unfold mark; split <;> rfl

theorem mark_list {a : Abs} {l : List (List Byte × Ver)} (h : a.Listing l) (k : List Byte) (id : Nat) :
    ∃ l1, (a.set k ((a k).map (mark id))).Listing l1 ∧ l1.length = l.length ∧ dat l1 = dat l := by
  refine ⟨l.map (fun x => if x.1 = k then (x.1, mark id x.2) else x), ⟨?_, ?_⟩, by simp, ?_⟩
  · rw [List.map_map]
    have : ((fun x : List Byte × Ver => (x.1, x.2.id)) ∘ fun x => if x.1 = k then (x.1, mark id x.2) else x) = fun x => (x.1, x.2.id) := by
      funext x
      simp only [Function.comp]
      split <;> simp [mark_id]
    rw [this]
    exact h.1
  · intro k' w
    simp only [Abs.set, List.mem_map]
    by_cases hk : k' = k
    · subst hk
      rw [if_pos rfl, List.mem_map]
      constructor
      · rintro ⟨⟨k2, w2⟩, h1, h2⟩
        simp only at h2
        split at h2
        · rename_i hk2
          cases h2
          exact ⟨w2, (h.2 _ _).1 (by rw [← hk2]; exact h1), rfl⟩
        · rename_i hk2
          cases h2
          exact absurd rfl hk2
      · rintro ⟨w2, h1, rfl⟩
        exact ⟨(k', w2), (h.2 _ _).2 h1, by simp⟩
    · rw [if_neg hk]
      constructor
      · rintro ⟨⟨k2, w2⟩, h1, h2⟩
        simp only at h2
        split at h2
        · rename_i hk2
          cases h2
          exact absurd hk2 hk
        · cases h2
          exact (h.2 _ _).1 h1
      · intro h1
        exact ⟨(k', w), (h.2 _ _).2 h1, by simp [hk]⟩
  · unfold dat
    rw [List.map_map]
    congr 1
    apply List.map_congr_left
    intro x _
    simp only [Function.comp]
    split <;> simp [mark_size]

theorem set_set (a : Abs) (k : List Byte) (l l' : List Ver) : (a.set k l).set k l' = a.set k l' := by
  funext k'; unfold Abs.set; split <;> rfl

theorem set_self {a : Abs} {k : List Byte} {l : List Ver} (h : l = a k) : a.set k l = a := by
  funext k'; unfold Abs.set; split
  · rename_i e; rw [e, h]
  · rfl

/-- one event, as the counters see it -/
theorem list_step {vs : Bool} {a a' : Abs} {e : Ev} {l : List (List Byte × Ver)} (h : a.Listing l) (hs : absStep vs a e = some a')
    (hnd : ∀ k, ((a' k).map (·.id)).Nodup) (hv : vs = false → ∀ k, ∀ y ∈ a k, ∀ z ∈ a k, y.committed = true → z.committed = true → y = z)
    {p p' : Nat → Option Nat} {dO dD : Int} (hk : Kind vs a (some e) p p' dO dD) :
    ∃ l', a'.Listing l' ∧ (l'.length : Int) = l.length + dO + (match e with | .created .. => 1 | _ => 0) ∧
      dat l' = dat l + dD + (match e with | .created _ _ n => (n : Int) | _ => 0) := by
  generalize he : some e = oe at hk
  cases hk with
  | @link k id size i p hp =>
    cases he
    simp only [absStep, Option.some.injEq] at hs
    subst hs
    refine ⟨(k, ⟨id, size, false⟩) :: l, ⟨?_, ?_⟩, by simp, by simp [dat]; omega⟩
    · rw [List.map_cons, List.nodup_cons]
      refine ⟨?_, h.1⟩
      intro hm
      obtain ⟨⟨k2, w⟩, h1, h2⟩ := List.mem_map.1 hm
      simp only [Prod.mk.injEq] at h2
      have := hnd k
      simp only [Abs.set, if_true, List.map_cons, List.nodup_cons] at this
      exact this.1 (List.mem_map.2 ⟨w, (h.2 k w).1 (by rw [← h2.1]; exact h1), h2.2⟩)
    · intro k' w
      simp only [Abs.set, List.mem_cons, Prod.mk.injEq]
      by_cases hk : k' = k
      · subst hk; simp [h.2 k' w]
      · simp [hk, h.2 k' w]
  | answer hp => cases he
  | @removed k want w p hw =>
    cases he
    obtain ⟨l1, h1, h2, h3⟩ := cut_list h hw
    simp only [absStep] at hs
    split at hs
    · rename_i x hx
      split at hs
      · cases hs
        exact ⟨l1, h1, by simp only; omega, by simp only; omega⟩
      · cases hs
    · cases hs
  | @replaced k id w p hvs hw hcm =>
    cases he
    obtain ⟨l1, h1, h2, h3⟩ := cut_list h hw
    obtain ⟨l2, g1, g2, g3⟩ := mark_list h1 k id
    simp only [absStep] at hs
    split at hs
    · cases hs
      refine ⟨l2, ?_, by simp only; omega, by simp only; omega⟩
      rw [set_set] at g1
      have e1 : (a k).filter (fun v => vs || !v.committed) = (a k).filter (fun y => y.id ≠ w.id) := by
        apply List.filter_congr
        intro y hy
        simp only [hvs, Bool.false_or]
        by_cases hyc : y.committed = true
        · have := hv hvs k y hy w hw hyc hcm
          rw [this, hcm]; simp
        · simp only [hyc, Bool.not_false, Bool.not_eq_true]
          symm
          simp only [ne_eq, decide_not, Bool.not_eq_eq_eq_not, Bool.not_true, decide_eq_false_iff_not]
          intro hid
          have hn := h.1
          have := List.inj_on_of_nodup_map hn ((h.2 k y).2 hy) ((h.2 k w).2 hw) (by simp [hid])
          cases this
          exact hyc hcm
      rw [e1]
      have e2 : a.set k ((a k).filter (fun y => y.id ≠ w.id)) k = (a k).filter (fun y => y.id ≠ w.id) := by simp [Abs.set]
      rw [e2] at g1
      exact g1
    · cases hs
  | @kept k id p hq =>
    cases he
    obtain ⟨l2, g1, g2, g3⟩ := mark_list h k id
    simp only [absStep] at hs
    split at hs
    · cases hs
      refine ⟨l2, ?_, by simp only; omega, by simp only; omega⟩
      have e1 : (a k).filter (fun v => vs || !v.committed) = a k := by
        rw [List.filter_eq_self]
        intro y hy
        rcases hq with hq | hq
        · simp [hq]
        · simp [hq y hy]
      rw [e1]
      exact g1
    · cases hs
  | quiet q1 q2 q3 =>
    subst he
    have : a' = a := by
      cases e with
      | created k id n => exact absurd rfl (q1 k id n)
      | removed k w id => exact absurd rfl (q2 k w id)
      | committed k id => exact absurd rfl (q3 k id)
      | found k want id size =>
        simp only [absStep] at hs
        split at hs
        · split at hs <;> cases hs; rfl
        · cases hs
      | missing k want =>
        simp only [absStep] at hs
        split at hs <;> cases hs; rfl
      | opened k id size =>
        simp only [absStep] at hs
        split at hs
        · split at hs <;> cases hs; rfl
        · cases hs
      | refused k id =>
        simp only [absStep] at hs
        split at hs <;> cases hs; rfl
    subst this
    refine ⟨l, h, ?_, ?_⟩
    · cases e <;> first | (simp only; omega) | exact absurd rfl (q1 _ _ _)
    · cases e <;> first | (simp only; omega) | exact absurd rfl (q1 _ _ _)

/-- `P` lists the creates in progress -/
def Progress (p : Nat → Option Nat) (P : List (Nat × Nat)) : Prop := (P.map (·.1)).Nodup ∧ ∀ i n, (i, n) ∈ P ↔ p i = some n

def psum (P : List (Nat × Nat)) : Int := (P.map (fun x => (x.2 : Int))).sum

theorem prog_step {vs : Bool} {a : Abs} {e : Option Ev} {p p' : Nat → Option Nat} {dO dD : Int} (hk : Kind vs a e p p' dO dD) {P : List (Nat × Nat)}
    (h : Progress p P) : ∃ P', Progress p' P' ∧
      (P'.length : Int) = P.length + (match e with | some (.created ..) => 1 | none => -dO | _ => 0) ∧
      psum P' = psum P + (match e with | some (.created _ _ n) => (n : Int) | none => -dD | _ => 0) := by
  cases hk with
  | @link k id size i p hp =>
    refine ⟨(i, size) :: P, ⟨?_, ?_⟩, by simp, by simp [psum]; omega⟩
    · rw [List.map_cons, List.nodup_cons]
      refine ⟨?_, h.1⟩
      intro hm
      obtain ⟨⟨j, n⟩, h1, h2⟩ := List.mem_map.1 hm
      simp only at h2
      subst h2
      rw [h.2, hp] at h1
      cases h1
    · intro j n
      simp only [upd, List.mem_cons, Prod.mk.injEq]
      by_cases hj : j = i
      · subst hj
        simp only [true_and, if_true, Option.some.injEq, h.2, hp]
        constructor
        · rintro (rfl | h) <;> [rfl; cases h]
        · intro e; exact .inl e.symm
      · simp [hj, h.2]
  | @answer i n p hp =>
    obtain ⟨s, t, e⟩ := List.append_of_mem ((h.2 i n).2 hp)
    have hn := h.1
    rw [e, List.map_append, List.map_cons, List.nodup_middle] at hn
    obtain ⟨hn1, hn2⟩ := List.nodup_cons.1 hn
    rw [← List.map_append] at hn1 hn2
    refine ⟨s ++ t, ⟨hn2, ?_⟩, by rw [e]; simp only [List.length_append, List.length_cons]; omega,
      by rw [e]; unfold psum; simp only [List.map_append, List.map_cons, List.sum_append, List.sum_cons]; omega⟩
    intro j x
    have hm := h.2 j x
    rw [e] at hm
    simp only [upd]
    by_cases hj : j = i
    · subst hj
      rw [if_pos rfl]
      constructor
      · intro hi; exact absurd (List.mem_map.2 ⟨_, hi, rfl⟩) hn1
      · intro hi; cases hi
    · rw [if_neg hj, ← hm]
      simp only [List.mem_append, List.mem_cons, Prod.mk.injEq, hj, false_and, false_or]
  | removed => exact ⟨P, h, by simp, by simp⟩
  | replaced => exact ⟨P, h, by simp, by simp⟩
  | kept => exact ⟨P, h, by simp, by simp⟩
  | @quiet e p q1 q2 q3 =>
    refine ⟨P, h, ?_, ?_⟩
    · split <;> first | omega | exact absurd rfl (q1 _ _ _)
    · split <;> first | omega | exact absurd rfl (q1 _ _ _)

/-- the counters and the store -/
def Bal (c : LCfg) (s : LSt) (m : Metrics) : Prop :=
  ∃ a l P, absRun c.versioning (s.lin.map (·.2)) = some a ∧ a.Listing l ∧ Progress (creating s) P ∧
    m.objects + P.length = l.length ∧ m.data + psum P = dat l

theorem mreach_reach {c : LCfg} {s : LSt} {m : Metrics} (h : MReach c s m) : Reach c s := by
  induction h with
  | fresh h => exact .fresh h
  | act a _ ha ih => exact .step ih (.act a ha)
  | journal _ hj hh ih => exact .step ih (.journal hj hh)

theorem abs_nodup {c : LCfg} (hc : c.Ok) {s : LSt} {base : Mem} {v : V} {leak : List (Nat × Nat)} (h : LInv c s base v leak) (k : List Byte) :
    ((absOf c v k).map (·.id)).Nodup := by
  unfold absOf
  rw [List.map_map, List.nodup_map_iff_inj_on]
  · intro x hx y hy e
    have hx := linked_of hc h (List.mem_of_mem_filter hx)
    have hy := linked_of hc h (List.mem_of_mem_filter hy)
    have := h.good.toBase.uniqId hx hy e
    cases this
    rfl
  · exact (List.Nodup.of_map _ (h.good.chn _)).filter _

theorem mreach_bal {c : LCfg} (hc : c.Ok) {s : LSt} {m : Metrics} (h : MReach c s m) (hf : s.faults = []) : Bal c s m := by
  induction h with
  | @fresh dev s h =>
    unfold fresh at h
    split at h
    · cases h
      exact ⟨fun _ => [], [], [], rfl, ⟨List.nodup_nil, by simp⟩, ⟨List.nodup_nil, by simp [creating, creatingT]⟩, by simp [Metrics.zero],
        by simp [Metrics.zero, psum, dat]⟩
    · cases h
  | @act s s' m a hr ha ih =>
    obtain ⟨ab, l, P, h1, h2, h3, h4, h5⟩ := ih (act_faults ha hf)
    obtain ⟨base, v, leak, hi⟩ := reach_inv hc (mreach_reach hr) (act_faults ha hf)
    obtain ⟨base', v', leak', hi', _⟩ := step_act hc hi ha hf
    obtain ⟨e, i, dO, dD, k1, k2, k3, k4⟩ := classify hc hi (reach_ai (mreach_reach hr)) ha m
    have hab : ab = absOf c v := by have := hi.abs; rw [h1] at this; exact Option.some.inj this
    subst hab
    obtain ⟨P', p1, p2, p3⟩ := prog_step k2 h3
    cases e with
    | none =>
      have e1 := hi'.abs
      simp only [Option.map_none, Option.toList_none, List.append_nil] at k1
      refine ⟨absOf c v, l, P', by rw [k1]; exact h1, h2, p1, ?_, ?_⟩
      · simp only at p2; omega
      · simp only at p3; omega
    | some e =>
      have e1 := hi'.abs
      rw [k1] at e1
      simp only [Option.map_some, Option.toList_some, List.map_append, List.map_cons, List.map_nil] at e1
      rw [absRun_snoc hi.abs] at e1
      obtain ⟨l', l1, l2, l3⟩ := list_step h2 e1 (abs_nodup hc hi') (fun hvs k y hy z hz hyc hzc => by
        have hv := vis_ok (by rw [← hvs]; exact h1) k
        have hid : y.id = z.id := by
          have := hv.1 y hy hyc
          rw [hv.1 z hz hzc] at this
          exact (Option.some.inj this).symm
        exact abs_inj hc hi k y hy z hz hid) k2
      refine ⟨absOf c v', l', P', hi'.abs, l1, p1, ?_, ?_⟩
      · cases e <;> simp only at p2 l2 <;> omega
      · cases e <;> simp only at p3 l3 <;> omega
  | @journal s m j' hr hj hh ih => exact ih hf

end Lite
end Blobd
