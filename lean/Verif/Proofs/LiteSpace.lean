import Verif.Spec.LiteSpace
import Verif.Proofs.LiteChange
import Verif.Proofs.LiteCrash
set_option autoImplicit false
/-! # Lite store: which pages are taken -/
namespace Blobd
namespace Lite
open Spec

/-- a call that died stays as it is -/
theorem act_dead {c : LCfg} {s s' : LSt} {a : Act} (ha : act c s a = some s') (hb : ∀ i t, s.thr i = some t → i < s.nextCall)
    {i : Nat} {t : Thread} (ht : s.thr i = some t) (hd : t.pc = .dead) : s'.thr i = some t := by
  have hi := hb i t ht
  have hcom : ∀ (s2 : LSt) idle ws, (commitTxn c s2 idle ws).1.thr = s2.thr := fun s2 idle ws => (commitTxn_same s2 idle ws).2.2.1
  have key : ∀ {j : Nat} {st : Begun} {pc : PC} (o : Option Thread), s.thr j = some ⟨st, pc⟩ → pc ≠ .dead → upd s.thr j o i = some t := by
    intro j st pc o hj hne
    have : i ≠ j := by
      rintro rfl
      rw [ht] at hj
      cases hj
      exact hne hd
    simp [upd, this, ht]
  have hnew : ∀ (o : Option Thread), upd s.thr s.nextCall o i = some t := by
    intro o
    have : i ≠ s.nextCall := by omega
    simp [upd, this, ht]
  have hfound : ∀ {j : Nat} {st : Begun} {pc : PC} (t' : Thread) req k f idle, s.thr j = some ⟨st, pc⟩ → pc ≠ .dead →
      (onFound c s j t' req k f idle).thr i = some t := by
    intro j st pc t' req k f idle hj hne
    unfold onFound
    cases req with
    | look want => exact key _ hj hne
    | write wid o l =>
      simp only
      split
      · exact key _ hj hne
      · split <;> exact key _ hj hne
    | delete want =>
      simp only
      split
      · exact key _ hj hne
      · rename_i s1 tk ws free hu
        simp only [setPc, hcom, event, (unlink_same hu).2.2.1]
        exact key _ hj hne
    | commit id => exact ht
  cases a with
  | create k size assoc created id =>
    have h : create c s k size assoc created id = some s' := ha
    unfold create at h
    split at h
    · split at h
      · cases h
      · simp only at h
        split at h
        · cases h; exact ht
        · split at h
          · cases h; exact hnew _
          · split at h <;> (cases h; exact hnew _)
    · cases h
  | createWritten j =>
    simp only [act] at ha
    split at ha
    · rename_i hj; cases ha; exact key _ hj (by simp)
    · cases ha
  | createLink j idle =>
    simp only [act] at ha
    split at ha
    · rename_i hj
      split at ha
      · cases ha
        simp only [link, setPc, hcom]
        exact key _ hj (by simp)
      · cases ha
    · cases ha
  | lookup req k =>
    simp only [act] at ha
    split at ha
    · cases ha; exact hnew _
    · cases ha
  | read j =>
    simp only [act] at ha
    split at ha
    · rename_i hj
      split at ha
      · cases ha
      · cases ha; exact key _ hj (by simp)
    · cases ha
  | inode j idle =>
    simp only [act] at ha
    split at ha
    · rename_i st req k cur prev raw inc ex hj
      cases ha
      unfold onInode
      simp only
      split
      · split
        · exact key _ hj (by simp)
        · cases req with
          | commit id =>
            simp only
            split
            · exact key _ hj (by simp)
            · split <;> exact key _ hj (by simp)
          | look want =>
            simp only
            split
            · exact hfound _ _ _ _ _ hj (by simp)
            · exact key _ hj (by simp)
          | write id o l =>
            simp only
            split
            · exact hfound _ _ _ _ _ hj (by simp)
            · exact key _ hj (by simp)
          | delete want =>
            simp only
            split
            · exact hfound _ _ _ _ _ hj (by simp)
            · exact key _ hj (by simp)
      · exact key _ hj (by simp)
    · cases ha
  | atEnd j idle =>
    simp only [act] at ha
    split at ha
    · rename_i st req k prev inc ex hj
      cases ha
      unfold onEnd
      cases req with
      | look want => exact key _ hj (by simp)
      | write id o l => exact key _ hj (by simp)
      | delete want => exact key _ hj (by simp)
      | commit id =>
        cases inc with
        | none => exact key _ hj (by simp)
        | some f =>
          cases ex with
          | none =>
            simp only [setPc, hcom, event]
            exact key _ hj (by simp)
          | some e =>
            simp only
            split
            · exact key _ hj (by simp)
            · rename_i s1 tk ws free hd'
              simp only [setPc, hcom, event]
              split at hd'
              · cases hd'; exact key _ hj (by simp)
              · rw [Option.map_eq_some_iff] at hd'
                obtain ⟨⟨s1', tk', ws', free'⟩, hu, hd'⟩ := hd'
                cases hd'
                rw [(unlink_same hu).2.2.1]
                exact key _ hj (by simp)
    · cases ha
  | signalled j =>
    simp only [act] at ha
    split at ha
    · rename_i hj
      split at ha
      · split at ha <;> (cases ha; exact key _ hj (by simp))
      · cases ha
    · cases ha
  | evict j =>
    simp only [act] at ha
    split at ha
    · rename_i hj; cases ha; exact key _ hj (by simp)
    · cases ha
  | respond j =>
    simp only [act] at ha
    split at ha
    · rename_i hj; cases ha; exact key _ hj (by simp)
    · cases ha
  | data j n skip bytes =>
    simp only [act] at ha
    split at ha
    · split at ha
      · split at ha
        · cases ha; exact ht
        · cases ha
      · cases ha
    · cases ha
  | writeEnd j r =>
    simp only [act] at ha
    split at ha
    · rename_i hj; cases ha; exact key _ hj (by simp)
    · cases ha
  | drop j =>
    simp only [act] at ha
    split at ha
    · rename_i hj; cases ha; exact key _ hj (by simp)
    · rename_i hj; cases ha; exact key _ hj (by simp)
    · cases ha
  | cancel j n bytes =>
    simp only [act] at ha
    split at ha
    · rename_i hj
      split at ha
      · split at ha
        · cases ha; exact key _ hj (by simp)
        · cases ha
      · cases ha
    · cases ha
  | orphan n =>
    simp only [act] at ha
    split at ha
    · cases ha; exact ht
    · cases ha

/-- nothing is lost but what failed creates had allocated -/
theorem reach_leak {c : LCfg} (hc : c.Ok) {s : LSt} (hr : Reach c s) (hf : s.faults = []) :
    ∃ base v leak, LInv c s base v leak ∧ (leak = [] ∨ CreateFailed s) := by
  induction hr with
  | fresh h =>
    obtain ⟨base, v, h'⟩ := fresh_inv' hc h
    exact ⟨base, v, [], h', .inl rfl⟩
  | step hr hs ih =>
    cases hs with
    | act a h =>
      obtain ⟨base, v, leak, hi, hl⟩ := ih (act_faults h hf)
      obtain ⟨b', v', l', h', _, hl'⟩ := step_act' hc hi h hf
      refine ⟨b', v', l', h', ?_⟩
      rcases hl' with rfl | hl'
      · rcases hl with rfl | ⟨i, t, h1, h2, h3⟩
        · exact .inl rfl
        · exact .inr ⟨i, t, act_dead h (fun i t ht => (hi.thr i t ht).1) h1 h2, h2, h3⟩
      · exact .inr hl'
    | journal h hh =>
      obtain ⟨base, v, leak, hi, hl⟩ := ih hf
      obtain ⟨b', v', h', _⟩ := step_journal hc hi h hh
      exact ⟨b', v', leak, h', hl⟩

section
variable {c : LCfg} (hc : c.Ok) {s : LSt} {base : Mem} {v : V} {leak : List (Nat × Nat)} (h : LInv c s base v leak)
include hc h

theorem listed_iff {off : Nat} : Listed c s off ↔ ∃ r, r.off = off ∧ (Own.linked, r) ∈ v.recs := by
  constructor
  · exact (rec_of hc h).1
  · rintro ⟨r, rfl, hr⟩
    have hm := (h.good.lnk r).1 hr
    exact ⟨_, bkt_lt hc r.o.key, _, chain_of hc h (bkt_lt hc r.o.key), List.mem_map.2 ⟨r, hm, rfl⟩⟩

theorem pagesAt_eq {r : Rec} (hr : (Own.linked, r) ∈ v.recs) : pagesAt c s r.off = regs c.pages r := by
  have hat := dev_at hc h.good (h.geo hc) h.jinv h.L h.U hr
  have hfit := (h.good.fit _ hr).1
  unfold pagesAt
  rw [dataAt_eq hc hat hfit, (hat.fields hfit).1]
  rfl

theorem newPages_eq {x : Own} {off : Nat} {o : NewObject} (hr : (x, ⟨off, o⟩) ∈ v.recs) :
    dataAt c (Mem.write (fun _ => 0) off o.encode) off ++ [(off, o.metaSizePow2)] = regs c.pages ⟨off, o⟩ := by
  have hfit := (h.good.fit _ hr).1
  rw [dataAt_eq hc (r := ⟨off, o⟩) (at_encode _ _ _) hfit]
  rfl

theorem used_iff (q : Nat × Nat) : UsedPage c s q ↔ q ∈ v.recs.flatMap (fun x => regs c.pages x.2) := by
  rw [List.mem_flatMap]
  constructor
  · rintro (⟨off, h1, h2⟩ | ⟨i, t, h1, h2⟩)
    · obtain ⟨r, rfl, hr⟩ := (listed_iff hc h).1 h1
      rw [pagesAt_eq hc h hr] at h2
      exact ⟨_, hr, h2⟩
    · have hp := (h.thr i t h1).2
      obtain ⟨st, pc⟩ := t
      cases pc with
      | createWrite o off =>
        have hp : (Own.fresh i, ⟨off, o⟩) ∈ v.recs := hp
        simp only [PC.pages] at h2
        rw [newPages_eq hc h hp] at h2
        exact ⟨_, hp, h2⟩
      | createLink o off =>
        have hp : (Own.fresh i, ⟨off, o⟩) ∈ v.recs := hp.1
        simp only [PC.pages] at h2
        rw [newPages_eq hc h hp] at h2
        exact ⟨_, hp, h2⟩
      | wait txn free tks resp =>
        rcases hp.2 with hp | ⟨r, r1, r2, _⟩
        · simp only [PC.pages, hp] at h2; cases h2
        · simp only [PC.pages, r2] at h2
          exact ⟨_, r1, h2⟩
      | walk _ _ _ _ _ _ _ => cases h2
      | writing _ _ _ => cases h2
      | evict _ _ => cases h2
      | dead => cases h2
  · rintro ⟨⟨w, r⟩, hx, hq⟩
    rcases h.own _ hx with h1 | ⟨j, t, h1, h2⟩
    · simp only at h1
      subst h1
      exact .inl ⟨r.off, (listed_iff hc h).2 ⟨r, rfl, hx⟩, by rw [pagesAt_eq hc h hx]; exact hq⟩
    · refine .inr ⟨j, t, h1, ?_⟩
      obtain ⟨st, pc⟩ := t
      cases pc with
      | createWrite o off =>
        have h2 : (w, r) = (Own.fresh j, ⟨off, o⟩) := h2
        cases h2
        simp only [PC.pages]
        rw [newPages_eq hc h hx]
        exact hq
      | createLink o off =>
        have h2 : (w, r) = (Own.fresh j, ⟨off, o⟩) := h2
        cases h2
        simp only [PC.pages]
        rw [newPages_eq hc h hx]
        exact hq
      | wait txn free tks resp =>
        have h2 : w = Own.dying j ∧ free = regs c.pages r := h2
        simp only [PC.pages, h2.2]
        exact hq
      | walk _ _ _ _ _ _ _ => exact h2.elim
      | writing _ _ _ => exact h2.elim
      | evict _ _ => exact h2.elim
      | dead => exact h2.elim

/-- with no call running only listed objects have pages -/
theorem idle_recs (hi : Idle s) : ∃ offs : List Nat, offs.Nodup ∧ (∀ off, off ∈ offs ↔ Listed c s off) ∧
    offs.flatMap (pagesAt c s) = v.recs.flatMap (fun x => regs c.pages x.2) := by
  have hall : ∀ x ∈ v.recs, x.1 = .linked := by
    intro x hx
    rcases h.own x hx with h1 | ⟨j, t, h1, h2⟩
    · exact h1
    · have := hi j t h1
      rw [this] at h2
      exact h2.elim
  refine ⟨v.recs.map (·.2.off), h.good.offs, ?_, ?_⟩
  · intro off
    rw [listed_iff hc h, List.mem_map]
    constructor
    · rintro ⟨⟨w, r⟩, h1, h2⟩
      have := hall _ h1
      simp only at this
      subst this
      exact ⟨r, h2, h1⟩
    · rintro ⟨r, h1, h2⟩
      exact ⟨_, h2, h1⟩
  · rw [List.flatMap_map]
    refine List.flatMap_congr ?_
    rintro ⟨w, r⟩ hx
    have := hall _ hx
    simp only at this
    subst this
    exact pagesAt_eq hc h hx

end
end Lite
end Blobd
