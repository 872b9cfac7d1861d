import Verif.Model.KvCommitMetrics
import Verif.Spec.KvCommitMetrics
import Verif.Props.KvEntryMetrics
/-!
# C89: the counters of background commits
-/
set_option autoImplicit false
namespace Blobd
namespace Props
open Kv

theorem creach_reach {c : StoreCfg} {s : St} {m : CommitMetrics} {bs : List (List Task)} {p : Nat} (h : CReach c s m bs p) : Reach c s := by
  induction h with
  | created h => exact .fresh h
  | reopened h _ hl => exact .restart h hl
  | commit _ hs _ _ ih => exact .step ih hs
  | other _ hs _ ih => exact .step ih hs

theorem count_same (m : CommitMetrics) {s s' : St} (h : s'.commit = s.commit) : countCommit m s s' = m := by
  unfold countCommit
  rw [h]
  cases s.commit with
  | none => rfl
  | some cm =>
    obtain ⟨u, ph⟩ := cm
    cases ph <;> simp

theorem step_bundles {c : StoreCfg} {s s' : St} (m : CommitMetrics) (hs : Step c s s') :
    (countCommit m s s').bundles + m.committed + underWay s + lost s = m.bundles + (countCommit m s s').committed + underWay s' + lost s' := by
  have same : s'.commit = s.commit → lost s' = lost s → 
      (countCommit m s s').bundles + m.committed + underWay s + lost s = m.bundles + (countCommit m s s').committed + underWay s' + lost s' := by
    intro h1 h2
    have h3 : underWay s' = underWay s := by unfold underWay; rw [h1]
    rw [count_same m h1, h2, h3]
  cases hs with
  | flush j1 j2 _ e =>
    refine same rfl ?_
    unfold lost
    simp only
    rw [List.count_append]
    split <;> simp
  | commitStart _ h _ => simp [countCommit, underWay, lost, h]
  | group _ _ h _ _ => simp [countCommit, underWay, lost, h]; omega
  | groupPanic _ _ h _ _ => simp [countCommit, underWay, lost, h]
  | moved h => simp [countCommit, underWay, lost, h]
  | movedAll h => simp [countCommit, underWay, lost, h]
  | bundleRead h _ => simp [countCommit, underWay, lost, h]; omega
  | bundleEntry h _ => simp [countCommit, underWay, lost, h]
  | bundleSerialise _ h _ _ => simp [countCommit, underWay, lost, h, show ∀ n : Nat, ¬ (n + 1 < n) from fun n => by omega]; omega
  | readPanic h _ => simp [countCommit, underWay, lost, h]; omega
  | entryPanic h _ => simp [countCommit, underWay, lost, h]; omega
  | serialisePanic _ h _ _ => simp [countCommit, underWay, lost, h]; omega
  | bundleWritten h => simp [countCommit, underWay, lost, h]; omega
  | headWrite h => simp [countCommit, underWay, lost, h]
  | commitEnd h => simp [countCommit, underWay, lost, h]
  | _ => exact same rfl rfl

/-- a commit takes as many entries as the requests are about keys -/
theorem keys_of_overlay (l : List Task) : (Overlay.ofEntries (l.map Task.erase)).length = keysIn l := by
  rw [ofEntries_erase, List.length_map]
  unfold keysIn
  have : ((surv l).map (·.key)).Perm ((l.map (·.key)).dedup) := by
    refine (List.perm_ext_iff_of_nodup (surv_keys_nodup l) (List.nodup_dedup _)).2 fun k => ?_
    rw [List.mem_dedup]
    constructor
    · intro h
      obtain ⟨t, ht, rfl⟩ := List.mem_map.1 h
      exact List.mem_map.2 ⟨t, surv_mem ht, rfl⟩
    · intro h
      obtain ⟨t, ht, rfl⟩ := List.mem_map.1 h
      cases hl : lastFor l t.key with
      | none =>
        unfold lastFor at hl
        rw [List.find?_eq_none] at hl
        have := hl t (by simpa using ht)
        simp at this
      | some u => exact List.mem_map.2 ⟨u, lastFor_mem_surv hl, (lastFor_key hl).1⟩
  rw [← this.length_eq, List.length_map]

/-- how a commit begins -/
theorem commit_begins {c : StoreCfg} {s s' : St} (hs : Step c s s') (h1 : s.commit = none) (h2 : s'.commit ≠ none) :
    (∃ u, s'.commit = some ⟨u, .started⟩) ∧ s'.applied = s.applied ∧ s'.base = s.base ∧ s'.cl = s.ul ∧ s'.ul = [] := by
  cases hs with
  | commitStart _ h _ => exact ⟨⟨_, rfl⟩, rfl, rfl, rfl, rfl⟩
  | group _ _ h => rw [h] at h1; cases h1
  | groupPanic _ _ h => rw [h] at h1; cases h1
  | moved h => rw [h] at h1; cases h1
  | movedAll h => rw [h] at h1; cases h1
  | bundleRead h => rw [h] at h1; cases h1
  | bundleEntry h => rw [h] at h1; cases h1
  | bundleSerialise _ h => rw [h] at h1; cases h1
  | readPanic h => rw [h] at h1; cases h1
  | entryPanic h => rw [h] at h1; cases h1
  | serialisePanic _ h => rw [h] at h1; cases h1
  | bundleWritten h => rw [h] at h1; cases h1
  | headWrite h => rw [h] at h1; cases h1
  | commitEnd h => rw [h] at h1; cases h1
  | _ => exact absurd h1 h2

theorem count_begins {c : StoreCfg} {s s' : St} (m : CommitMetrics) (hs : Step c s s') (h1 : s.commit = none) (h2 : s'.commit ≠ none) :
    countCommit m s s' = { m with commits := m.commits + 1, entries := m.entries + (s.gens s.cur).length } := by
  obtain ⟨⟨u, h3⟩, -⟩ := commit_begins hs h1 h2
  simp [countCommit, h1, h3]

theorem count_other {s s' : St} (m : CommitMetrics) (h : s.commit = none → s'.commit = none) :
    (countCommit m s s').commits = m.commits ∧ (countCommit m s s').entries = m.entries := by
  unfold countCommit
  split
  · rename_i h2 h3
    rw [h h2] at h3; cases h3
  · exact ⟨rfl, rfl⟩
  · split <;> exact ⟨rfl, rfl⟩
  · exact ⟨rfl, rfl⟩

/-- **C89**: the number of commits. -/
theorem C89_commits {c : StoreCfg} {s : St} {m : CommitMetrics} {bs : List (List Task)} {p : Nat} (h : CReach c s m bs p) : m.commits = bs.length := by
  induction h with
  | created | reopened => rfl
  | commit _ hs h1 h2 ih => rw [count_begins _ hs h1 h2]; simp [ih]
  | other _ hs h1 ih => rw [(count_other _ h1).1, ih]

/-- what the next commit will take -/
theorem next_batch {c : StoreCfg} (hc : c.Ok) {s : St} {m : CommitMetrics} {bs : List (List Task)} {p : Nat} (h : CReach c s m bs p)
    (hf : s.faults = []) (hk : NoEmptyKey s) : p = (s.base ++ s.cl).length ∧ m.entries = (bs.map keysIn).sum := by
  induction h with
  | created h =>
    unfold fresh at h
    split at h
    · cases h
    · cases h; exact ⟨rfl, rfl⟩
  | @reopened s s' es hr hrep hl =>
    refine ⟨?_, rfl⟩
    have hi := reach_inv hc (Reach.restart hr hl) hf hk
    have hsp := hi.ov.split
    have e : s'.log.data = s.log.data ∧ s'.log.head = s.log.head ∧ s'.log.tail = s.log.tail ∧ s'.inserting = [] ∧ s'.commit = none ∧ s'.cl = [] := by
      unfold load at hl
      split at hl
      · split at hl
        · cases hl
        · cases hl; exact ⟨rfl, rfl, rfl, rfl, rfl, rfl⟩
      · cases hl
    obtain ⟨recs, hlog, e1, _⟩ := hi.log.ex
    have hrep' := hlog.replay hc.logOk
    obtain ⟨d1, d2, d3, d4, d5, d6⟩ := e
    rw [d1, d2, d3, hrep, e1, d5] at hrep'
    have hes : es.length = s'.ul.length := by
      injection hrep' with hrep'
      rw [hrep', List.length_map]
      simp [openAt, d4]
    rw [hsp, hes]
    simp only [List.length_append]
    omega
  | @commit s s' m bs p h hs h1 h2 ih =>
    obtain ⟨⟨x, hx⟩, y, hy⟩ := step_mono hs
    have hf1 := hx ▸ hf
    rw [List.append_eq_nil_iff] at hf1
    have hk1 : NoEmptyKey s := fun t ht => hk t (by rw [hy]; simp [ht])
    obtain ⟨i1, i2⟩ := ih hf1.2 hk1
    have hi := reach_inv hc (creach_reach h) hf1.2 hk1
    obtain ⟨-, e1, e2, e3, e4⟩ := commit_begins hs h1 h2
    have hcl : s.cl = [] := hi.ov.idle (by
      have := hi.ov.busyIff
      rw [h1] at this
      cases hh : s.com with
      | none => rfl
      | some g => rw [hh] at this; cases this)
    have hb : s.applied.drop p = s.ul := by
      rw [hi.ov.split, i1, List.drop_left]
    rw [count_begins m hs h1 h2]
    refine ⟨?_, ?_⟩
    · rw [e2, e3, hi.ov.split, hcl]; simp
    · simp only [List.map_append, List.map_cons, List.map_nil, List.sum_append, List.sum_cons, List.sum_nil]
      rw [hb, i2, hi.ov.genCur, keys_of_overlay]; rfl
  | @other s s' m bs p h hs h1 ih =>
    obtain ⟨⟨x, hx⟩, y, hy⟩ := step_mono hs
    have hf1 := hx ▸ hf
    rw [List.append_eq_nil_iff] at hf1
    obtain ⟨i1, i2⟩ := ih hf1.2 (fun t ht => hk t (by rw [hy]; simp [ht]))
    refine ⟨?_, by rw [(count_other _ h1).2, i2]⟩
    rw [i1]
    cases hs with
    | commitStart _ h _ => exact absurd (h1 h) (by simp)
    | commitEnd => simp
    | _ => rfl

/-- **C89** (partial): the entries are one for every key of the requests each commit took, which are all those acknowledged since the one before (for the
first, since the store was created or from what was replayed). Missing: executions with one of the recorded faults, and the empty key. -/
theorem C89_entries_partial {c : StoreCfg} (hc : c.Ok) {s : St} {m : CommitMetrics} {bs : List (List Task)} {p : Nat} (h : CReach c s m bs p)
    (hf : s.faults = []) (hk : NoEmptyKey s) : m.entries = (bs.map keysIn).sum := (next_batch hc h hf hk).2

/-- ... and without these exclusions for a client within limits it knows of. -/
theorem C89_entries_disciplined {c : StoreCfg} (hc : c.Ok) {s : St} {m : CommitMetrics} {bs : List (List Task)} {p : Nat} (h : CReach c s m bs p)
    (hd : Disciplined c s) : m.entries = (bs.map keysIn).sum :=
  C89_entries_partial hc h (disciplined_good hc hd).faults (disciplined_within hc hd).keys

theorem bundles_since {c : StoreCfg} {s : St} {m : CommitMetrics} {bs : List (List Task)} {p : Nat} (h : CReach c s m bs p) :
    ∃ before, before ≤ lost s ∧ m.bundles + before = m.committed + underWay s + lost s := by
  induction h with
  | created h =>
    unfold fresh at h
    split at h
    · cases h
    · cases h; exact ⟨0, Nat.zero_le _, rfl⟩
  | @reopened s s' es hr hrep hl =>
    refine ⟨lost s', Nat.le_refl _, ?_⟩
    have e : s'.commit = none := by
      unfold load at hl
      split at hl
      · split at hl
        · cases hl
        · cases hl; rfl
      · cases hl
    simp [underWay, e, CommitMetrics.zero]
  | @commit s s' m bs p h hs h1 h2 ih =>
    obtain ⟨b, i1, i2⟩ := ih
    have := step_bundles m hs
    have hm : lost s ≤ lost s' := by
      obtain ⟨⟨x, hx⟩, _⟩ := step_mono hs
      unfold lost; rw [hx, List.count_append]; omega
    exact ⟨b, by omega, by omega⟩
  | @other s s' m bs p h hs h1 ih =>
    obtain ⟨b, i1, i2⟩ := ih
    have := step_bundles m hs
    have hm : lost s ≤ lost s' := by
      obtain ⟨⟨x, hx⟩, _⟩ := step_mono hs
      unfold lost; rw [hx, List.count_append]; omega
    exact ⟨b, by omega, by omega⟩

/-- **C89**: in every execution, bundles counted as to be updated are those counted as written, those still under way and those lost to a panic. -/
theorem C89_bundles {c : StoreCfg} {s : St} {m : CommitMetrics} {bs : List (List Task)} {p : Nat} (h : CReach c s m bs p) (h0 : lost s = 0) :
    m.bundles = m.committed + underWay s := by
  obtain ⟨b, h1, h2⟩ := bundles_since h
  omega

/-- the counters of moves are those of these batches -/
def Moves (c : StoreCfg) (m : CommitMetrics) (bs : List (List Task)) : Prop :=
  m.moves = (bs.map fun b => (movedIn c b).length).sum ∧ m.moveBytes = (bs.map fun b => (movedIn c b).sum).sum

def Waiting (s : St) : Prop := ∃ u, s.commit = some ⟨u, .started⟩
def Dead (s : St) : Prop := ∃ u, s.commit = some ⟨u, .dead⟩

def MovesInv (c : StoreCfg) (s : St) (m : CommitMetrics) (bs : List (List Task)) : Prop :=
  (¬ Waiting s → ¬ Dead s → Moves c m bs) ∧ (Waiting s → ∃ b0, bs = b0 ++ [s.cl] ∧ Moves c m b0)

theorem moveAll_sizes {junk : Nat → Byte} {es es' : List (Key × Option Data)} {a a' : KvAlloc} {ws : List (Nat × List Byte)}
    (h : moveAll junk a es = (a', some (es', ws))) : ws.length = (es.filterMap movedSize).length := by
  induction es generalizing a es' ws with
  | nil => cases h; rfl
  | cons e es ih =>
    unfold moveAll at h
    cases h1 : moveEntry junk a e with
    | mk a1 r =>
      rw [h1] at h
      cases r with
      | none => cases h
      | some r =>
        obtain ⟨e1, w1⟩ := r
        simp only at h
        cases h2 : moveAll junk a1 es with
        | mk a2 r2 =>
          rw [h2] at h
          cases r2 with
          | none => cases h
          | some r2 =>
            obtain ⟨e2, w2⟩ := r2
            cases h
            have := ih h2
            have hw : w1.length = ([e].filterMap movedSize).length := by
              obtain ⟨k, o⟩ := e
              cases o with
              | none => cases h1; rfl
              | some d =>
                cases d with
                | heap => cases h1; rfl
                | inline d =>
                  unfold moveEntry at h1
                  by_cases hd : d.length > 7
                  · simp only [if_pos hd] at h1
                    split at h1
                    · cases h1; simp [movedSize, hd]
                    · cases h1
                  · simp only [if_neg hd] at h1
                    cases h1; simp [movedSize, hd]
            rw [List.length_append, hw, this, ← List.length_append, ← List.filterMap_append]
            rfl

theorem moved_of_overlay {c : StoreCfg} {l : List Task} (hs : ∀ t ∈ l, Shape c t) (hz : ∀ t ∈ l, Sized t) :
    ((Overlay.ofEntries (l.map Task.erase)).filterMap movedSize).Perm (movedIn c l) := by
  rw [ofEntries_erase]
  have hp : ((surv l).map (·.key)).Perm ((l.map (·.key)).dedup) := by
    refine (List.perm_ext_iff_of_nodup (surv_keys_nodup l) (List.nodup_dedup _)).2 fun k => ?_
    rw [List.mem_dedup]
    constructor
    · intro h
      obtain ⟨t, ht, rfl⟩ := List.mem_map.1 h
      exact List.mem_map.2 ⟨t, surv_mem ht, rfl⟩
    · intro h
      obtain ⟨t, ht, rfl⟩ := List.mem_map.1 h
      cases hl : lastFor l t.key with
      | none =>
        unfold lastFor at hl
        rw [List.find?_eq_none] at hl
        have := hl t (by simpa using ht)
        simp at this
      | some u => exact List.mem_map.2 ⟨u, lastFor_mem_surv hl, (lastFor_key hl).1⟩
  unfold movedIn
  refine List.Perm.trans (List.Perm.of_eq ?_) (hp.filterMap _)
  rw [List.filterMap_map, List.filterMap_map]
  refine List.filterMap_congr fun t ht => ?_
  have h1 := mem_surv.1 ht
  have h2 : lastWrite l t.key = t.val := by
    unfold lastWrite
    unfold lastFor at h1
    rw [h1]; rfl
  simp only [Function.comp, h2]
  rcases hs t (surv_mem ht) with h3 | ⟨d, h3, h4, h5⟩ | ⟨d, off, h3, h4, h5⟩
  · have := hz t (surv_mem ht)
    unfold Sized at this
    rw [h3] at this
    cases hv : t.val with
    | some v => rw [hv] at this; cases this
    | none => simp [movedSize, Task.erase, h3]
  · simp only [movedSize, Task.erase, h3, h4, Option.bind_some]
    by_cases h6 : d.length > 7
    · rw [if_pos h6, if_pos ⟨h6, h5⟩]
    · rw [if_neg h6, if_neg (fun h => h6 h.1)]
  · simp only [movedSize, Task.erase, h3, h4, Option.bind_some]
    rw [if_neg (by omega)]

theorem moves_step {c : StoreCfg} {s s' : St} {m : CommitMetrics} {bs : List (List Task)} (hi : Inv c s) (hsh : ∀ t ∈ s.cl, Shape c t)
    (hsz : ∀ t ∈ s.cl, Sized t) (hs : Step c s s') (h1 : s.commit = none → s'.commit = none) (h : MovesInv c s m bs) :
    MovesInv c s' (countCommit m s s') bs := by
  have same : s'.commit = s.commit → s'.cl = s.cl → MovesInv c s' (countCommit m s s') bs := by
    intro e1 e2
    rw [count_same m e1]
    unfold MovesInv Waiting Dead at *
    rw [e1, e2]
    exact h
  -- between phases in which nothing is still to be moved
  have mid : ∀ {u1 u2 : Nat} {p1 p2 : Phase}, s.commit = some ⟨u1, p1⟩ → s'.commit = some ⟨u2, p2⟩ → p1 ≠ .started → p1 ≠ .dead → p2 ≠ .started →
      (countCommit m s s').moves = m.moves → (countCommit m s s').moveBytes = m.moveBytes → MovesInv c s' (countCommit m s s') bs := by
    intro u1 u2 p1 p2 e1 e2 n1 n2 n3 e3 e4
    refine ⟨fun _ _ => ?_, fun ⟨u, hw⟩ => ?_⟩
    · have := h.1 (fun ⟨u, hw⟩ => n1 (by rw [e1] at hw; injection hw with hw; injection hw))
        (fun ⟨u, hw⟩ => n2 (by rw [e1] at hw; injection hw with hw; injection hw))
      unfold Moves
      rw [e3, e4]
      exact this
    · rw [e2] at hw
      injection hw with hw
      injection hw with _ hw
      exact absurd hw n3
  cases hs with
  | commitStart _ h2 _ => exact absurd (h1 h2) (by simp)
  | @group g upTo es a' es' ws junk hg h2 hperm hm =>
    obtain ⟨b0, hb, hM⟩ := h.2 ⟨_, h2⟩
    refine ⟨fun _ _ => ?_, fun ⟨u, hw⟩ => ?_⟩
    · have e1 := moveAll_sizes hm
      have e2 := (hperm.filterMap movedSize)
      have e3 := (hi.ov.genCom g hg).2
      have e4 := moved_of_overlay hsh hsz
      rw [← e3] at e4
      simp only [countCommit, h2, hg, Option.map_some, Option.getD_some]
      rw [hb]
      unfold Moves
      simp only [List.map_append, List.map_cons, List.map_nil, List.sum_append, List.sum_cons, List.sum_nil]
      rw [hM.1, hM.2, e1, e2.length_eq, e4.length_eq, e4.sum_eq]
      exact ⟨rfl, rfl⟩
    · injection hw with hw
      injection hw with _ hw
      cases hw
  | groupPanic _ _ h2 _ _ =>
    refine ⟨fun _ hd => absurd ⟨_, rfl⟩ hd, fun ⟨u, hw⟩ => ?_⟩
    injection hw with hw
    injection hw with _ hw
    cases hw
  | moved h2 => exact mid h2 rfl (by simp) (by simp) (by simp) (by simp [countCommit, h2]) (by simp [countCommit, h2])
  | movedAll h2 => exact mid h2 rfl (by simp) (by simp) (by simp) (by simp [countCommit, h2]) (by simp [countCommit, h2])
  | bundleRead h2 _ =>
    exact mid h2 rfl (by simp) (by simp) (by simp) (by simp only [countCommit, h2]; split <;> rfl) (by simp only [countCommit, h2]; split <;> rfl)
  | bundleEntry h2 _ =>
    exact mid h2 rfl (by simp) (by simp) (by simp) (by simp only [countCommit, h2]; split <;> rfl) (by simp only [countCommit, h2]; split <;> rfl)
  | bundleSerialise _ h2 _ _ =>
    exact mid h2 rfl (by simp) (by simp) (by simp) (by simp only [countCommit, h2]; split <;> rfl) (by simp only [countCommit, h2]; split <;> rfl)
  | readPanic h2 _ =>
    exact mid h2 rfl (by simp) (by simp) (by simp) (by simp only [countCommit, h2]; split <;> rfl) (by simp only [countCommit, h2]; split <;> rfl)
  | entryPanic h2 _ =>
    exact mid h2 rfl (by simp) (by simp) (by simp) (by simp only [countCommit, h2]; split <;> rfl) (by simp only [countCommit, h2]; split <;> rfl)
  | serialisePanic _ h2 _ _ =>
    exact mid h2 rfl (by simp) (by simp) (by simp) (by simp only [countCommit, h2]; split <;> rfl) (by simp only [countCommit, h2]; split <;> rfl)
  | bundleWritten h2 =>
    exact mid h2 rfl (by simp) (by simp) (by simp) (by simp only [countCommit, h2]; split <;> rfl) (by simp only [countCommit, h2]; split <;> rfl)
  | headWrite h2 => exact mid h2 rfl (by simp) (by simp) (by simp) (by simp [countCommit, h2]) (by simp [countCommit, h2])
  | commitEnd h2 =>
    refine ⟨fun _ _ => ?_, fun ⟨u, hw⟩ => by cases hw⟩
    have := h.1 (fun ⟨u, hw⟩ => by rw [h2] at hw; cases hw) (fun ⟨u, hw⟩ => by rw [h2] at hw; cases hw)
    simpa [countCommit, h2] using this
  | _ => exact same rfl rfl

theorem moves_inv {c : StoreCfg} (hc : c.Ok) {s : St} {m : CommitMetrics} {bs : List (List Task)} {p : Nat} (h : CReach c s m bs p)
    (hf : s.faults = []) (hk : NoEmptyKey s) : MovesInv c s m bs := by
  induction h with
  | created h =>
    unfold fresh at h
    split at h
    · cases h
    · cases h; exact ⟨fun _ _ => ⟨rfl, rfl⟩, fun ⟨u, hw⟩ => by cases hw⟩
  | reopened _ _ hl =>
    unfold load at hl
    split at hl
    · split at hl
      · cases hl
      · cases hl; exact ⟨fun _ _ => ⟨rfl, rfl⟩, fun ⟨u, hw⟩ => by cases hw⟩
    · cases hl
  | @commit s s' m bs p h hs h1 h2 ih =>
    obtain ⟨⟨x, hx⟩, y, hy⟩ := step_mono hs
    have hf1 := hx ▸ hf
    rw [List.append_eq_nil_iff] at hf1
    have hk1 : NoEmptyKey s := fun t ht => hk t (by rw [hy]; simp [ht])
    have hM := (ih hf1.2 hk1).1 (fun ⟨u, hw⟩ => by rw [h1] at hw; cases hw) (fun ⟨u, hw⟩ => by rw [h1] at hw; cases hw)
    obtain ⟨⟨u, e0⟩, e1, e2, e3, e4⟩ := commit_begins hs h1 h2
    have hi := reach_inv hc (creach_reach h) hf1.2 hk1
    have hb : s.applied.drop p = s.ul := by
      rw [hi.ov.split, (next_batch hc h hf1.2 hk1).1, List.drop_left]
    refine ⟨fun hw => absurd ⟨u, e0⟩ hw, fun _ => ⟨bs, by rw [hb, e3], ?_⟩⟩
    rw [count_begins m hs h1 h2]
    exact hM
  | @other s s' m bs p h hs h1 ih =>
    obtain ⟨⟨x, hx⟩, y, hy⟩ := step_mono hs
    have hf1 := hx ▸ hf
    rw [List.append_eq_nil_iff] at hf1
    have hk1 : NoEmptyKey s := fun t ht => hk t (by rw [hy]; simp [ht])
    have hr := creach_reach h
    have hi := reach_inv hc hr hf1.2 hk1
    have hcl : ∀ t ∈ s.cl, t ∈ s.applied := by
      intro t ht
      rw [hi.ov.split]
      simp [ht]
    exact moves_step hi (fun t ht => reach_shape hr t (C34_applied_issued hr t (by simp [everywhere, hcl t ht])))
      (fun t ht => (sized_reach hr).applied t (hcl t ht)) hs h1 (ih hf1.2 hk1)

/-- **C89** (partial): when no commit runs, the values counted as moved to the heap, and their bytes, are those the requests each commit took leave behind
which the log keeps in itself and a bundle does not. Missing: executions with one of the recorded faults, and the empty key. -/
theorem C89_moves_partial {c : StoreCfg} (hc : c.Ok) {s : St} {m : CommitMetrics} {bs : List (List Task)} {p : Nat} (h : CReach c s m bs p)
    (hf : s.faults = []) (hk : NoEmptyKey s) (h0 : s.commit = none) :
    m.moves = (bs.map fun b => (movedIn c b).length).sum ∧ m.moveBytes = (bs.map fun b => (movedIn c b).sum).sum :=
  (moves_inv hc h hf hk).1 (fun ⟨u, hw⟩ => by rw [h0] at hw; cases hw) (fun ⟨u, hw⟩ => by rw [h0] at hw; cases hw)

/-- of a value of 9 bytes overwritten with one of 10, one of 3, one deleted and one too large for the log, the one of 10 is moved -/
example : movedIn { wcfg with inlineThreshold := 100 }
    [⟨.literal [1], some (.inline (List.replicate 9 0)), some (List.replicate 9 0)⟩, ⟨.literal [2], some (.inline [1, 2, 3]), some [1, 2, 3]⟩,
      ⟨.literal [3], some (.inline (List.replicate 9 0)), some (List.replicate 9 0)⟩, ⟨.literal [1], some (.inline (List.replicate 10 0)), some (List.replicate 10 0)⟩,
      ⟨.literal [3], none, none⟩, ⟨.literal [4], some (.heap 101 0), some (List.replicate 101 0)⟩] = [10] := by decide +kernel

/-- The counters say something of every execution: each step of the store is one of the cases. -/
theorem C89_all_steps {c : StoreCfg} {s s' : St} {m : CommitMetrics} {bs : List (List Task)} {p : Nat} (h : CReach c s m bs p) (hs : Step c s s') :
    ∃ bs' p', CReach c s' (countCommit m s s') bs' p' := by
  by_cases h1 : s.commit = none → s'.commit = none
  · exact ⟨_, _, .other h hs h1⟩
  · have h2 : s.commit = none ∧ s'.commit ≠ none := by
      by_cases h3 : s.commit = none
      · exact ⟨h3, fun h4 => h1 fun _ => h4⟩
      · exact absurd (fun h => absurd h h3) h1
    exact ⟨_, _, .commit h hs h2.1 h2.2⟩

/-- **C89**: a lost update of a bundle (its panic is swallowed, finding on C34) shows in these counters for good: more bundles are counted as to be updated
than written and under way. -/
theorem C89_loss_shows {c : StoreCfg} {s s' s'' : St} {m : CommitMetrics} {bs : List (List Task)} {p : Nat} (h : CReach c s m bs p) (hs : Step c s s')
    (hl : lost s < lost s') (ht : Steps c s' s'') :
    ∃ m'' bs'' p'', CReach c s'' m'' bs'' p'' ∧ m''.committed + underWay s'' < m''.bundles := by
  have : ∃ m'' bs'' p'', CReach c s'' m'' bs'' p'' ∧ ∃ b, b < lost s'' ∧ m''.bundles + b = m''.committed + underWay s'' + lost s'' := by
    induction ht with
    | refl =>
      obtain ⟨b, i1, i2⟩ := bundles_since h
      obtain ⟨bs', p', h'⟩ := C89_all_steps h hs
      have := step_bundles m hs
      exact ⟨_, _, _, h', b, by omega, by omega⟩
    | snoc _ hs2 ih =>
      obtain ⟨m2, bs2, p2, h2, b, i1, i2⟩ := ih
      obtain ⟨bs', p', h'⟩ := C89_all_steps h2 hs2
      have := step_bundles m2 hs2
      have hm := (step_mono hs2).1
      obtain ⟨x, hx⟩ := hm
      refine ⟨_, _, _, h', b, ?_, by omega⟩
      refine Nat.lt_of_lt_of_le i1 ?_
      unfold lost
      rw [hx, List.count_append]
      omega
  obtain ⟨m2, bs2, p2, h2, b, i1, i2⟩ := this
  exact ⟨m2, bs2, p2, h2, by omega⟩

theorem creach_run {c : StoreCfg} {a b : St} {m : CommitMetrics} {bs : List (List Task)} {p : Nat} (h : CReach c a m bs p) (h0 : bs = [] → p = 0)
    (hs : Steps c a b) : ∃ m' bs' p', CReach c b m' bs' p' ∧ (bs' = [] → p' = 0) := by
  induction hs with
  | refl => exact ⟨m, bs, p, h, h0⟩
  | @snoc s s' _ hs ih =>
    obtain ⟨m2, bs2, p2, h2, h3⟩ := ih
    by_cases h1 : s.commit = none → s'.commit = none
    · exact ⟨_, _, _, .other h2 hs h1, h3⟩
    · rw [Classical.not_imp] at h1
      exact ⟨_, _, _, .commit h2 hs h1.1 h1.2, by simp⟩

/-- Hypotheses met: twelve writes are acknowledged and then moved to their bundle by a commit. -/
example : ∃ s m bs p, CReach wcfg s m bs p ∧ Disciplined wcfg s ∧ s.commit = none ∧ lost s = 0 ∧ p = 12 ∧ 0 < m.commits := by
  obtain ⟨buf, hbuf⟩ := Option.isSome_iff_exists.1 few_enc
  obtain ⟨page, hpage⟩ := Option.isSome_iff_exists.1 few_fits
  have h1 := put_all (c := wcfg) fewWrites (qfresh wcfg (fun _ => 0) (fun _ => 0) a0) [] (by
    have : ∀ w ∈ fewWrites, w.2.length = 7 := by decide +kernel
    intro w hw
    rw [this w hw]
    decide)
  have h2 := run_batch (c := wcfg) { qfresh wcfg (fun _ => 0) (fun _ => 0) a0 with issued := fewTasks } fewTasks (by decide +kernel)
    hbuf (show modPow2 0 9 = 0 by decide) (by rw [few_len]; exact (by decide : 0 + 512 < 2 ^ 20))
    (by rw [few_len]; decide)
  rw [few_len] at h2
  obtain ⟨q, hq⟩ : ∃ q : QSt, q = { qfresh wcfg (fun _ => 0) (fun _ => 0) a0 with
      issued := fewTasks
      data := Mem.writeAll (fun _ => 0) [(0 % 2 ^ 20, padFlush wcfg.log (fun _ => 0) buf)]
      tail := 0 + 512
      gens := fun g => if g = 0 then insertAll [] fewTasks else []
      applied := [] ++ fewTasks
      ul := [] ++ fewTasks } := ⟨_, rfl⟩
  have h3 : Steps wcfg (qfresh wcfg (fun _ => 0) (fun _ => 0) a0).st q.st := by
    rw [hq]; exact h1.trans h2
  have hg : q.gens q.cur = insertAll [] fewTasks := by rw [hq]; rfl
  have h4 := run_commit (c := wcfg) rfl q (by rw [hq]; exact (by decide : 0 + 512 - 0 ≥ 512))
    (by rw [hg]; decide +kernel)
    (by
      rw [hg]
      intro e he d hd
      rw [few_inline e he] at hd
      cases hd
      decide)
    (ts := []) (by rw [hq]; exact deser_zero _)
    (a' := q.alloc) (m' := (insertAll [] fewTasks).foldl putEntry [])
    (by
      rw [hg]
      apply applyAll_inline
      · simp [collectMap]
      · exact fun e he => ⟨_, few_inline e he⟩)
    hpage
  obtain ⟨m, bs, p, hm, hp⟩ := creach_run (CReach.created (fresh_q new_a0)) (fun _ => rfl) (h3.trans h4)
  have hd : Disciplined wcfg _ := disciplined_of_few (creach_reach hm) (few_calls (by show q.issued = _; rw [hq]))
  have hf := (disciplined_good wcfg_ok hd).faults
  obtain ⟨n1, -⟩ := next_batch wcfg_ok hm hf (disciplined_within wcfg_ok hd).keys
  have hp12 : p = 12 := by
    rw [n1]
    show ((q.base ++ q.ul) ++ []).length = 12
    rw [hq]; rfl
  refine ⟨_, m, bs, p, hm, hd, rfl, by unfold lost; rw [hf]; rfl, hp12, ?_⟩
  rw [C89_commits hm]
  cases bs with
  | nil => have := hp rfl; omega
  | cons => simp

/-- Hypotheses of the loss met: the bundle of more writes does not fit its page. -/
example : ∃ s s' m bs p, CReach wcfg s m bs p ∧ Step wcfg s s' ∧ lost s = 0 ∧ lost s' = 1 := by
  obtain ⟨buf, hbuf⟩ := Option.isSome_iff_exists.1 many_enc
  have h1 := put_all (c := wcfg) manyWrites (qfresh wcfg (fun _ => 0) (fun _ => 0) a0) [] (by
    have : ∀ w ∈ manyWrites, w.2.length = 7 := by decide +kernel
    intro w hw
    rw [this w hw]
    decide)
  have h2 := run_batch (c := wcfg) { qfresh wcfg (fun _ => 0) (fun _ => 0) a0 with issued := manyTasks } manyTasks (by decide +kernel)
    hbuf (show modPow2 0 9 = 0 by decide) (by rw [many_len]; exact (by decide : 0 + 1024 < 2 ^ 20))
    (by rw [many_len]; decide)
  rw [many_len] at h2
  obtain ⟨q, hq⟩ : ∃ q : QSt, q = { qfresh wcfg (fun _ => 0) (fun _ => 0) a0 with
      issued := manyTasks
      data := Mem.writeAll (fun _ => 0) [(0 % 2 ^ 20, padFlush wcfg.log (fun _ => 0) buf)]
      tail := 0 + 1024
      gens := fun g => if g = 0 then insertAll [] manyTasks else []
      applied := [] ++ manyTasks
      ul := [] ++ manyTasks } := ⟨_, rfl⟩
  have h3 : Steps wcfg (qfresh wcfg (fun _ => 0) (fun _ => 0) a0).st q.st := by
    rw [hq]; exact h1.trans h2
  have hg : q.gens q.cur = insertAll [] manyTasks := by rw [hq]; rfl
  have h4 := run_commit_memory (c := wcfg) rfl q (by rw [hq]; exact (by decide : 0 + 1024 - 0 ≥ 512))
    (by rw [hg]; decide +kernel)
    (by
      rw [hg]
      intro e he d hd
      rw [many_inline e he] at hd
      cases hd
      decide)
    (ts := []) (by rw [hq]; exact deser_zero _)
    (a' := q.alloc) (m' := (insertAll [] manyTasks).foldl putEntry [])
    (by
      rw [hg]
      apply applyAll_inline
      · simp [collectMap]
      · exact fun e he => ⟨_, many_inline e he⟩)
  obtain ⟨m, bs, p, hm, -⟩ := creach_run (CReach.created (fresh_q new_a0)) (fun _ => rfl) (h3.trans h4)
  have hf : q.faults = [] := by rw [hq]; rfl
  refine ⟨_, _, m, bs, p, hm, .serialisePanic (pre := []) (post := []) (fun _ => 0) rfl (List.Perm.refl _) many_overflow, ?_, ?_⟩
  · show List.count _ q.faults = 0
    rw [hf]; rfl
  · show List.count _ (.bundleTaskPanicked :: q.faults) = 1
    rw [hf]; rfl

end Props
end Blobd
