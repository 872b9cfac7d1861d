import Verif.Proofs.KvProgress
import Verif.Proofs.KvDiscipline
/-! # KV store: room in the log -/
set_option autoImplicit false
namespace Blobd
namespace Kv
open Spec Props

variable {c : StoreCfg} {s s' : St}

theorem serialise_key {k : Key} (h : KeyOk k) : ∃ b, k.serialise = some b := by
  cases k with
  | hash x => exact ⟨_, rfl⟩
  | literal l =>
    simp only [KeyOk] at h
    simp only [Key.serialise]
    split
    · exact ⟨_, rfl⟩
    · omega

theorem serialise_data {d : Data} (h : DataOk d) : ∃ b, d.serialise = some b := by
  cases d with
  | inline l =>
    simp only [DataOk] at h
    by_cases h1 : l.length < 127
    · exact ⟨_, by simp only [Data.serialise]; rw [if_pos h1]⟩
    · exact ⟨_, by simp only [Data.serialise]; rw [if_neg h1, if_pos h]⟩
  | heap n o =>
    simp only [DataOk] at h
    simp only [Data.serialise]
    split
    · split
      · exact ⟨_, rfl⟩
      · omega
    · omega

theorem encode_some {ts : List Task} (h : ∀ t ∈ ts, TaskGood t) : ∃ b, encodeTasks ts = some b := by
  induction ts with
  | nil => exact ⟨[], rfl⟩
  | cons t ts ih =>
    obtain ⟨b, hb⟩ := ih (fun t ht => h t (by simp [ht]))
    have hg := h t (by simp)
    obtain ⟨k, hk⟩ := serialise_key hg.key
    have : ∃ a, encodeTask t = some a := by
      unfold encodeTask
      cases hop : t.op with
      | none => simp [hk]
      | some d =>
        obtain ⟨x, hx⟩ := serialise_data (hg.data d hop)
        simp [hk, hx]
    obtain ⟨a, ha⟩ := this
    exact ⟨a ++ b, by simp [encodeTasks, ha, hb]⟩

theorem padded_le {c : LogCfg} (j : Nat → Byte) (b : List Byte) : (padFlush c j b).length ≤ b.length + 2 ^ c.spage := by
  rw [padFlush_length]
  have := ceilPow2_lt b.length c.spage
  omega

theorem plan_use {c : LogCfg} {s s' : LogSt} {j1 j2 : Nat → Byte} {ts : List Task} {f : Flush}
    (h : planFlush c s j1 j2 ts = some (s', f)) :
    ∃ b, encodeTasks ts = some b ∧ s'.vtail ≤ s.vtail + 2 * (padFlush c j1 b).length ∧ s'.head = s.head := by
  unfold planFlush at h
  split at h
  · cases h
  · rename_i b hb
    refine ⟨b, hb, ?_⟩
    dsimp only at h
    split at h
    · split at h
      · split at h
        · split at h
          · cases h
          · cases h; simp only; exact ⟨by omega, trivial⟩
        · cases h
      · split at h
        · cases h
        · cases h; simp only; exact ⟨by omega, trivial⟩
    · cases h

theorem plan_ok {c : LogCfg} (hpos : 0 < c.dataLen) {s : LogSt} {j1 j2 : Nat → Byte} {ts : List Task} {b : List Byte}
    (hb : encodeTasks ts = some b) (hal : 2 ^ c.spage ∣ s.vtail)
    (hroom : s.vtail + 2 * (padFlush c j1 b).length - s.head < c.dataLen) : ∃ s' f, planFlush c s j1 j2 ts = some (s', f) := by
  unfold planFlush
  rw [hb]
  dsimp only
  rw [if_pos (by rw [modPow2_eq]; exact Nat.mod_eq_zero_of_dvd hal)]
  have hm := Nat.mod_lt s.vtail hpos
  split
  · rename_i hw
    have hz : (s.vtail + (c.dataLen - s.vtail % c.dataLen)) % c.dataLen = 0 := by
      have h1 := Nat.div_add_mod s.vtail c.dataLen
      have h2 : s.vtail + (c.dataLen - s.vtail % c.dataLen) = c.dataLen * (s.vtail / c.dataLen + 1) := by
        rw [Nat.mul_add]; omega
      rw [h2]; exact Nat.mul_mod_right _ _
    rw [if_pos hz, if_neg (by omega)]
    exact ⟨_, _, rfl⟩
  · rw [if_neg (by omega)]
    exact ⟨_, _, rfl⟩

/-- log space in use, and room for the calls not flushed yet -/
def roomUse (c : StoreCfg) (s : St) : Nat := logUse s + ((unlogged s).map (callRoom c)).sum

theorem recsEnd_ge (c : LogCfg) (rs : List Rec) : ∀ v, v ≤ recsEnd c v rs := by
  induction rs with
  | nil => intro v; exact Nat.le_refl _
  | cons r rs ih =>
    intro v
    cases r with
    | flush ts => exact Nat.le_trans (by omega) (ih _)
    | wrap => exact Nat.le_trans (by omega) (ih _)

theorem PStep.issued {p p' : Pip} (hp : PStep p p') (ih : ∀ t ∈ p.applied ++ p.outs, t ∈ p.issued) :
    ∀ t ∈ p'.applied ++ p'.outs, t ∈ p'.issued := by
  by_cases hi : p'.issued = p.issued
  · intro t ht
    rw [hi]
    exact ih t ((hp.perm hi).mem_iff.1 ht)
  · have key : ∀ x, (∀ t ∈ p'.applied ++ p'.outs, t ∈ p.applied ++ p.outs ∨ t = x) → p'.issued = p.issued ++ [x] →
        ∀ t ∈ p'.applied ++ p'.outs, t ∈ p'.issued := by
      intro x h1 h2 t ht
      rw [h2]
      rcases h1 t ht with h3 | h3
      · exact List.mem_append_left _ (ih t h3)
      · subst h3; simp
    cases hp with
    | write x =>
      refine key x ?_ rfl
      intro t ht
      simp only [Pip.outs, List.mem_append, List.mem_singleton] at ht ⊢
      tauto
    | writeHeap x =>
      refine key x ?_ rfl
      intro t ht
      simp only [Pip.outs, List.mem_append, List.mem_singleton] at ht ⊢
      tauto
    | delete x =>
      refine key x ?_ rfl
      intro t ht
      simp only [Pip.outs, List.mem_append, List.mem_singleton] at ht ⊢
      tauto
    | _ => exact absurd rfl hi

/-- the calls answered and under way are among those made -/
theorem all_issued (h : Reach c s) : ∀ t ∈ s.applied ++ outstanding s, t ∈ s.issued := by
  induction h with
  | fresh h =>
    unfold fresh at h
    split at h
    · cases h
    · cases h; intro t ht; simp [outstanding, LogSt.fresh] at ht
  | @step s s' _ hs ih =>
    rw [outs_eq] at ih ⊢
    exact (pip_step hs).issued ih
  | restart h hl ih =>
    unfold load at hl
    split at hl
    · split at hl
      · cases hl
      · cases hl
        intro t ht
        refine ih t ?_
        simp only [outstanding, List.map_nil, List.flatMap_nil, List.append_nil, List.mem_append, List.not_mem_nil, or_false] at ht ⊢
        tauto
    · cases hl

theorem outs_issued (h : Reach c s) : ∀ t ∈ outstanding s, t ∈ s.issued :=
  fun t ht => all_issued h t (List.mem_append_right _ ht)

theorem unlogged_outs {t : Task} (h : t ∈ unlogged s) : t ∈ outstanding s := by
  unfold outstanding
  rw [List.mem_append, List.mem_append]
  exact .inl (.inl h)

theorem pending_good (hi : Inv c s) : ∀ t ∈ s.pending, TaskGood t := by
  intro t ht
  refine hi.pipe.good t ?_
  simp only [pipe, List.mem_append]
  tauto

theorem flush_cost (hi : Inv c s) (hr : Reach c s) (hne : s.pending ≠ []) {b : List Byte} (hb : encodeTasks s.pending = some b)
    (j : Nat → Byte) : 2 * (padFlush c.log j b).length ≤ (s.pending.map (callRoom c)).sum := by
  have hs : ∀ t ∈ s.pending, Shape c t := fun t ht =>
    reach_shape hr t (outs_issued hr t (unlogged_outs (by unfold unlogged; simp [ht])))
  have h1 := encodes_len (c := c) (pending_good hi) hs hb
  have h2 := padded_le (c := c.log) j b
  have h3 : ∀ l : List Task, (l.map (callRoom c)).sum = 2 * (l.map (callBytes c)).sum + 2 * (l.length * 2 ^ c.log.spage) := by
    intro l
    induction l with
    | nil => simp
    | cons t l ih =>
      simp only [List.map_cons, List.sum_cons, ih, List.length_cons, callRoom, Nat.add_mul, Nat.one_mul]
      omega
  rw [h3]
  have h4 : 1 ≤ s.pending.length := List.length_pos_iff.2 hne
  have h5 := Nat.mul_le_mul_right (2 ^ c.log.spage) h4
  omega

theorem room_step (hi : Inv c s) (hr : Reach c s) (h : Step c s s') (hq : s'.issued = s.issued) : roomUse c s' ≤ roomUse c s := by
  cases h with
  | writeInline raw data h1 h2 => exact absurd hq issued_ne
  | writeHeap raw data junk h1 h2 h3 => exact absurd hq issued_ne
  | delete raw => exact absurd hq issued_ne
  | heapWritten hp => simp [roomUse, logUse, unlogged, hp]; omega
  | send hp => simp [roomUse, logUse, unlogged, hp]; omega
  | recv hp => simp [roomUse, logUse, unlogged, hp]; omega
  | @flush log' f j1 j2 hne hpl =>
    obtain ⟨b, hb, h1, h2⟩ := plan_use hpl
    have h3 := flush_cost hi hr hne hb j1
    simp only [roomUse, logUse, unlogged, h2]
    simp only [List.map_append, List.sum_append, List.map_nil, List.sum_nil]
    omega
  | @logWritten i f hf hd =>
    have : roomUse c { s with log := finishFlush s.log i } = roomUse c s := by
      simp only [roomUse, logUse, unlogged, finishFlush, hf]
    exact Nat.le_of_eq this
  | @complete log' ts n hins hcf =>
    unfold completeFlushes at hcf
    dsimp only at hcf
    split at hcf
    · cases hcf
    · split at hcf
      · cases hcf; exact Nat.le_refl _
      · cases hcf
  | @headWrite upTo hcm =>
    obtain ⟨recs, h1, h2, h3⟩ := hi.log.ex
    obtain ⟨r1, r2, h4, h5, h6⟩ := h3 upTo (by rw [hcm]; rfl)
    have := recsEnd_ge c.log r1 s.log.head
    rw [h5] at this
    simp only [roomUse, logUse, unlogged, advanceHead]
    omega
  | _ => exact Nat.le_refl _

theorem room_of_use (hc : c.Ok) (hi : Inv c s) (hr : Reach c s) (h : roomUse c s < c.log.dataLen) : LogRoom c s := by
  intro hne
  obtain ⟨b, hb⟩ := encode_some (pending_good hi)
  have h1 := flush_cost hi hr hne hb (fun _ => 0)
  obtain ⟨recs, h2, _⟩ := hi.log.ex
  refine ⟨fun _ => 0, fun _ => 0, plan_ok hc.logPos hb h2.vtailAl ?_⟩
  have h3 := h2.flight.le
  have h4 := h2.holds.le
  simp only [roomUse, logUse, unlogged, List.map_append, List.sum_append] at h
  omega

theorem run_room {σ : Nat → St} (hc : c.Ok) (h : Run c σ) (hf : ∀ m, (σ m).faults = []) (hk : ∀ m, NoEmptyKey (σ m)) {n : Nat}
    (hq : NoCalls σ n) (hu : roomUse c (σ n) < c.log.dataLen) : ∀ m, n ≤ m → LogRoom c (σ m) := by
  have hi : ∀ m, Inv c (σ m) := fun m => reach_inv hc (h.reach m) (hf m) (hk m)
  have key : ∀ m, n ≤ m → roomUse c (σ m) < c.log.dataLen := by
    intro m hm
    induction m, hm using Nat.le_induction with
    | base => exact hu
    | succ m hm ih =>
      rcases h.next m with e | hs
      · rw [e]; exact ih
      · exact Nat.lt_of_le_of_lt (room_step (hi m) (h.reach m) hs (hq m hm)) ih
  exact fun m hm => room_of_use hc (hi m) (h.reach m) (key m hm)

end Kv
end Blobd
