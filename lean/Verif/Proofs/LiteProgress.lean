import Verif.Proofs.LiteMoves
import Verif.Proofs.LiteChain
set_option autoImplicit false
/-! # Lite store: every call ends -/
namespace Blobd
namespace Lite
open Spec

variable {c : LCfg} {σ : Nat → LSt}

/-! ### Runs -/

theorem Run.reach (h : Run c σ) (n : Nat) : Reach c (σ n) := by
  induction n with
  | zero => exact h.start
  | succ n ih =>
    rcases h.next n with e | e
    · rw [e]; exact ih
    · exact ih.step e

theorem keeps {P : LSt → Prop} {n : Nat} (h0 : P (σ n)) (hs : ∀ m, n ≤ m → P (σ m) → P (σ (m + 1))) : ∀ m, n ≤ m → P (σ m) := by
  intro m hm
  induction m with
  | zero =>
    have : n = 0 := by omega
    subst this; exact h0
  | succ m ih =>
    rcases Nat.lt_or_ge m n with hl | hl
    · have : n = m + 1 := by omega
      subst this; exact h0
    · exact hs m hl (ih hl)

/-- a property no step destroys -/
theorem Run.keep (h : Run c σ) {P : LSt → Prop} (hs : ∀ s s', P s → Step c s s' → P s') {n : Nat} (h0 : P (σ n)) :
    ∀ m, n ≤ m → P (σ m) := by
  refine keeps h0 ?_
  intro m _ hp
  rcases h.next m with e | e
  · rw [e]; exact hp
  · exact hs _ _ hp e

/-- the first moment at which something stops being so -/
theorem Run.first (h : Run c σ) {P : LSt → Prop} {n : Nat} (h0 : P (σ n)) (hex : ∃ m, n ≤ m ∧ ¬ P (σ m)) :
    ∃ m, n ≤ m ∧ (∀ k, n ≤ k → k ≤ m → P (σ k)) ∧ ¬ P (σ (m + 1)) ∧ Step c (σ m) (σ (m + 1)) := by
  classical
  have hs := Nat.find_spec hex
  have hmin : ∀ j, j < Nat.find hex → ¬ (n ≤ j ∧ ¬ P (σ j)) := fun j hj => Nat.find_min hex hj
  generalize Nat.find hex = k' at hs hmin
  have hne : k' ≠ n := by rintro rfl; exact hs.2 h0
  obtain ⟨j, rfl⟩ : ∃ j, k' = j + 1 := ⟨k' - 1, by omega⟩
  have hall : ∀ i, n ≤ i → i ≤ j → P (σ i) := fun i h1 h2 => by_contra fun hc => hmin i (by omega) ⟨h1, hc⟩
  refine ⟨j, by omega, hall, hs.2, ?_⟩
  rcases h.next j with e | e
  · rw [e] at hs; exact absurd (hall j (by omega) (Nat.le_refl _)) hs.2
  · exact e

/-! ### The journal acknowledges -/

theorem step_j {s s' : LSt} (h : Step c s s') : JAct s.j s'.j ∨ (Journal.Step c.jc s.j s'.j ∧ s'.j.hist = s.j.hist) := by
  cases h with
  | act a ha => exact .inl (act_did ha).2
  | journal hj hh => exact .inr ⟨hj, hh⟩

theorem acked_step {s s' : LSt} {n : Nat} (hn : n ∈ s.j.acked) (h : Step c s s') : n ∈ s'.j.acked := by
  rcases step_j h with h | ⟨h, _⟩
  · rw [h.acked]; exact hn
  · generalize s'.j = j' at h ⊢
    cases h with
    | commit idle t hcm =>
      unfold Journal.commit at hcm
      split at hcm
      · cases hcm
      · simp only [Option.some.injEq] at hcm
        subst hcm
        simp only
        split <;> exact hn
    | ack hp => exact List.mem_append_left _ hn
    | _ => exact hn

theorem hist_step {s s' : LSt} {n : Nat} (hn : n < s.j.hist.length) (h : Step c s s') : n < s'.j.hist.length := by
  rcases step_j h with h | ⟨_, h⟩
  · obtain ⟨l, h⟩ := h.hist
    rw [h, List.length_append]; omega
  · rw [h]; exact hn

/-- how much the flusher has left to do for its batch -/
def work : Journal.Phase → Nat
  | .idle => 0
  | .blanking _ => 1
  | .entries _ todo => 2 + todo.length
  | .journal b => 3 + b.entries.length

theorem pending_step {s s' : LSt} {t : Journal.Txn} (ht : t ∈ s.j.pending.txns) (h : Step c s s') :
    (t ∈ s'.j.pending.txns ∧ s'.j.queue.length ≤ s.j.queue.length) ∨ ∃ b ∈ s'.j.queue, t ∈ b.txns := by
  rcases step_j h with h | ⟨h, hh⟩
  · rcases h.move with ⟨e, l, h⟩ | h
    · left; rw [h, e]; exact ⟨List.mem_append_left _ ht, Nat.le_refl _⟩
    · right; rw [h]; exact ⟨_, List.mem_append_right _ (List.mem_singleton.2 rfl), ht⟩
  · generalize s'.j = j' at h hh ⊢
    cases h with
    | commit idle t' hcm =>
      have := (Overlay.commit_hist hcm).1
      rw [hh] at this
      exact absurd (congrArg List.length this) (by simp)
    | timer hp => right; exact ⟨_, List.mem_append_right _ (List.mem_singleton.2 rfl), ht⟩
    | recv hp hq => left; rw [hq]; exact ⟨ht, Nat.le_succ _⟩
    | _ => left; exact ⟨ht, Nat.le_refl _⟩

/-- transaction `t` is in the `k`th batch waiting -/
def InQ (t : Journal.Txn) (k : Nat) (s : LSt) : Prop := ∃ b, s.j.queue[k]? = some b ∧ t ∈ b.txns

/-- transaction `t` is in the flusher's batch -/
def InP (t : Journal.Txn) (s : LSt) : Prop := t ∈ Journal.inFlight s.j

theorem queue_step {s s' : LSt} {t : Journal.Txn} {k : Nat} (ht : InQ t k s) (h : Step c s s') :
    (InQ t k s' ∧ (s'.j.phase = s.j.phase ∨ (s.j.phase ≠ .idle ∧ work s'.j.phase < work s.j.phase))) ∨
    (k = 0 ∧ InP t s') ∨ ∃ k', k = k' + 1 ∧ InQ t k' s' := by
  obtain ⟨b, hb, ht⟩ := ht
  rcases step_j h with h | ⟨h, hh⟩
  · left
    refine ⟨⟨b, ?_, ht⟩, .inl h.phase⟩
    rcases h.move with ⟨e, _⟩ | e
    · rw [e]; exact hb
    · rw [e, List.getElem?_append_left (List.getElem?_eq_some_iff.1 hb).1]; exact hb
  · unfold InQ InP
    generalize s'.j = j' at h hh ⊢
    cases h with
    | commit idle t' hcm =>
      have := (Overlay.commit_hist hcm).1
      rw [hh] at this
      exact absurd (congrArg List.length this) (by simp)
    | timer hp =>
      left
      exact ⟨⟨b, by simp only; rw [List.getElem?_append_left (List.getElem?_eq_some_iff.1 hb).1]; exact hb, ht⟩, .inl rfl⟩
    | recv hp hq =>
      rw [hq] at hb
      cases k with
      | zero =>
        simp only [List.getElem?_cons_zero, Option.some.injEq] at hb
        subst hb
        exact .inr (.inl ⟨rfl, ht⟩)
      | succ k => exact .inr (.inr ⟨k, rfl, b, by simpa using hb, ht⟩)
    | journalPart hp i n => left; exact ⟨⟨b, hb, ht⟩, .inl rfl⟩
    | journalDone hp => left; exact ⟨⟨b, hb, ht⟩, .inr ⟨by rw [hp]; simp, by rw [hp]; simp only [work]; omega⟩⟩
    | entryPart hp e he i n => left; exact ⟨⟨b, hb, ht⟩, .inl rfl⟩
    | entryDone hp e he =>
      left
      refine ⟨⟨b, hb, ht⟩, .inr ⟨by rw [hp]; simp, ?_⟩⟩
      rw [hp]
      simp only [work, List.length_erase_of_mem he]
      have := List.length_pos_of_mem he
      omega
    | ack hp => left; exact ⟨⟨b, hb, ht⟩, .inr ⟨by rw [hp]; simp, by rw [hp]; simp only [work, List.length_nil]; omega⟩⟩
    | blankPart hp i n => left; exact ⟨⟨b, hb, ht⟩, .inl rfl⟩
    | blankDone hp => left; exact ⟨⟨b, hb, ht⟩, .inr ⟨by rw [hp]; simp, by rw [hp]; simp only [work]; omega⟩⟩

theorem flight_step {s s' : LSt} {t : Journal.Txn} (ht : InP t s) (h : Step c s s') :
    (InP t s' ∧ (s'.j.phase = s.j.phase ∨ work s'.j.phase < work s.j.phase)) ∨ t.id ∈ s'.j.acked := by
  unfold InP at ht ⊢
  rcases step_j h with h | ⟨h, hh⟩
  · left
    refine ⟨?_, .inl h.phase⟩
    unfold Journal.inFlight at ht ⊢
    rw [h.phase]; exact ht
  · unfold Journal.inFlight at ht ⊢
    generalize s'.j = j' at h hh ⊢
    cases h with
    | commit idle t' hcm =>
      have := (Overlay.commit_hist hcm).1
      rw [hh] at this
      exact absurd (congrArg List.length this) (by simp)
    | timer hp => left; exact ⟨ht, .inl rfl⟩
    | recv hp hq => rw [hp] at ht; cases ht
    | journalPart hp i n => left; exact ⟨ht, .inl rfl⟩
    | journalDone hp =>
      rw [hp] at ht
      left; exact ⟨ht, .inr (by rw [hp]; simp only [work]; omega)⟩
    | entryPart hp e he i n => left; exact ⟨ht, .inl rfl⟩
    | entryDone hp e he =>
      rw [hp] at ht
      left
      refine ⟨ht, .inr ?_⟩
      rw [hp]
      simp only [work, List.length_erase_of_mem he]
      have := List.length_pos_of_mem he
      omega
    | ack hp =>
      rw [hp] at ht
      right; exact List.mem_append_right _ (List.mem_map_of_mem ht)
    | blankPart hp i n => left; exact ⟨ht, .inl rfl⟩
    | blankDone hp => rw [hp] at ht; cases ht

theorem flight_acked (h : FairRun c σ) {t : Journal.Txn} : ∀ (w n : Nat), work (σ n).j.phase = w → InP t (σ n) →
    ∃ m, n ≤ m ∧ t.id ∈ (σ m).j.acked := by
  intro w
  induction w using Nat.strong_induction_on with
  | _ w ih =>
    intro n hw hp
    by_contra hno
    simp only [not_exists, not_and] at hno
    have hex : ∃ m, n ≤ m ∧ ¬ (InP t (σ m) ∧ (σ m).j.phase = (σ n).j.phase) := by
      by_contra hall
      replace hall := fun m hm => by_contra (fun hx => hall ⟨m, hm, hx⟩)
      obtain ⟨m, hm, hx⟩ := h.flusher n (fun m hm => .inr (by
        intro e
        have := (hall m hm).1
        unfold InP Journal.inFlight at this
        rw [e] at this
        cases this))
      exact hx ((hall (m + 1) (by omega)).2.trans (hall m hm).2.symm)
    obtain ⟨m, hm, hall, hn, hs⟩ := h.toRun.first (P := fun s => InP t s ∧ s.j.phase = (σ n).j.phase) ⟨hp, rfl⟩ hex
    obtain ⟨h1, h2⟩ := hall m hm (Nat.le_refl _)
    rcases flight_step h1 hs with ⟨h3, h4 | h4⟩ | h3
    · exact hn ⟨h3, h4.trans h2⟩
    · rw [h2, hw] at h4
      obtain ⟨m', h5, h6⟩ := ih _ h4 (m + 1) rfl h3
      exact hno m' (by omega) h6
    · exact hno (m + 1) (by omega) h3


theorem queue_acked (h : FairRun c σ) {t : Journal.Txn} : ∀ (k w n : Nat), work (σ n).j.phase = w → InQ t k (σ n) →
    ∃ m, n ≤ m ∧ t.id ∈ (σ m).j.acked := by
  intro k
  induction k using Nat.strong_induction_on with
  | _ k ihk =>
  intro w
  induction w using Nat.strong_induction_on with
  | _ w ih =>
    intro n hw hp
    by_contra hno
    simp only [not_exists, not_and] at hno
    have hex : ∃ m, n ≤ m ∧ ¬ (InQ t k (σ m) ∧ (σ m).j.phase = (σ n).j.phase) := by
      by_contra hall
      replace hall := fun m hm => by_contra (fun hx => hall ⟨m, hm, hx⟩)
      obtain ⟨m, hm, hx⟩ := h.flusher n (fun m hm => .inl (by
        intro e
        obtain ⟨b, hb, _⟩ := (hall m hm).1
        rw [e] at hb
        cases hb))
      exact hx ((hall (m + 1) (by omega)).2.trans (hall m hm).2.symm)
    obtain ⟨m, hm, hall, hn, hs⟩ := h.toRun.first (P := fun s => InQ t k s ∧ s.j.phase = (σ n).j.phase) ⟨hp, rfl⟩ hex
    obtain ⟨h1, h2⟩ := hall m hm (Nat.le_refl _)
    rcases queue_step h1 hs with ⟨h3, h4 | ⟨_, h4⟩⟩ | ⟨_, h3⟩ | ⟨k', rfl, h3⟩
    · exact hn ⟨h3, h4.trans h2⟩
    · rw [h2, hw] at h4
      obtain ⟨m', h5, h6⟩ := ih _ h4 (m + 1) rfl h3
      exact hno m' (by omega) h6
    · obtain ⟨m', h5, h6⟩ := flight_acked h _ (m + 1) rfl h3
      exact hno m' (by omega) h6
    · obtain ⟨m', h5, h6⟩ := ihk k' (by omega) _ (m + 1) rfl h3
      exact hno m' (by omega) h6

theorem pending_acked (h : FairRun c σ) {t : Journal.Txn} {n : Nat} (ht : t ∈ (σ n).j.pending.txns) :
    ∃ m, n ≤ m ∧ t.id ∈ (σ m).j.acked := by
  have hex : ∃ m, n ≤ m ∧ ¬ (t ∈ (σ m).j.pending.txns ∧ ∀ b ∈ (σ m).j.queue, t ∉ b.txns) ∨ ∃ b ∈ (σ n).j.queue, t ∈ b.txns := by
    by_contra hall
    have hall' : ∀ m, n ≤ m → t ∈ (σ m).j.pending.txns ∧ ∀ b ∈ (σ m).j.queue, t ∉ b.txns :=
      fun m hm => by_contra (fun hx => hall ⟨m, .inl ⟨hm, hx⟩⟩)
    obtain ⟨m, hm, hx⟩ := h.timer n (fun m hm e => by
      have := (hall' m hm).1
      rw [e] at this
      cases this)
    rcases h.next m with e | e
    · rw [e] at hx; exact absurd hx (Nat.lt_irrefl _)
    · rcases pending_step (hall' m hm).1 e with ⟨_, h2⟩ | ⟨b, h1, h2⟩
      · omega
      · exact (hall' (m + 1) (by omega)).2 b h1 h2
  have inq : ∀ m, (∃ b ∈ (σ m).j.queue, t ∈ b.txns) → ∃ m', m ≤ m' ∧ t.id ∈ (σ m').j.acked := by
    rintro m ⟨b, hb, htb⟩
    obtain ⟨k, hk⟩ := List.mem_iff_getElem?.1 hb
    exact queue_acked h k _ m rfl ⟨b, hk, htb⟩
  by_cases hq : ∃ b ∈ (σ n).j.queue, t ∈ b.txns
  · exact inq n hq
  · obtain ⟨m0, hx⟩ := hex
    rcases hx with ⟨hm0, hx⟩ | hx
    · obtain ⟨m, hm, hall, hn, hs⟩ := h.toRun.first (P := fun s => t ∈ s.j.pending.txns ∧ ∀ b ∈ s.j.queue, t ∉ b.txns)
        ⟨ht, fun b hb hx => hq ⟨b, hb, hx⟩⟩ ⟨m0, hm0, hx⟩
      have hm1 := hall m hm (Nat.le_refl _)
      have : ∃ b ∈ (σ (m + 1)).j.queue, t ∈ b.txns := by
        rcases pending_step hm1.1 hs with ⟨h1, _⟩ | h1
        · by_contra hc
          exact hn ⟨h1, fun b hb hx => hc ⟨b, hb, hx⟩⟩
        · exact h1
      obtain ⟨m', h1, h2⟩ := inq _ this
      exact ⟨m', by omega, h2⟩
    · exact inq n hx

/-- every transaction is acknowledged -/
theorem txn_acked (hc : c.Ok) (h : FairRun c σ) (hf : ∀ m, (σ m).faults = []) {n id : Nat} (hid : id < (σ n).j.hist.length) :
    ∃ m, n ≤ m ∧ id ∈ (σ m).j.acked := by
  obtain ⟨base, v, leak, hi⟩ := reach_inv hc (h.toRun.reach n) (hf n)
  have hj := hi.jinv
  by_cases ha : id ∈ (σ n).j.acked
  · exact ⟨n, Nat.le_refl _, ha⟩
  · have hge : (σ n).j.acked.length ≤ id := by
      rw [hj.acked, List.mem_range] at ha
      omega
    obtain ⟨t, ht⟩ : ∃ t, (σ n).j.hist[id]? = some t := ⟨_, List.getElem?_eq_getElem hid⟩
    have he := hj.ids id t ht
    have hm : t ∈ unacked (σ n).j := by
      unfold unacked
      rw [List.mem_iff_getElem?]
      exact ⟨id - (σ n).j.acked.length, by rw [List.getElem?_drop]; rw [show (σ n).j.acked.length + (id - (σ n).j.acked.length) = id by omega]; exact ht⟩
    rw [hj.acc] at hm
    rw [← he]
    unfold held at hm
    rcases List.mem_append.1 hm with hm | hm
    · exact flight_acked h _ n rfl hm
    · rcases List.mem_append.1 hm with hm | hm
      · obtain ⟨b, hb, htb⟩ := List.mem_flatMap.1 hm
        obtain ⟨k, hk⟩ := List.mem_iff_getElem?.1 hb
        exact queue_acked h k _ n rfl ⟨b, hk, htb⟩
      · exact pending_acked h hm

end Lite
end Blobd
