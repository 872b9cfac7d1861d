import Verif.Proofs.Journal
import Verif.Proofs.Overlay
import Verif.Model.LiteStore
set_option autoImplicit false
/-! # The journal on a shared device

`JInv c base j`: `base` is the device once the acknowledged transactions are applied and nothing else of the journal,
`logical base j` the device once everything pending is applied. Other tasks may write to the device wherever no
pending transaction writes. -/
namespace Blobd
namespace Lite
open Journal

/-- transactions in the journal that are not acknowledged, from where they are -/
def held (s : State) : List Txn := inFlight s ++ (s.queue.flatMap Batch.txns ++ s.pending.txns)

structure JInv (c : JCfg) (base : Mem) (s : State) : Prop where
  inv : Inv c base [] { s with hist := held s, acked := [] }
  acc : unacked s = held s
  len : s.acked.length ≤ s.hist.length
  acked : s.acked = List.range s.acked.length
  ids : ∀ (i : Nat) (t : Txn), s.hist[i]? = some t → t.id = i

/-- the device when the journal has drained -/
def logical (base : Mem) (s : State) : Mem := image base (unacked s)

theorem step_ghost {c : JCfg} {s s' : State} (h : Journal.Step c s s') (hh : s'.hist = s.hist) (H : List Txn) (A : List Nat) :
    ∃ acks, s'.acked = s.acked ++ acks ∧
      Journal.Step c { s with hist := H, acked := A } { s' with hist := H, acked := A ++ acks } := by
  cases h with
  | commit idle t hcm =>
    have := (Overlay.commit_hist hcm).1
    rw [hh] at this
    exact absurd (congrArg List.length this) (by simp)
  | timer hp => exact ⟨[], by simp, by simpa using Journal.Step.timer (s := { s with hist := H, acked := A }) hp⟩
  | recv hp hq => exact ⟨[], by simp, by simpa using Journal.Step.recv (s := { s with hist := H, acked := A }) hp hq⟩
  | journalPart hp i n => exact ⟨[], by simp, by simpa using Journal.Step.journalPart (s := { s with hist := H, acked := A }) hp i n⟩
  | journalDone hp => exact ⟨[], by simp, by simpa using Journal.Step.journalDone (s := { s with hist := H, acked := A }) hp⟩
  | entryPart hp e he i n =>
    exact ⟨[], by simp, by simpa using Journal.Step.entryPart (s := { s with hist := H, acked := A }) hp e he i n⟩
  | entryDone hp e he =>
    exact ⟨[], by simp, by simpa using Journal.Step.entryDone (s := { s with hist := H, acked := A }) hp e he⟩
  | @ack b hp => exact ⟨b.txns.map Txn.id, rfl, Journal.Step.ack (s := { s with hist := H, acked := A }) hp⟩
  | blankPart hp i n => exact ⟨[], by simp, by simpa using Journal.Step.blankPart (s := { s with hist := H, acked := A }) hp i n⟩
  | blankDone hp => exact ⟨[], by simp, by simpa using Journal.Step.blankDone (s := { s with hist := H, acked := A }) hp⟩

theorem JInv.txnOk {c : JCfg} {base : Mem} {s : State} (h : JInv c base s) : ∀ t ∈ unacked s, TxnOk c t := by
  intro t ht
  rw [h.acc] at ht
  simp only [held, List.mem_append, List.mem_flatMap] at ht
  have hph := h.inv.phase
  simp only at hph
  rcases ht with ht | ⟨b, hb, ht⟩ | ht
  · unfold inFlight at ht
    cases hp : s.phase with
    | idle => simp [hp] at ht
    | journal b => rw [hp] at hph; simp only [hp] at ht; exact hph.1.txns t ht
    | entries b todo => rw [hp] at hph; simp only [hp] at ht; exact hph.1.txns t ht
    | blanking b => simp [hp] at ht
  · exact (h.inv.queue b hb).txns t ht
  · exact h.inv.pending.txns t ht

/-- all phases can be restated with the acknowledged batch in the base -/
theorem phase_rebase {c : JCfg} {m dev : Mem} {done : List Txn} {p : Phase} (h : PhaseInv c m done dev p) :
    PhaseInv c (image m done) [] dev p := by
  cases p with
  | idle => exact h
  | journal b => exact h
  | entries b todo =>
    obtain ⟨h1, h2, h3, h4, h5, h6⟩ := h
    refine ⟨h1, h2, h3, ?_, ?_, h6⟩
    · intro x hx
      have := h4 x hx
      rwa [image_append] at this
    · intro x hx hn
      have := h5 x hx hn
      rwa [image_append] at this
  | blanking b => exact h

theorem JInv.step {c : JCfg} (hc : CfgOk c) {base : Mem} {s s' : State} (h : JInv c base s) (hs : Journal.Step c s s')
    (hh : s'.hist = s.hist) : ∃ done, JInv c (image base done) s' ∧ unacked s = done ++ unacked s' ∧ s.acked <+: s'.acked := by
  obtain ⟨acks, ha, hst⟩ := step_ghost hs hh (held s) []
  obtain ⟨done, hi, _⟩ := step_inv hc h.inv hst (by
    intro t ht
    have : t ∈ held s := ht
    rw [← h.acc] at this
    exact h.txnOk t this)
  simp only [List.nil_append] at hi
  have e1 : held s = done ++ held s' := hi.hist
  have e2 : acks = done.map Txn.id := hi.acked
  have hlen : s.hist.length - s.acked.length = done.length + (held s').length := by
    have := congrArg List.length h.acc
    rw [e1] at this
    simpa [unacked] using this
  have hl' : s'.acked.length ≤ s'.hist.length := by rw [ha, hh, e2]; have := h.len; simp; omega
  have hu : unacked s' = held s' := by
    have h1 : unacked s' = (unacked s).drop done.length := by
      unfold unacked
      rw [hh, ha, e2, List.drop_drop]; simp
    rw [h1, h.acc, e1]; simp
  refine ⟨done, ⟨⟨rfl, rfl, hi.queue, hi.pending, phase_rebase hi.phase⟩, hu, hl', ?_, by rw [hh]; exact h.ids⟩, ?_, ?_⟩
  · rw [ha, e2, List.length_append, List.range_add, ← h.acked]
    congr 1
    apply List.ext_getElem
    · simp
    · intro i hi1 hi2
      simp only [List.getElem_map, List.getElem_range]
      have hlt : i < done.length := by simpa using hi1
      apply h.ids
      have : (unacked s)[i]? = some done[i] := by
        rw [h.acc, e1, List.getElem?_append_left hlt]; simp [hlt]
      rw [unacked, List.getElem?_drop] at this
      simpa [Nat.add_comm] using this
  · rw [h.acc, hu, e1]
  · rw [ha]; exact List.prefix_append _ _

/-- draining the journal further does not change the logical device -/
theorem logical_step {base : Mem} {s s' : State} {done : List Txn} (h : unacked s = done ++ unacked s') :
    logical (image base done) s' = logical base s := by
  unfold logical; rw [h, image_append]

/-- no pending transaction writes byte `x` -/
def Quiet (s : State) (x : Nat) : Prop := ∀ t ∈ unacked s, ∀ w ∈ t.writes, x < w.1 ∨ w.1 + w.2.length ≤ x

theorem image_quiet {base : Mem} {ts : List Txn} {x : Nat} (h : ∀ t ∈ ts, ∀ w ∈ t.writes, x < w.1 ∨ w.1 + w.2.length ≤ x) :
    image base ts x = base x := by
  unfold image
  apply Mem.writeAll_out
  intro w hw
  simp only [writesOf, List.mem_flatMap] at hw
  obtain ⟨t, ht, hw⟩ := hw
  exact h t ht w hw

/-- where nothing is pending, the device holds the logical contents -/
theorem JInv.dev_eq {c : JCfg} {base : Mem} {s : State} (h : JInv c base s) {x : Nat} (ho : Outside c x) (hq : Quiet s x) :
    s.dev x = logical base s x := by
  unfold logical
  rw [image_quiet hq]
  have hph := h.inv.phase
  simp only at hph
  cases hp : s.phase with
  | idle => rw [hp] at hph; exact hph x ho
  | journal b => rw [hp] at hph; exact hph.2 x ho
  | blanking b => rw [hp] at hph; exact hph x ho
  | entries b todo =>
    rw [hp] at hph
    rcases hph.2.2.2.1 x ho with h1 | h1
    · exact h1
    · rw [h1]
      apply image_quiet
      intro t ht w hw
      refine hq t ?_ w hw
      rw [h.acc]
      simp only [List.nil_append] at ht
      simp [held, inFlight, hp, ht]

theorem writeAll_comm {m : Mem} {a : Nat} {d : List Byte} {ws : List (Nat × List Byte)}
    (h : ∀ w ∈ ws, a + d.length ≤ w.1 ∨ w.1 + w.2.length ≤ a) : (m.write a d).writeAll ws = (m.writeAll ws).write a d := by
  funext x
  by_cases hx : a ≤ x ∧ x < a + d.length
  · rw [Mem.writeAll_out, Mem.write_in hx.1 hx.2, Mem.write_in hx.1 hx.2]
    intro w hw
    have := h w hw
    omega
  · rw [Mem.write_out (by omega)]
    clear h
    induction ws generalizing m with
    | nil => exact Mem.write_out (by omega)
    | cons w ws ih =>
      rw [Mem.writeAll_cons, Mem.writeAll_cons]
      have key : ∀ (ws : List (Nat × List Byte)) (m1 m2 : Mem), m1 x = m2 x → m1.writeAll ws x = m2.writeAll ws x := by
        intro ws
        induction ws with
        | nil => intro m1 m2 e; exact e
        | cons w ws ih =>
          intro m1 m2 e
          rw [Mem.writeAll_cons, Mem.writeAll_cons]
          apply ih
          unfold Mem.write
          split
          · rw [e]
          · exact e
      apply key
      unfold Mem.write
      split
      · congr 1
        split
        · have : d.length ≤ x - a := by omega
          simp [this]
        · rfl
      · split
        · have : d.length ≤ x - a := by omega
          simp [this]
        · rfl

theorem image_comm {m : Mem} {a : Nat} {d : List Byte} {ts : List Txn}
    (h : ∀ t ∈ ts, ∀ w ∈ t.writes, a + d.length ≤ w.1 ∨ w.1 + w.2.length ≤ a) :
    image (m.write a d) ts = (image m ts).write a d := by
  unfold image
  apply writeAll_comm
  intro w hw
  simp only [writesOf, List.mem_flatMap] at hw
  obtain ⟨t, ht, hw⟩ := hw
  exact h t ht w hw

/-- another task writes to the device, away from everything pending and from the journal -/
theorem JInv.extWrite {c : JCfg} {base : Mem} {s : State} (h : JInv c base s) {a : Nat} {d : List Byte}
    (hq : ∀ t ∈ unacked s, ∀ w ∈ t.writes, a + d.length ≤ w.1 ∨ w.1 + w.2.length ≤ a)
    (ho : a + d.length ≤ c.devOffset ∨ c.devOffset + c.cap ≤ a) :
    JInv c (base.write a d) { s with dev := s.dev.write a d } ∧
      logical (base.write a d) { s with dev := s.dev.write a d } = (logical base s).write a d := by
  have hu : unacked { s with dev := s.dev.write a d } = unacked s := rfl
  refine ⟨⟨⟨rfl, rfl, h.inv.queue, h.inv.pending, ?_⟩, h.acc, h.len, h.acked, h.ids⟩, ?_⟩
  · have hph := h.inv.phase
    simp only at hph ⊢
    have hw : ∀ (m1 m2 : Mem) x, m1 x = m2 x → m1.write a d x = m2.write a d x := by
      intro m1 m2 x e
      unfold Mem.write
      split
      · rw [e]
      · exact e
    cases hp : s.phase with
    | idle => rw [hp] at hph; intro x hx; exact hw _ _ x (hph x hx)
    | journal b => rw [hp] at hph; exact ⟨hph.1, fun x hx => hw _ _ x (hph.2 x hx)⟩
    | blanking b => rw [hp] at hph; intro x hx; exact hw _ _ x (hph x hx)
    | entries b todo =>
      rw [hp] at hph
      obtain ⟨h1, h2, h3, h4, h5, h6⟩ := hph
      have hb : ∀ t ∈ [] ++ b.txns, ∀ w ∈ t.writes, a + d.length ≤ w.1 ∨ w.1 + w.2.length ≤ a := by
        intro t ht w hw
        refine hq t ?_ w hw
        rw [h.acc]
        simp only [List.nil_append] at ht
        simp [held, inFlight, hp, ht]
      refine ⟨h1, h2, h3, ?_, ?_, ?_⟩
      · intro x hx
        rw [image_comm hb]
        rcases h4 x hx with e | e
        · exact .inl (hw _ _ x e)
        · exact .inr (hw _ _ x e)
      · intro x hx hn
        rw [image_comm hb]
        exact hw _ _ x (h5 x hx hn)
      · rw [← h6]
        apply Mem.read_write_disj
        have := h1.len
        omega
  · unfold logical
    rw [hu, image_comm hq]

/-- a new transaction -/
theorem JInv.commit {c : JCfg} (hc : CfgOk c) {base : Mem} {s s' : State} (h : JInv c base s) {idle : Bool} {t : Txn}
    (ht : TxnOk c t) (hid : t.id = s.hist.length) (hs : Journal.commit c idle t s = some s') :
    JInv c base s' ∧ unacked s' = unacked s ++ [t] ∧ s'.dev = s.dev ∧ s'.acked = s.acked := by
  have hd : s'.dev = s.dev ∧ held s' = held s ++ [t] ∧ s'.phase = s.phase := by
    unfold Journal.commit at hs
    split at hs
    · cases hs
    · simp only [Option.some.injEq] at hs
      subst hs
      split <;> simp [held, inFlight, Batch.add]
  obtain ⟨hh, ha⟩ := Overlay.commit_hist hs
  have hu : unacked s' = unacked s ++ [t] := by
    unfold unacked
    rw [hh, ha, List.drop_append_of_le_length h.len]
  have hst : ∃ s0', Journal.commit c idle t { s with hist := held s, acked := [] } = some s0' ∧ s0'.phase = s'.phase ∧
      s0'.queue = s'.queue ∧ s0'.pending = s'.pending ∧ s0'.dev = s'.dev := by
    unfold Journal.commit at hs ⊢
    split at hs
    · cases hs
    · rename_i hne
      rw [if_neg hne]
      refine ⟨_, rfl, ?_⟩
      simp only [Option.some.injEq] at hs
      subst hs
      simp only
      split <;> simp
  obtain ⟨s0', hs0, p1, p2, p3, p4⟩ := hst
  have hi := commit_inv hc h.inv ht hs0
  refine ⟨⟨⟨rfl, rfl, p2 ▸ hi.queue, p3 ▸ hi.pending, ?_⟩, ?_, ?_, ?_, ?_⟩, hu, hd.1, ha⟩
  · have := hi.phase
    rw [p1, p4] at this
    exact this
  · rw [hu, hd.2.1, h.acc]
  · rw [ha, hh]; have := h.len; simp; omega
  · rw [ha]; exact h.acked
  · intro i u hu
    rw [hh] at hu
    rcases Nat.lt_or_ge i s.hist.length with hl | hl
    · rw [List.getElem?_append_left hl] at hu; exact h.ids i u hu
    · rw [List.getElem?_append_right hl] at hu
      have : i - s.hist.length = 0 := by
        by_contra hne
        have : (i - s.hist.length) = (i - s.hist.length - 1) + 1 := by omega
        rw [this] at hu; simp at hu
      rw [this] at hu
      simp only [List.getElem?_cons_zero, Option.some.injEq] at hu
      subst hu
      omega

theorem logical_commit {base : Mem} {s s' : State} {t : Txn} (h : unacked s' = unacked s ++ [t]) :
    logical base s' = (logical base s).writeAll t.writes := by
  unfold logical
  rw [h, image_append]
  simp [image, writesOf]

theorem jinv_init {c : JCfg} (hc : CfgOk c) (m : Mem) : JInv c m { dev := m } :=
  ⟨⟨rfl, rfl, by simp, batch_empty hc, fun _ _ => rfl⟩, rfl, by simp, rfl, by simp⟩

/-- ids of pending transactions: at least the number of acknowledged ones; an acknowledged id is smaller -/
theorem JInv.id_ge {c : JCfg} {base : Mem} {s : State} (h : JInv c base s) {t : Txn} (ht : t ∈ unacked s) :
    t.id ∉ s.acked ∧ t.id < s.hist.length := by
  obtain ⟨i, hi⟩ := List.mem_iff_getElem?.1 ht
  rw [unacked, List.getElem?_drop] at hi
  have h1 := h.ids _ _ hi
  have h2 : s.acked.length + i < s.hist.length := by
    rcases Nat.lt_or_ge (s.acked.length + i) s.hist.length with h | h
    · exact h
    · rw [List.getElem?_eq_none h] at hi; cases hi
  refine ⟨?_, by omega⟩
  rw [h.acked, List.mem_range]; omega

theorem JInv.acked_lt {c : JCfg} {base : Mem} {s : State} (h : JInv c base s) {n : Nat} (hn : n ∈ s.acked) {t : Txn}
    (ht : t ∈ unacked s) : n < t.id := by
  have := (h.id_ge ht).1
  rw [h.acked, List.mem_range] at this hn
  omega

end Lite
end Blobd
