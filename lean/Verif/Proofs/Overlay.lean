import Verif.Spec.Overlay
import Mathlib.Tactic.Tauto
import Verif.Proofs.Journal
/-! Overlay + journal: reading through the overlay always gives the latest value. -/
namespace Blobd
namespace Overlay
open Journal

variable {K V : Type} [DecidableEq K]

theorem lastVal_nil (k : K) : lastVal ([] : List (K × V)) k = none := rfl

theorem lastVal_append (a b : List (K × V)) (k : K) :
    lastVal (a ++ b) k = (lastVal b k).or (lastVal a k) := by
  simp only [lastVal, List.reverse_append, List.find?_append]
  cases List.find? (fun e => decide (e.1 = k)) b.reverse <;> rfl

theorem lastVal_none {l : List (K × V)} {k : K} : lastVal l k = none ↔ ∀ e ∈ l, e.1 ≠ k := by
  simp [lastVal]

theorem lastVal_single (k k' : K) (v : V) : lastVal [(k', v)] k = if k' = k then some v else none := by
  unfold lastVal
  by_cases h : k' = k <;> simp [h]

def writesFor (cs : Cells K V) (kvs : List (K × V)) : List (Nat × List Byte) :=
  kvs.map (fun kv => (cs.addr kv.1, cs.enc kv.1 kv.2))

theorem txnOf_eq {c : JCfg} {cs : Cells K V} (h : CellsOk c cs) (id : Nat) (kvs : List (K × V)) :
    txnOf cs id kvs = ⟨id, writesFor cs kvs⟩ := by
  have key : ∀ (l : List (K × V)) (t : Txn),
      l.foldl (fun t kv => t.write (cs.addr kv.1) (cs.enc kv.1 kv.2)) t = ⟨t.id, t.writes ++ writesFor cs l⟩ := by
    intro l
    induction l with
    | nil => intro t; simp [writesFor]
    | cons e l ih =>
      intro t
      rw [List.foldl_cons, ih]
      have : (cs.enc e.1 e.2) ≠ [] := by
        intro hc
        have := h.enc_len e.1 e.2
        have := h.width e.1
        simp [hc] at *; omega
      simp [Txn.write, writesFor, this]
  simpa [txnOf] using key kvs ⟨id, []⟩

def histOf (cs : Cells K V) : Nat → List (List (K × V)) → List Txn
  | _, [] => []
  | i, u :: us => ⟨i, writesFor cs u⟩ :: histOf cs (i + 1) us

theorem histOf_append (cs : Cells K V) (i : Nat) (a b : List (List (K × V))) :
    histOf cs i (a ++ b) = histOf cs i a ++ histOf cs (i + a.length) b := by
  induction a generalizing i with
  | nil => rfl
  | cons u a ih => simp [histOf, ih, Nat.add_comm, Nat.add_left_comm]

theorem histOf_length (cs : Cells K V) (i : Nat) (a : List (List (K × V))) : (histOf cs i a).length = a.length := by
  induction a generalizing i with
  | nil => rfl
  | cons u a ih => simp [histOf, ih]

theorem histOf_take (cs : Cells K V) (i n : Nat) (a : List (List (K × V))) :
    (histOf cs i a).take n = histOf cs i (a.take n) := by
  induction a generalizing i n with
  | nil => simp [histOf]
  | cons u a ih =>
    cases n with
    | zero => simp [histOf]
    | succ n => simp [histOf, ih]

theorem histOf_ids (cs : Cells K V) (i : Nat) (a : List (List (K × V))) (x : Nat) :
    x ∈ (histOf cs i a).map Txn.id ↔ i ≤ x ∧ x < i + a.length := by
  induction a generalizing i with
  | nil => simp [histOf]
  | cons u a ih =>
    simp only [histOf, List.map_cons, List.mem_cons, ih, List.length_cons]
    omega

theorem writesOf_histOf (cs : Cells K V) (i : Nat) (a : List (List (K × V))) :
    writesOf (histOf cs i a) = writesFor cs a.flatten := by
  induction a generalizing i with
  | nil => rfl
  | cons u a ih =>
    have := ih (i + 1)
    simp only [writesOf, writesFor] at this ⊢
    simp [histOf, this, writesFor]

/-- the cell of `k` after a sequence of cell updates -/
theorem read_cells {c : JCfg} {cs : Cells K V} (h : CellsOk c cs) (m : Mem) (l : List (K × V)) (k : K) :
    (m.writeAll (writesFor cs l)).read (cs.addr k) (cs.width k) =
      match lastVal l k with
      | some v => cs.enc k v
      | none => m.read (cs.addr k) (cs.width k) := by
  induction l generalizing m with
  | nil => rfl
  | cons e l ih =>
    have hl : lastVal (e :: l) k = (lastVal l k).or (lastVal [e] k) := lastVal_append [e] l k
    rw [hl]
    show ((m.write (cs.addr e.1) (cs.enc e.1 e.2)).writeAll (writesFor cs l)).read _ _ = _
    rw [ih]
    cases hv : lastVal l k with
    | some v => rfl
    | none =>
      simp only [Option.none_or]
      rw [show e = (e.1, e.2) from rfl, lastVal_single]
      by_cases hk : e.1 = k
      · subst hk
        simp only [if_true]
        have := Mem.read_write_same m (cs.addr e.1) (cs.enc e.1 e.2)
        rwa [h.enc_len] at this
      · simp only [hk, if_false]
        apply Mem.read_write_disj
        rw [h.enc_len]
        have := h.disj e.1 k hk
        omega

/-- transaction number `i` updates field `k` -/
def Touch (us : List (List (K × V))) (i : Nat) (k : K) : Prop := ∃ u, us[i]? = some u ∧ ∃ v, (k, v) ∈ u

theorem setAll_spec (o : Ov K V) (kvs : List (K × V)) :
    o.nextSerial ≤ (o.setAll kvs).1.nextSerial ∧
    (∀ k, lastVal kvs k = none → (o.setAll kvs).1.map k = o.map k) ∧
    (∀ k v, lastVal kvs k = some v → ∃ s, (o.setAll kvs).1.map k = some (s, v) ∧ o.nextSerial ≤ s ∧
      s < (o.setAll kvs).1.nextSerial ∧ (⟨k, s⟩ : Ticket K) ∈ (o.setAll kvs).2) ∧
    (∀ t ∈ (o.setAll kvs).2, o.nextSerial ≤ t.serial ∧ t.serial < (o.setAll kvs).1.nextSerial) := by
  induction kvs generalizing o with
  | nil => simp [Ov.setAll, lastVal_nil]
  | cons e kvs ih =>
    obtain ⟨k0, v0⟩ := e
    obtain ⟨i1, i2, i3, i4⟩ := ih (o.set k0 v0).1
    have hn : (o.set k0 v0).1.nextSerial = o.nextSerial + 1 := rfl
    rw [hn] at i1 i3 i4
    have hl : ∀ k, lastVal ((k0, v0) :: kvs) k = (lastVal kvs k).or (if k0 = k then some v0 else none) := by
      intro k
      rw [← lastVal_single]; exact lastVal_append [(k0, v0)] kvs k
    simp only [Ov.setAll]
    refine ⟨by omega, ?_, ?_, ?_⟩
    · intro k hk
      rw [hl] at hk
      cases hv : lastVal kvs k with
      | some v => simp [hv] at hk
      | none =>
        rw [i2 k hv]
        simp only [hv, Option.none_or] at hk
        have : k0 ≠ k := by intro h; simp [h] at hk
        simp [Ov.set, Ne.symm this]
    · intro k v hk
      rw [hl] at hk
      cases hv : lastVal kvs k with
      | some v' =>
        simp only [hv, Option.some_or, Option.some.injEq] at hk
        subst hk
        obtain ⟨s, h1, h2, h3, h4⟩ := i3 k v' hv
        exact ⟨s, h1, by omega, h3, List.mem_cons_of_mem _ h4⟩
      | none =>
        simp only [hv, Option.none_or] at hk
        split at hk
        · rename_i hkk
          simp only [Option.some.injEq] at hk
          subst hk; subst hkk
          refine ⟨o.nextSerial, ?_, Nat.le_refl _, by omega, ?_⟩
          · rw [i2 k0 hv]; simp [Ov.set]
          · simp [Ov.set]
        · cases hk
    · intro t ht
      simp only [List.mem_cons] at ht
      rcases ht with rfl | ht
      · exact ⟨Nat.le_refl _, Nat.lt_of_lt_of_le (Nat.lt_succ_self _) i1⟩
      · have := i4 t ht; omega

structure Inv (cs : Cells K V) (s : State K V) : Prop where
  hist : s.j.hist = histOf cs 0 s.updates
  entry : ∀ k se v, s.ov.map k = some (se, v) → lastVal s.updates.flatten k = some v ∧
    se < s.ov.nextSerial ∧ ∃ tid, (tid, (⟨k, se⟩ : Ticket K)) ∈ s.held
  ticket : ∀ e ∈ s.held, e.2.serial < s.ov.nextSerial ∧
    ∀ v, s.ov.map e.2.key = some (e.2.serial, v) → ∀ i, Touch s.updates i e.2.key → i ≤ e.1
  clear : ∀ k, s.ov.map k = none → ∀ i, Touch s.updates i k → i ∈ s.j.acked

theorem commit_hist {c : JCfg} {idle : Bool} {t : Txn} {s s' : Journal.State}
    (h : Journal.commit c idle t s = some s') : s'.hist = s.hist ++ [t] ∧ s'.acked = s.acked := by
  unfold Journal.commit at h
  split at h
  · cases h
  · simp only [Option.some.injEq] at h
    rw [← h]; split <;> simp

theorem step_acked {c : JCfg} {s s' : Journal.State} (h : Journal.Step c s s') : s.acked <+: s'.acked := by
  cases h with
  | commit idle t h => rw [(commit_hist h).2]; exact List.prefix_refl _
  | ack hp => exact List.prefix_append _ _
  | _ => exact List.prefix_refl _

theorem touch_append {us : List (List (K × V))} {u : List (K × V)} {i : Nat} {k : K}
    (h : Touch (us ++ [u]) i k) : Touch us i k ∨ (i = us.length ∧ ∃ v, (k, v) ∈ u) := by
  obtain ⟨w, h1, h2⟩ := h
  rw [List.getElem?_append] at h1
  split at h1
  · exact .inl ⟨w, h1, h2⟩
  · right
    rw [List.getElem?_singleton] at h1
    split at h1
    · simp only [Option.some.injEq] at h1; subst h1; exact ⟨by omega, h2⟩
    · cases h1

theorem touch_lt {us : List (List (K × V))} {i : Nat} {k : K} (h : Touch us i k) : i < us.length := by
  obtain ⟨w, h1, _⟩ := h
  rw [List.getElem?_eq_some_iff] at h1
  exact h1.1

theorem inv_step {c : JCfg} {cs : Cells K V} (hcs : CellsOk c cs) {s s' : State K V} (h : Inv cs s)
    (hd : ∀ i j, i ≤ j → j ∈ s.j.acked → i ∈ s.j.acked) (hs : Step c cs s s') : Inv cs s' := by
  cases hs with
  | @update j' idle kvs hc =>
    obtain ⟨hh, ha⟩ := commit_hist hc
    obtain ⟨a1, a2, a3, a4⟩ := setAll_spec s.ov kvs
    refine ⟨?_, ?_, ?_, ?_⟩
    · simp only
      rw [hh, h.hist, histOf_append, txnOf_eq hcs]
      simp [histOf]
    · intro k se v hk
      simp only at hk ⊢
      rw [List.flatten_append, lastVal_append]
      simp only [List.flatten_cons, List.flatten_nil, List.append_nil]
      cases hv : lastVal kvs k with
      | some v' =>
        obtain ⟨se', h1, h2, h3, h4⟩ := a3 k v' hv
        rw [h1] at hk
        simp only [Option.some.injEq, Prod.mk.injEq] at hk
        obtain ⟨rfl, rfl⟩ := hk
        refine ⟨rfl, h3, s.updates.length, ?_⟩
        simp only [List.mem_append, List.mem_map]
        exact .inr ⟨_, h4, rfl⟩
      | none =>
        rw [a2 k hv] at hk
        obtain ⟨h1, h2, tid, h3⟩ := h.entry k se v hk
        refine ⟨by simpa using h1, by omega, tid, ?_⟩
        simp [h3]
    · intro e he
      simp only [List.mem_append, List.mem_map] at he
      rcases he with he | ⟨t, ht, rfl⟩
      · obtain ⟨h1, h2⟩ := h.ticket e he
        refine ⟨by simp only; omega, ?_⟩
        intro v hv i hi
        cases hl : lastVal kvs e.2.key with
        | some v' =>
          obtain ⟨se', g1, g2, g3, g4⟩ := a3 _ v' hl
          simp only [g1, Option.some.injEq, Prod.mk.injEq] at hv
          omega
        | none =>
          simp only [a2 _ hl] at hv
          rcases touch_append hi with hi | ⟨_, v', hv'⟩
          · exact h2 v hv i hi
          · exact absurd rfl (lastVal_none.1 hl _ hv')
      · refine ⟨(a4 t ht).2, ?_⟩
        intro v hv i hi
        have := touch_lt hi
        simp at this
        simp only; omega
    · intro k hk i hi
      simp only at hk ⊢
      rw [ha]
      cases hl : lastVal kvs k with
      | some v' =>
        obtain ⟨se', g1, _⟩ := a3 _ v' hl
        rw [g1] at hk; cases hk
      | none =>
        rw [a2 _ hl] at hk
        rcases touch_append hi with hi | ⟨_, v', hv'⟩
        · exact h.clear k hk i hi
        · exact absurd rfl (lastVal_none.1 hl _ hv')
  | @journal j' hj hh =>
    refine ⟨by simp only; rw [hh, h.hist], h.entry, h.ticket, ?_⟩
    intro k hk i hi
    exact (step_acked hj).subset (h.clear k hk i hi)
  | evict e he ha rest hr =>
    have hmap : ∀ k se v, (s.ov.evict e.2).map k = some (se, v) →
        s.ov.map k = some (se, v) ∧ ¬ (k = e.2.key ∧ se = e.2.serial) := by
      intro k se v hk
      simp only [Ov.evict] at hk
      by_cases hke : k = e.2.key
      · subst hke
        simp only [if_true] at hk
        cases ho : s.ov.map e.2.key with
        | none => simp [ho] at hk
        | some p =>
          obtain ⟨s0, v0⟩ := p
          simp only [ho] at hk
          split at hk
          · cases hk
          · simp only [Option.some.injEq, Prod.mk.injEq] at hk
            obtain ⟨rfl, rfl⟩ := hk
            exact ⟨rfl, by tauto⟩
      · simp only [hke, if_false] at hk
        exact ⟨hk, by tauto⟩
    have hsub : ∀ x ∈ rest, x ∈ s.held := fun x hx => hr.symm.subset (List.mem_cons_of_mem _ hx)
    refine ⟨h.hist, ?_, ?_, ?_⟩
    · intro k se v hk
      obtain ⟨hk', hne⟩ := hmap k se v hk
      obtain ⟨h1, h2, tid, h3⟩ := h.entry k se v hk'
      refine ⟨h1, h2, tid, ?_⟩
      have := hr.subset h3
      simp only [List.mem_cons] at this
      rcases this with rfl | h4
      · exact absurd ⟨rfl, rfl⟩ hne
      · exact h4
    · intro x hx
      obtain ⟨h1, h2⟩ := h.ticket x (hsub x hx)
      exact ⟨h1, fun v hv i hi => h2 v (hmap _ _ _ hv).1 i hi⟩
    · intro k hk i hi
      simp only [Ov.evict] at hk
      by_cases hke : k = e.2.key
      · subst hke
        simp only [if_true] at hk
        cases ho : s.ov.map e.2.key with
        | none => exact h.clear _ ho i hi
        | some p =>
          obtain ⟨s0, v0⟩ := p
          simp only [ho] at hk
          split at hk
          · rename_i hs0
            subst hs0
            have hle := (h.ticket e he).2 v0 ho i hi
            exact hd i e.1 hle ha
          · cases hk
      · simp only [hke, if_false] at hk
        exact h.clear _ hk i hi

theorem reach_inv {c : JCfg} {cs : Cells K V} (hc : CfgOk c) (hcs : CellsOk c cs) {m : Mem} {s : State K V}
    (h : Reach c cs m s) (hfit : ∀ t ∈ s.j.hist, 36 + (t.raw c).length ≤ c.cap) :
    Inv cs s ∧ ∃ done, Journal.Inv c m done s.j := by
  induction h with
  | init =>
    exact ⟨⟨rfl, by simp, by simp, fun k _ i hi => by have := touch_lt hi; simp at this⟩,
      [], rfl, rfl, by simp, batch_empty hc, fun x _ => rfl⟩
  | @step s s' _ hs ih =>
    have hpre : s.j.hist <+: s'.j.hist := by
      cases hs with
      | update idle kvs h => simp only; rw [(commit_hist h).1]; exact List.prefix_append _ _
      | journal h hh => simp only; rw [hh]; exact List.prefix_refl _
      | evict => exact List.prefix_refl _
    obtain ⟨hi, done, hd⟩ := ih (fun t ht => hfit t (hpre.subset ht))
    have hdown : ∀ i j, i ≤ j → j ∈ s.j.acked → i ∈ s.j.acked := by
      intro i j hij hj
      have hdn : done = histOf cs 0 (s.updates.take done.length) := by
        rw [← histOf_take, ← hi.hist, hd.hist]; simp
      rw [hd.acked, hdn, histOf_ids] at hj ⊢
      omega
    have hi' := inv_step hcs hi hdown hs
    refine ⟨hi', ?_⟩
    have hok : ∀ t ∈ s'.j.hist, TxnOk c t := by
      intro t ht
      refine ⟨hfit t ht, ?_⟩
      intro w hw x h1 h2
      rw [hi'.hist] at ht
      have hw' : w ∈ writesOf (histOf cs 0 s'.updates) := List.mem_flatMap.2 ⟨t, ht, hw⟩
      rw [writesOf_histOf] at hw'
      simp only [writesFor, List.mem_map] at hw'
      obtain ⟨kv, _, rfl⟩ := hw'
      simp only [hcs.enc_len] at h2
      exact hcs.outside kv.1 x h1 h2
    cases hs with
    | update idle kvs h =>
      obtain ⟨d, hd', _⟩ := Journal.step_inv hc hd (.commit idle _ h) hok
      exact ⟨d, hd'⟩
    | journal h hh =>
      obtain ⟨d, hd', _⟩ := Journal.step_inv hc hd h hok
      exact ⟨d, hd'⟩
    | evict => exact ⟨done, hd⟩

theorem flatten_split (us : List (List (K × V))) (n : Nat) (k : K)
    (h : ∀ i, Touch us i k → i < n) (p : Nat) (hp : n ≤ p) :
    lastVal (us.take p).flatten k = lastVal us.flatten k := by
  have : us.flatten = (us.take p).flatten ++ (us.drop p).flatten := by
    rw [← List.flatten_append, List.take_append_drop]
  rw [this, lastVal_append]
  have hn : lastVal (us.drop p).flatten k = none := by
    rw [lastVal_none]
    intro e he hk
    obtain ⟨u, hu, heu⟩ := List.mem_flatten.1 he
    obtain ⟨i, hi⟩ := List.getElem?_of_mem hu
    rw [List.getElem?_drop] at hi
    have := h (p + i) ⟨u, hi, e.2, by rw [← hk]; exact heu⟩
    omega
  simp [hn]

/-- Device contents of the cell of a field all of whose updates are acknowledged. -/
theorem dev_cell {c : JCfg} {cs : Cells K V} (hc : CfgOk c) (hcs : CellsOk c cs) {m : Mem} {s : State K V}
    (h : Reach c cs m s) (hfit : ∀ t ∈ s.j.hist, 36 + (t.raw c).length ≤ c.cap) (k : K)
    (hk : ∀ i, Touch s.updates i k → i ∈ s.j.acked) :
    s.j.dev.read (cs.addr k) (cs.width k) = match lastVal s.updates.flatten k with
      | some v => cs.enc k v
      | none => m.read (cs.addr k) (cs.width k) := by
  obtain ⟨hi, done, hd⟩ := reach_inv hc hcs h hfit
  have hpre : ∀ ts, ts <+: s.j.hist → ts = histOf cs 0 (s.updates.take ts.length) := by
    intro ts hts
    rw [← histOf_take, ← hi.hist]; exact List.prefix_iff_eq_take.1 hts
  have himg : ∀ ts, done <+: ts → ts <+: s.j.hist →
      (image m ts).read (cs.addr k) (cs.width k) = match lastVal s.updates.flatten k with
      | some v => cs.enc k v
      | none => m.read (cs.addr k) (cs.width k) := by
    intro ts h1 h2
    have hdn := hpre done (h1.trans h2)
    have htouch : ∀ i, Touch s.updates i k → i < done.length := by
      intro i hi'
      have := hk i hi'
      rw [hd.acked, hdn, histOf_ids] at this
      simp at this; omega
    rw [hpre ts h2, image, writesOf_histOf, read_cells hcs,
      flatten_split s.updates done.length k htouch ts.length h1.length_le]
  have hdone : done <+: s.j.hist := by rw [hd.hist]; exact List.prefix_append _ _
  have hph := hd.phase
  have simple : (∀ x, Outside c x → s.j.dev x = image m done x) →
      s.j.dev.read (cs.addr k) (cs.width k) = (image m done).read (cs.addr k) (cs.width k) := by
    intro hx
    apply Mem.read_congr
    intro x h1 h2
    exact hx x (hcs.outside k x h1 h2)
  cases hp : s.j.phase with
  | idle => rw [hp] at hph; rw [simple hph]; exact himg done (List.prefix_refl _) hdone
  | blanking b => rw [hp] at hph; rw [simple hph]; exact himg done (List.prefix_refl _) hdone
  | journal b => rw [hp] at hph; rw [simple hph.2]; exact himg done (List.prefix_refl _) hdone
  | entries b todo =>
    rw [hp] at hph
    have h2 : done ++ b.txns <+: s.j.hist := by
      rw [hd.hist]
      simp only [inFlight, hp, ← List.append_assoc]
      exact ⟨_, (List.append_assoc _ _ _).symm⟩
    have e1 := himg done (List.prefix_refl _) hdone
    have e2 := himg (done ++ b.txns) (List.prefix_append _ _) h2
    rw [← e1]
    apply Mem.read_congr
    intro x h1 h2
    rcases hph.2.2.2.1 x (hcs.outside k x h1 h2) with h | h
    · exact h
    · rw [h]
      have e3 := e2.trans e1.symm
      have e4 := congrArg (fun l => l[x - cs.addr k]?) e3
      simp only [Mem.read, List.getElem?_map, List.getElem?_range (show x - cs.addr k < cs.width k by omega),
        Option.map_some, Option.some.injEq] at e4
      rwa [show cs.addr k + (x - cs.addr k) = x by omega] at e4

theorem get_latest {c : JCfg} {cs : Cells K V} (hc : CfgOk c) (hcs : CellsOk c cs) {m : Mem} {s : State K V}
    (h : Reach c cs m s) (hfit : ∀ t ∈ s.j.hist, 36 + (t.raw c).length ≤ c.cap) (k : K) :
    s.get cs k = (lastVal s.updates.flatten k).getD (cs.dec k (m.read (cs.addr k) (cs.width k))) := by
  obtain ⟨hi, _⟩ := reach_inv hc hcs h hfit
  unfold State.get Ov.get
  cases ho : s.ov.map k with
  | some p =>
    obtain ⟨se, v⟩ := p
    rw [(hi.entry k se v ho).1]; rfl
  | none =>
    rw [dev_cell hc hcs h hfit k (hi.clear k ho)]
    cases lastVal s.updates.flatten k with
    | some v => simp [hcs.dec_enc]
    | none => rfl

end Overlay
end Blobd
