import Verif.Proofs.LiteReopen
import Verif.Proofs.LiteMoves
set_option autoImplicit false
/-! # Buckets without a call in progress -/
namespace Blobd
namespace Lite
open Spec

/-- the overlay tickets a call holds -/
def PC.tks : PC → List (Overlay.Ticket Cell)
  | .wait _ _ ts _ => ts
  | .evict ts _ => ts
  | _ => []

/-- the overlay cells an event may set; `x` is the id of the object a commit replaces -/
def SetBy (c : LCfg) (e : Ev) (x : Option Nat) (k : Cell) : Prop :=
  (k = .head (c.bkt e.key) ∧ ∀ key id, e = .committed key id → x ≠ none) ∨
  match e with
  | .created _ id _ => k = .next id
  | .committed _ id => k = .state id ∨ ∃ y, x = some y ∧ k = .next y
  | .removed _ _ id => k = .next id
  | _ => False

/-- answers and running calls -/
structure AckEff (s s' : LSt) : Prop where
  acks : ∀ a ∈ s'.acks, a ∈ s.acks ∨ (a.id < s'.nextCall ∧ s'.thr a.id = none)
  nc : s.nextCall ≤ s'.nextCall
  thr : ∀ j, j < s.nextCall → s.thr j = none → s'.thr j = none

inductive TkEff (c : LCfg) (s s' : LSt) : Prop
  | keep : s'.ov = s.ov → (∀ i t, s.thr i = some t → t.pc.tks ≠ [] → ∃ t', s'.thr i = some t' ∧ t'.pc.tks = t.pc.tks) →
      (s'.lin = s.lin ∨ ∃ i e, s'.lin = s.lin ++ [(i, e)] ∧ ¬ e.alters) → TkEff c s s'
  | evict (i : Nat) (t t' : Thread) (k : Overlay.Ticket Cell) : s.thr i = some t → t.pc.tks = k :: t'.pc.tks → s'.thr = upd s.thr i (some t') →
      s'.ov = s.ov.evict k → s'.lin = s.lin → TkEff c s s'
  | set (i : Nat) (t t' : Thread) (e : Ev) (x : Option Nat) : s.thr i = some t → t.pc.tks = [] → s'.thr = upd s.thr i (some t') →
      s'.lin = s.lin ++ [(i, e)] → e.alters →
      (∀ k n y, s'.ov.map k = some (n, y) → s.ov.map k = some (n, y) ∨ (⟨k, n⟩ ∈ t'.pc.tks ∧ SetBy c e x k)) →
      (∀ y, x = some y → ∃ st id key prev inc f, s.thr i = some ⟨st, .walk (.commit id) key 0 prev none inc (some f)⟩ ∧ y = rdId (ofBytes f.raw) 0 ∧ e.key = key ∧
        c.versioning = false) →
      (∀ k id size, e = .created k id size → ∃ st o off, s.thr i = some ⟨st, .createLink o off⟩ ∧ o.id = id) →
      (∀ k id, e = .committed k id → ∃ st prev f ex, s.thr i = some ⟨st, .walk (.commit id) k 0 prev none (some f) ex⟩) →
      TkEff c s s'

section
variable {c : LCfg}

theorem ackEff_move {s s' : LSt} {i : Nat} {t t' : Thread} (h : s.thr i = some t) (h1 : s'.thr = upd s.thr i (some t')) (h2 : s'.acks = s.acks)
    (h3 : s'.nextCall = s.nextCall) : AckEff s s' := by
  refine ⟨fun a ha => .inl (h2 ▸ ha), Nat.le_of_eq h3.symm, ?_⟩
  intro j _ hj
  rw [h1]
  unfold upd
  split
  · rename_i e; subst e; rw [h] at hj; cases hj
  · exact hj

theorem ackEff_answer {s s' : LSt} {i : Nat} {b : Ack} (hi : i < s.nextCall) (h1 : s'.thr = upd s.thr i none) (h2 : s'.acks = s.acks ++ [b])
    (h4 : b.id = i) (h3 : s'.nextCall = s.nextCall) : AckEff s s' := by
  refine ⟨?_, Nat.le_of_eq h3.symm, ?_⟩
  · intro a ha
    rw [h2, List.mem_append, List.mem_singleton] at ha
    rcases ha with ha | rfl
    · exact .inl ha
    · refine .inr ⟨by rw [h3, h4]; exact hi, ?_⟩
      rw [h1, h4]; simp [upd]
  · intro j _ hj
    rw [h1]
    unfold upd
    split
    · rfl
    · exact hj

theorem ackEff_start {s s' : LSt} {t : Thread} (h1 : s'.thr = upd s.thr s.nextCall (some t)) (h2 : s'.acks = s.acks)
    (h3 : s'.nextCall = s.nextCall + 1) : AckEff s s' := by
  refine ⟨fun a ha => .inl (h2 ▸ ha), by omega, ?_⟩
  intro j hj h
  rw [h1]
  unfold upd
  rw [if_neg (by omega)]
  exact h

theorem keep_move {s s' : LSt} {i : Nat} {t t' : Thread} (h : s.thr i = some t) (h1 : s'.thr = upd s.thr i (some t')) (h2 : s'.ov = s.ov)
    (h3 : t'.pc.tks = t.pc.tks ∨ t.pc.tks = [])
    (hl : s'.lin = s.lin ∨ ∃ i e, s'.lin = s.lin ++ [(i, e)] ∧ ¬ e.alters := by first | exact .inl rfl | exact .inr ⟨_, _, rfl, fun h => h⟩) : TkEff c s s' := by
  refine .keep h2 ?_ hl
  intro j u hj hu
  rw [h1]
  by_cases e : j = i
  · subst e
    rw [h] at hj
    cases hj
    exact ⟨t', by simp [upd], h3.resolve_right hu⟩
  · exact ⟨u, by simp [upd, e, hj], rfl⟩

theorem keep_answer {s s' : LSt} {i : Nat} {t : Thread} (h : s.thr i = some t) (h1 : s'.thr = upd s.thr i none) (h2 : s'.ov = s.ov)
    (h3 : t.pc.tks = [])
    (hl : s'.lin = s.lin ∨ ∃ i e, s'.lin = s.lin ++ [(i, e)] ∧ ¬ e.alters := by first | exact .inl rfl | exact .inr ⟨_, _, rfl, fun h => h⟩) : TkEff c s s' := by
  refine .keep h2 ?_ hl
  intro j u hj hu
  rw [h1]
  by_cases e : j = i
  · subst e
    rw [h] at hj
    cases hj
    exact absurd h3 hu
  · exact ⟨u, by simp [upd, e, hj], rfl⟩

theorem tk_commitTxn (s : LSt) (idle : Bool) (ws : List (Nat × List Byte)) :
    (commitTxn c s idle ws).1.ov = s.ov ∧ (commitTxn c s idle ws).1.thr = s.thr ∧ (commitTxn c s idle ws).1.acks = s.acks ∧
    (commitTxn c s idle ws).1.nextCall = s.nextCall ∧ (commitTxn c s idle ws).1.lin = s.lin := by
  simp only [commitTxn]
  split <;> exact ⟨rfl, rfl, rfl, rfl, rfl⟩

theorem tk_unlink {s s1 : LSt} {b : Nat} {f : Found} {tk : Overlay.Ticket Cell} {ws : List (Nat × List Byte)} {free : List (Nat × Nat)}
    (h : unlink c s b f = some (s1, tk, ws, free)) : (s1.thr = s.thr ∧ s1.acks = s.acks ∧ s1.nextCall = s.nextCall ∧ s1.lin = s.lin) ∧
    (tk.key = .head b ∨ tk.key = .next (rdId (ofBytes f.raw) 0)) ∧
    ∀ k n y, s1.ov.map k = some (n, y) → s.ov.map k = some (n, y) ∨ tk = ⟨k, n⟩ := by
  unfold unlink at h
  simp only at h
  have key : ∀ (k0 : Cell) (v : Nat) k n y, (s.ov.set k0 v).1.map k = some (n, y) → s.ov.map k = some (n, y) ∨ (s.ov.set k0 v).2 = ⟨k, n⟩ := by
    intro k0 v k n y hk
    simp only [Overlay.Ov.set] at hk ⊢
    split at hk
    · rename_i e
      cases hk
      exact .inr (by rw [e])
    · exact .inl hk
  split at h
  · cases h
  · split at h
    · cases h
      exact ⟨⟨rfl, rfl, rfl, rfl⟩, .inr rfl, fun k n y hk => key _ _ k n y hk⟩
    · cases h
      exact ⟨⟨rfl, rfl, rfl, rfl⟩, .inl rfl, fun k n y hk => key _ _ k n y hk⟩

theorem set_map {ov : Overlay.Ov Cell Nat} {k0 : Cell} {v : Nat} {k : Cell} {n y : Nat} (hk : (ov.set k0 v).1.map k = some (n, y)) :
    ov.map k = some (n, y) ∨ ((ov.set k0 v).2 = ⟨k, n⟩ ∧ k = k0) := by
  simp only [Overlay.Ov.set] at hk ⊢
  split at hk
  · rename_i e
    cases hk
    exact .inr ⟨by rw [e], e⟩
  · exact .inl hk

theorem tk_found {s : LSt} {i : Nat} {st : Begun} {req : Req} {key : List Byte} {cur : Nat} {prev : Option Nat} {raw : List Byte} {inc ex : Option Found}
    (hth : s.thr i = some ⟨st, .walk req key cur prev (some raw) inc ex⟩) (hi : i < s.nextCall) (idle : Bool) (hreq : ∀ id, req ≠ .commit id) :
    AckEff s (onFound c s i ⟨st, .dead⟩ req key ⟨cur, prev, raw⟩ idle) ∧ TkEff c s (onFound c s i ⟨st, .dead⟩ req key ⟨cur, prev, raw⟩ idle) := by
  cases req with
  | look want => exact ⟨ackEff_answer hi rfl rfl rfl rfl, keep_answer hth rfl rfl rfl⟩
  | write id o l =>
    simp only [onFound]
    split
    · exact ⟨ackEff_answer hi rfl rfl rfl rfl, keep_answer hth rfl rfl rfl⟩
    · split
      · exact ⟨ackEff_move hth rfl rfl rfl, keep_move hth rfl rfl (.inl rfl)⟩
      · exact ⟨ackEff_move hth rfl rfl rfl, keep_move hth rfl rfl (.inl rfl)⟩
  | delete want =>
    simp only [onFound]
    split
    · exact ⟨ackEff_move hth rfl rfl rfl, keep_move hth rfl rfl (.inl rfl)⟩
    · rename_i s1 tk ws free hu
      obtain ⟨⟨u1, u2, u3, u4⟩, u5, u6⟩ := tk_unlink hu
      have k := tk_commitTxn (c := c) (event s1 i (.removed key want (rdId (ofBytes raw) 0))) idle ws
      generalize hq : commitTxn c (event s1 i (.removed key want (rdId (ofBytes raw) 0))) idle ws = q at k
      have e1 : upd q.1.thr i (some (⟨st, .wait q.2 free [tk] .deleted⟩ : Thread)) = upd s.thr i (some ⟨st, .wait q.2 free [tk] .deleted⟩) := by
        rw [k.2.1]; simp only [event, u1]
      refine ⟨ackEff_move hth e1 (k.2.2.1.trans u2) (k.2.2.2.1.trans u3), .set i _ _ (.removed key want (rdId (ofBytes raw) 0)) none hth rfl e1
        (k.2.2.2.2.trans (by simp [event, u4])) trivial ?_ (by simp) (fun _ _ _ h => by cases h) (fun _ _ h => by cases h)⟩
      · intro kk n y hk
        have hk : q.1.ov.map kk = some (n, y) := hk
        rw [k.1] at hk
        refine (u6 kk n y hk).imp_right ?_
        rintro rfl
        exact ⟨by simp [PC.tks], u5.imp_left (fun h => ⟨h, fun _ _ h => by cases h⟩)⟩
  | commit id => exact absurd rfl (hreq id)

theorem tk_end {s s' : LSt} (hi : ∀ i t, s.thr i = some t → i < s.nextCall) {i : Nat} {idle : Bool} (ha : act c s (.atEnd i idle) = some s') :
    AckEff s s' ∧ TkEff c s s' := by
  simp only [act] at ha
  split at ha
  · rename_i st req key prev inc ex hth
    cases ha
    have hlt := hi _ _ hth
    unfold onEnd
    cases req with
    | look want => exact ⟨ackEff_answer hlt rfl rfl rfl rfl, keep_answer hth rfl rfl rfl⟩
    | write id o l => exact ⟨ackEff_answer hlt rfl rfl rfl rfl, keep_answer hth rfl rfl rfl⟩
    | delete want => exact ⟨ackEff_answer hlt rfl rfl rfl rfl, keep_answer hth rfl rfl rfl⟩
    | commit id =>
      cases inc with
      | none => exact ⟨ackEff_answer hlt rfl rfl rfl rfl, keep_answer hth rfl rfl rfl⟩
      | some f =>
        have fin : ∀ {s1 : LSt} (tickets : List (Overlay.Ticket Cell)) (ws : List (Nat × List Byte)) (free : List (Nat × Nat)) (x : Option Nat),
            (s1.thr = s.thr ∧ s1.acks = s.acks ∧ s1.nextCall = s.nextCall ∧ s1.lin = s.lin) →
            (∀ k n y, s1.ov.map k = some (n, y) → s.ov.map k = some (n, y) ∨ (⟨k, n⟩ ∈ tickets ∧ (k = .head (c.bkt key) ∧ x ≠ none ∨ ∃ y, x = some y ∧ k = .next y))) →
            (∀ y, x = some y → ∃ f, ex = some f ∧ y = rdId (ofBytes f.raw) 0 ∧ c.versioning = false) →
            AckEff s (setPc (commitTxn c (event { s1 with ov := (s1.ov.set (.state id) stCommitted).1 } i (.committed key id)) idle ws).1 i ⟨st, .dead⟩
              (.wait (commitTxn c (event { s1 with ov := (s1.ov.set (.state id) stCommitted).1 } i (.committed key id)) idle ws).2 free
                ((s1.ov.set (.state id) stCommitted).2 :: tickets) .committed)) ∧
            TkEff c s (setPc (commitTxn c (event { s1 with ov := (s1.ov.set (.state id) stCommitted).1 } i (.committed key id)) idle ws).1 i ⟨st, .dead⟩
              (.wait (commitTxn c (event { s1 with ov := (s1.ov.set (.state id) stCommitted).1 } i (.committed key id)) idle ws).2 free
                ((s1.ov.set (.state id) stCommitted).2 :: tickets) .committed)) := by
          intro s1 tickets ws free x ⟨u1, u2, u3, u4⟩ u5 u6
          generalize hr : s1.ov.set (.state id) stCommitted = r
          have k := tk_commitTxn (c := c) (event { s1 with ov := r.1 } i (.committed key id)) idle ws
          generalize commitTxn c (event { s1 with ov := r.1 } i (.committed key id)) idle ws = q at k
          have e1 : (setPc q.1 i ⟨st, .dead⟩ (.wait q.2 free (r.2 :: tickets) .committed)).thr =
              upd s.thr i (some ⟨st, .wait q.2 free (r.2 :: tickets) .committed⟩) := by
            show upd _ i _ = _
            rw [k.2.1]; simp only [event, u1]
          refine ⟨ackEff_move hth e1 (k.2.2.1.trans u2) (k.2.2.2.1.trans u3), .set i _ _ (.committed key id) x hth rfl e1
            (k.2.2.2.2.trans (by simp [event, u4])) trivial ?_ ?_ (fun _ _ _ h => by cases h) (fun _ _ h => by cases h; exact ⟨_, _, _, _, hth⟩)⟩
          · intro kk n y hk
            have hk : q.1.ov.map kk = some (n, y) := hk
            rw [k.1] at hk
            have hk : r.1.map kk = some (n, y) := hk
            rw [← hr] at hk
            rcases set_map hk with hk | ⟨h1, h2⟩
            · refine (u5 kk n y hk).imp_right ?_
              rintro ⟨h1, h2⟩
              refine ⟨by simp only [PC.tks, List.mem_cons]; exact .inr h1, ?_⟩
              rcases h2 with h2 | h2
              · exact .inl ⟨h2.1, fun _ _ _ => h2.2⟩
              · exact .inr (.inr h2)
            · refine .inr ⟨?_, .inr (.inl h2)⟩
              simp only [PC.tks, List.mem_cons]
              exact .inl (by rw [← hr]; exact h1.symm)
          · intro y hy
            obtain ⟨f', rfl, h2, h3⟩ := u6 y hy
            exact ⟨st, id, key, prev, some f, f', hth, h2, rfl, h3⟩
        cases ex with
        | none => exact fin [] _ [] none ⟨rfl, rfl, rfl, rfl⟩ (fun k n y h => .inl h) (by simp)
        | some e =>
          simp only
          split
          · exact ⟨ackEff_move hth rfl rfl rfl, keep_move hth rfl rfl (.inr rfl)⟩
          · rename_i s1 tk ws free hd
            split at hd
            · cases hd; exact fin [] _ [] none ⟨rfl, rfl, rfl, rfl⟩ (fun k n y h => .inl h) (by simp)
            · rename_i hv
              rw [Option.map_eq_some_iff] at hd
              obtain ⟨⟨s1', tk', ws', free'⟩, hu, hd⟩ := hd
              cases hd
              obtain ⟨w1, w2, w3⟩ := tk_unlink hu
              refine fin [tk'] _ _ (some (rdId (ofBytes e.raw) 0)) w1 ?_ ?_
              · intro k n y hk
                refine (w3 k n y hk).imp_right ?_
                rintro rfl
                exact ⟨by simp, w2.imp (fun h => ⟨h, by simp⟩) (fun h => ⟨_, rfl, h⟩)⟩
              · exact fun y hy => ⟨e, rfl, (Option.some.inj hy).symm, by simpa using hv⟩
  · cases ha

theorem act_tk {s s' : LSt} (hi : ∀ i t, s.thr i = some t → i < s.nextCall)
    (hrel : ∀ i st txn free tks r, s.thr i = some ⟨st, .wait txn free tks r⟩ → ∃ a, s.alloc.releaseAll free = some a)
    {a : Act} (ha : act c s a = some s') : AckEff s s' ∧ TkEff c s s' := by
  have same : ∀ {s' : LSt}, s'.thr = s.thr → s'.acks = s.acks → s'.nextCall = s.nextCall → s'.ov = s.ov → s'.lin = s.lin → AckEff s s' ∧ TkEff c s s' := by
    intro s' h1 h2 h3 h4 h5
    exact ⟨⟨fun a ha => .inl (h2 ▸ ha), Nat.le_of_eq h3.symm, fun j _ h => by rw [h1]; exact h⟩, .keep h4 (fun i t h _ => ⟨t, by rw [h1]; exact h, rfl⟩) (.inl h5)⟩
  have start : ∀ {s' : LSt} {t : Thread}, s'.thr = upd s.thr s.nextCall (some t) → s'.acks = s.acks → s'.nextCall = s.nextCall + 1 → s'.ov = s.ov → s'.lin = s.lin →
      AckEff s s' ∧ TkEff c s s' := by
    intro s' t h1 h2 h3 h4 h5
    refine ⟨ackEff_start h1 h2 h3, .keep h4 ?_ (.inl h5)⟩
    intro j u hj _
    have := hi j u hj
    exact ⟨u, by rw [h1]; unfold upd; rw [if_neg (by omega)]; exact hj, rfl⟩
  cases a with
  | create key size assoc created id =>
    have ha : create c s key size assoc created id = some s' := ha
    unfold create at ha
    split at ha
    · split at ha
      · cases ha
      · simp only at ha
        split at ha
        · cases ha
          refine ⟨⟨?_, Nat.le_succ _, fun j _ h => h⟩, .keep rfl (fun i t h _ => ⟨t, h, rfl⟩) (.inl rfl)⟩
          intro b hb
          simp only [List.mem_append, List.mem_singleton] at hb
          rcases hb with hb | rfl
          · exact .inl hb
          · refine .inr ⟨Nat.lt_succ_self _, ?_⟩
            cases h : s.thr s.nextCall with
            | none => rfl
            | some t => exact absurd (hi _ t h) (Nat.lt_irrefl _)
        · split at ha
          · cases ha
            exact start rfl rfl rfl rfl rfl
          · split at ha <;> cases ha <;> exact start rfl rfl rfl rfl rfl
    · cases ha
  | createWritten i =>
    simp only [act] at ha
    split at ha <;> cases ha
    rename_i hth
    exact ⟨ackEff_move hth rfl rfl rfl, keep_move hth rfl rfl (.inl rfl)⟩
  | createLink i idle =>
    simp only [act] at ha
    split at ha
    · rename_i st o off hth
      split at ha
      · cases ha
        unfold link
        simp only
        generalize hr1 : s.ov.set (.head (c.bkt o.key)) off = r1
        generalize hr2 : r1.1.set (.next o.id) (getHead c s (c.bkt o.key)) = r2
        have k := tk_commitTxn (c := c) (event { s with ov := r2.1 } i (.created o.key o.id o.size)) idle
          [(c.bkDev + bucketOff (c.bkt o.key), encHead off), (off + ObjectOffsets.nextNode, beBytes 6 (getHead c s (c.bkt o.key)))]
        generalize commitTxn c (event { s with ov := r2.1 } i (.created o.key o.id o.size)) idle
          [(c.bkDev + bucketOff (c.bkt o.key), encHead off), (off + ObjectOffsets.nextNode, beBytes 6 (getHead c s (c.bkt o.key)))] = q at k
        have e1 : (setPc q.1 i ⟨st, .dead⟩ (.wait q.2 [] [r1.2, r2.2] (.created o.id))).thr = upd s.thr i (some ⟨st, .wait q.2 [] [r1.2, r2.2] (.created o.id)⟩) := by
          show upd _ i _ = _
          rw [k.2.1]; rfl
        refine ⟨ackEff_move hth e1 (k.2.2.1) (k.2.2.2.1), .set i _ _ (.created o.key o.id o.size) none hth rfl e1 k.2.2.2.2 trivial ?_ (by simp)
          (fun _ _ _ h => by cases h; exact ⟨_, _, _, hth, rfl⟩) (fun _ _ h => by cases h)⟩
        intro kk n y hk
        have hk : q.1.ov.map kk = some (n, y) := hk
        rw [k.1] at hk
        have hk : r2.1.map kk = some (n, y) := hk
        rw [← hr2] at hk
        rcases set_map hk with hk | ⟨h1, h2⟩
        · rw [← hr1] at hk
          rcases set_map hk with hk | ⟨h1, h2⟩
          · exact .inl hk
          · refine .inr ⟨?_, .inl ⟨h2, fun _ _ h => by cases h⟩⟩
            simp only [PC.tks, List.mem_cons]
            exact .inl (by rw [← hr1]; exact h1.symm)
        · refine .inr ⟨?_, .inr h2⟩
          simp only [PC.tks, List.mem_cons]
          exact .inr (.inl (by rw [← hr2]; exact h1.symm))
      · cases ha
    · cases ha
  | lookup req key =>
    simp only [act] at ha
    split at ha
    · cases ha
      exact start rfl rfl rfl rfl rfl
    · cases ha
  | read i =>
    simp only [act] at ha
    split at ha
    · rename_i hth
      split at ha
      · cases ha
      · cases ha
        exact ⟨ackEff_move hth rfl rfl rfl, keep_move hth rfl rfl (.inl rfl)⟩
    · cases ha
  | inode i idle =>
    simp only [act] at ha
    split at ha
    · rename_i st req key cur prev raw inc ex hth
      cases ha
      have mv : ∀ pc, AckEff s (setPc s i ⟨st, .dead⟩ pc) ∧ TkEff c s (setPc s i ⟨st, .dead⟩ pc) :=
        fun pc => ⟨ackEff_move hth rfl rfl rfl, keep_move hth rfl rfl (.inr rfl)⟩
      have fnd : (∀ id, req ≠ .commit id) → AckEff s (onFound c s i ⟨st, .dead⟩ req key ⟨cur, prev, raw⟩ idle) ∧
          TkEff c s (onFound c s i ⟨st, .dead⟩ req key ⟨cur, prev, raw⟩ idle) := fun h => tk_found hth (hi _ _ hth) idle h
      unfold onInode
      simp only
      split
      · split
        · exact mv _
        · cases req with
          | commit id =>
            simp only
            split
            · exact mv _
            · split <;> exact mv _
          | look want => simp only; split; exacts [fnd (by simp), mv _]
          | write id o l => simp only; split; exacts [fnd (by simp), mv _]
          | delete want => simp only; split; exacts [fnd (by simp), mv _]
      · exact mv _
    · cases ha
  | atEnd i idle => exact tk_end hi ha
  | signalled i =>
    simp only [act] at ha
    split at ha
    · rename_i hth
      obtain ⟨al, hal⟩ := hrel _ _ _ _ _ _ hth
      split at ha
      · rw [hal] at ha
        cases ha
        exact ⟨ackEff_move hth rfl rfl rfl, keep_move hth rfl rfl (.inl rfl)⟩
      · cases ha
    · cases ha
  | evict i =>
    simp only [act] at ha
    split at ha <;> cases ha
    rename_i hth
    exact ⟨ackEff_move hth rfl rfl rfl, .evict i _ _ _ hth rfl rfl rfl rfl⟩
  | respond i =>
    simp only [act] at ha
    split at ha <;> cases ha
    rename_i hth
    exact ⟨ackEff_answer (hi _ _ hth) rfl rfl rfl rfl, keep_answer hth rfl rfl rfl⟩
  | data i n skip bytes =>
    simp only [act] at ha
    split at ha
    · split at ha
      · split at ha <;> cases ha
        exact same rfl rfl rfl rfl rfl
      · cases ha
    · cases ha
  | writeEnd i r =>
    simp only [act] at ha
    split at ha <;> cases ha
    rename_i hth
    exact ⟨ackEff_answer (hi _ _ hth) rfl rfl rfl rfl, keep_answer hth rfl rfl rfl⟩
  | drop i =>
    simp only [act] at ha
    split at ha <;> cases ha <;> rename_i hth <;> exact ⟨ackEff_move hth rfl rfl rfl, keep_move hth rfl rfl (.inr rfl)⟩
  | cancel i n bytes =>
    simp only [act] at ha
    split at ha
    · rename_i hth
      split at ha
      · split at ha <;> cases ha
        exact ⟨ackEff_move hth rfl rfl rfl, keep_move hth rfl rfl (.inr rfl)⟩
      · cases ha
    · cases ha
  | orphan n =>
    simp only [act] at ha
    split at ha <;> cases ha
    exact same rfl rfl rfl rfl rfl

/-- the event `e` of call `i` may have set the cell `k` -/
def MaySet (c : LCfg) (lin : List (Nat × Ev)) (i : Nat) (e : Ev) : Cell → Prop
  | .state id => ∃ key, e = .committed key id
  | _ => (∃ key id n, e = .created key id n) ∨ (∃ key w id, e = .removed key w id) ∨ ReplacedIn c lin i e

theorem ReplacedIn.more {lin lin' : List (Nat × Ev)} {i : Nat} {e : Ev} (h : ReplacedIn c lin i e) (hl : lin <+: lin') : ReplacedIn c lin' i e := by
  obtain ⟨hv, pre, post, key, id, x, h1, h2⟩ := h
  obtain ⟨l, rfl⟩ := hl
  exact ⟨hv, pre, post ++ l, key, id, x, by rw [h1]; simp, h2⟩

theorem MaySet.more {lin lin' : List (Nat × Ev)} {i : Nat} {e : Ev} {k : Cell} (h : MaySet c lin i e k) (hl : lin <+: lin') : MaySet c lin' i e k := by
  cases k with
  | state id => exact h
  | _ => exact h.imp_right (fun h => h.imp_right (fun h => h.more hl))

/-- a running call that altered bucket `b` holds this ticket -/
def TWit (c : LCfg) (s : LSt) (b : Nat) (tk : Overlay.Ticket Cell) : Prop :=
  ∃ i e t, (i, e) ∈ s.lin ∧ e.alters ∧ (c.bkt e.key = b ∧ MaySet c s.lin i e tk.key) ∧ s.thr i = some t ∧ tk ∈ t.pc.tks

/-- the cells of bucket `b` -/
def CellOf (v : V) (b : Nat) (k : Cell) : Prop := k = .head b ∨ ∃ r ∈ v.ch b, k = .state r.o.id ∨ k = .next r.o.id

structure QB (c : LCfg) (s : LSt) (v : V) : Prop where
  ack : ∀ a ∈ s.acks, a.id < s.nextCall ∧ s.thr a.id = none
  cell : ∀ b k, CellOf v b k → ∀ n y, s.ov.map k = some (n, y) → TWit c s b ⟨k, n⟩

theorem AckEff.keep {s s' : LSt} (h : AckEff s s') (ha : ∀ a ∈ s.acks, a.id < s.nextCall ∧ s.thr a.id = none) :
    ∀ a ∈ s'.acks, a.id < s'.nextCall ∧ s'.thr a.id = none := by
  intro a hm
  rcases h.acks a hm with hm | hm
  · obtain ⟨h1, h2⟩ := ha a hm
    exact ⟨Nat.lt_of_lt_of_le h1 h.nc, h.thr _ h1 h2⟩
  · exact hm

theorem CellOf.sub {v v' : V} (h : ∀ b, ∀ r ∈ v'.ch b, r ∈ v.ch b) {b : Nat} {k : Cell} (hk : CellOf v' b k) : CellOf v b k :=
  hk.imp_right (fun ⟨r, h1, h2⟩ => ⟨r, h b r h1, h2⟩)

theorem chEff_calm {v v' : V} {e : Ev} (h : ChEff c v v' e) (hn : ¬ e.alters) : v'.ch = v.ch := by
  cases e <;> first | exact h | exact absurd trivial hn

theorem upd_sub {v v' : V} {B : Nat} {pre post : List Rec} {r : Rec} (h1 : v.ch B = pre ++ r :: post) (h2 : v'.ch = upd v.ch B (pre ++ post)) :
    ∀ b, ∀ r ∈ v'.ch b, r ∈ v.ch b := by
  intro b q hq
  rw [h2] at hq
  unfold upd at hq
  split at hq
  · rename_i e
    subst e
    rw [h1]
    simp only [List.mem_append, List.mem_cons] at hq ⊢
    tauto
  · exact hq

theorem qb_act (hc : c.Ok) {s s' : LSt} {base base' : Mem} {v v' : V} {leak leak' : List (Nat × Nat)} (h : LInv c s base v leak)
    (h' : LInv c s' base' v' leak') (hr : ChRel c v v' s.lin s'.lin) (ht : TkEff c s s') (ha : AckEff s s') (hq : QB c s v) : QB c s' v' := by
  refine ⟨ha.keep hq.ack, ?_⟩
  have same : ∀ {b : Nat} {k : Cell}, v'.ch = v.ch → CellOf v' b k → CellOf v b k := by
    intro b k e
    exact CellOf.sub (fun b r hr => by rw [e] at hr; exact hr)
  intro b k hk n y hm
  cases ht with
  | keep h1 h2 h3 =>
    have hch : v'.ch = v.ch := by
      rcases hr with ⟨_, e⟩ | ⟨i, e, e1, e2⟩
      · exact e
      · rcases h3 with h3 | ⟨i', e', h3, h4⟩
        · rw [h3] at e1; simp at e1
        · rw [h3] at e1
          have := List.append_cancel_left e1
          cases this
          exact chEff_calm e2 h4
    have hl : s.lin <+: s'.lin := by
      rcases h3 with h3 | ⟨i', e', h3, h4⟩
      · exact ⟨[], by rw [h3]; simp⟩
      · exact ⟨_, h3.symm⟩
    obtain ⟨i, e, t, g1, g2, g3, g4, g5⟩ := hq.cell b k (same hch hk) n y (by rw [← h1]; exact hm)
    obtain ⟨t', k1, k2⟩ := h2 i t g4 (fun e => by rw [e] at g5; cases g5)
    exact ⟨i, e, t', hl.subset g1, g2, ⟨g3.1, g3.2.more hl⟩, k1, by rw [k2]; exact g5⟩
  | evict i t t' k0 h1 h2 h3 h4 h5 =>
    have hch : v'.ch = v.ch := by
      rcases hr with ⟨_, e⟩ | ⟨i, e, e1, e2⟩
      · exact e
      · rw [h5] at e1; simp at e1
    rw [h4] at hm
    have hne : s.ov.map k = some (n, y) ∧ (⟨k, n⟩ : Overlay.Ticket Cell) ≠ k0 := by
      simp only [Overlay.Ov.evict] at hm
      split at hm
      · rename_i e
        subst e
        split at hm
        · rename_i n' y' e
          split at hm
          · cases hm
          · rename_i hn
            cases hm
            exact ⟨e, fun e => hn (by rw [← e])⟩
        · cases hm
      · rename_i hn
        exact ⟨hm, fun e => hn (by rw [← e])⟩
    obtain ⟨j, e, u, g1, g2, g3, g4, g5⟩ := hq.cell b k (same hch hk) n y hne.1
    by_cases hj : j = i
    · subst hj
      rw [h1] at g4
      cases g4
      rw [h2, List.mem_cons] at g5
      exact ⟨j, e, t', by rw [h5]; exact g1, g2, by rw [h5]; exact g3, by rw [h3]; simp [upd], g5.resolve_left hne.2⟩
    · exact ⟨j, e, u, by rw [h5]; exact g1, g2, by rw [h5]; exact g3, by rw [h3]; simp [upd, hj, g4], g5⟩
  | set i t t' e x h1 h2 h3 h4 h5 h6 h7 h8 h9 =>
    have he : ChEff c v v' e := by
      rcases hr with ⟨e1, _⟩ | ⟨i', e', e1, e2⟩
      · rw [h4] at e1; simp at e1
      · rw [h4] at e1
        have := List.append_cancel_left e1
        cases this
        exact e2
    have uniq : ∀ {v : V} {s : LSt} {base : Mem} {leak : List (Nat × Nat)}, LInv c s base v leak → ∀ {b B : Nat} {r r0 : Rec}, r ∈ v.ch b → r0 ∈ v.ch B → r.o.id = r0.o.id → B = b := by
      intro v s base leak h b B r r0 hr hr0 hid
      have := h.good.uniqId (linked_of hc h hr) (linked_of hc h hr0) hid
      cases this
      rw [← h.good.chb _ _ hr, ← h.good.chb _ _ hr0]
    have sub : (∃ k id size, e = .created k id size) ∨ ∀ b, ∀ r ∈ v'.ch b, r ∈ v.ch b := by
      cases e with
      | created k id size => exact .inl ⟨_, _, _, rfl⟩
      | committed k id =>
        right
        rcases he with he | ⟨pre, r, post, q1, _, _, _, q2⟩
        · intro b r hr; rw [he] at hr; exact hr
        · exact upd_sub q1 q2
      | removed k w id =>
        obtain ⟨pre, r, post, q1, _, _, q2⟩ := he
        exact .inr (upd_sub q1 q2)
      | _ => cases h5
    rcases h6 k n y hm with hold | ⟨hnew, hset⟩
    · have hk0 : CellOf v b k := by
        rcases sub with ⟨key, id, size, rfl⟩ | sub
        · obtain ⟨st, o, off, g1, g2⟩ := h8 _ _ _ rfl
          have hf := (h.thr i _ g1).2.1
          rcases hk with hk | ⟨r, q1, q2⟩
          · exact .inl hk
          · by_cases hid : r.o.id = id
            · exfalso
              have : v.ov.map (.state id) ≠ none ∨ v.ov.map (.next id) ≠ none := by
                rw [h.ov, ← hid]
                rcases q2 with rfl | rfl
                · exact .inl (by rw [hold]; simp)
                · exact .inr (by rw [hold]; simp)
              exact (h.good.ovid id this).2 i _ hf g2
            · obtain ⟨r0, p1, p2, p3, p4⟩ := he
              refine .inr ⟨r, ?_, q2⟩
              rw [p4] at q1
              unfold upd at q1
              split at q1
              · rename_i e
                rcases List.mem_cons.1 q1 with rfl | q1
                · exact absurd p1 hid
                · rw [e]; exact q1
              · exact q1
        · exact hk.sub sub
      obtain ⟨j, e', u, g1, g2, g3, g4, g5⟩ := hq.cell b k hk0 n y hold
      have hj : j ≠ i := by
        rintro rfl
        rw [h1] at g4
        cases g4
        rw [h2] at g5
        cases g5
      exact ⟨j, e', u, by rw [h4]; simp [g1], g2, ⟨g3.1, g3.2.more ⟨_, h4.symm⟩⟩, by rw [h3]; simp [upd, hj, g4], g5⟩
    · have hrep : ∀ key id, e = .committed key id → x ≠ none → ReplacedIn c s'.lin i e := by
        intro key id he hx
        cases x with
        | none => exact absurd rfl hx
        | some y =>
          obtain ⟨st', id', key', prev', inc', f', g2, g3, g4, g5⟩ := h7 y rfl
          subst he
          obtain ⟨st, prev, f, ex, g1⟩ := h9 _ _ rfl
          rw [g1] at g2
          cases g2
          obtain ⟨_, pre, i', k', id', x', q1, q2, q3⟩ := direct_replaces h ⟨g5, _, _, _, _, _, _, g1, rfl⟩ h4
          rw [h4] at q1
          obtain ⟨q4, q5⟩ := List.append_inj' q1 rfl
          cases q5
          exact ⟨g5, pre, [], key, id, x', by rw [h4, q4], rfl, q2, q3⟩
      refine ⟨i, e, t', by rw [h4]; simp, h5, ⟨?_, ?_⟩, by rw [h3]; simp [upd], hnew⟩
      rotate_left
      · rcases hset with ⟨rfl, hx⟩ | hset
        · show _ ∨ _ ∨ _
          cases e with
          | created key id n => exact .inl ⟨_, _, _, rfl⟩
          | committed key id => exact .inr (.inr (hrep _ _ rfl (hx _ _ rfl)))
          | removed key w id => exact .inr (.inl ⟨_, _, _, rfl⟩)
          | _ => cases h5
        · cases e with
          | created key id n =>
            simp only at hset
            subst hset
            exact .inl ⟨_, _, _, rfl⟩
          | committed key id =>
            rcases hset with rfl | ⟨z, hz, rfl⟩
            · exact ⟨_, rfl⟩
            · exact .inr (.inr (hrep _ _ rfl (by rw [hz]; simp)))
          | removed key w id =>
            simp only at hset
            subst hset
            exact .inr (.inl ⟨_, _, _, rfl⟩)
          | _ => cases h5
      rcases hset with ⟨rfl, hx⟩ | hset
      · rcases hk with hk | ⟨r, _, hk | hk⟩
        · cases hk; rfl
        · cases hk
        · cases hk
      · cases e with
        | created key id size =>
          simp only at hset
          subst hset
          obtain ⟨r0, p1, p2, p3, p4⟩ := he
          rcases hk with hk | ⟨r, q1, hk | hk⟩
          · cases hk
          · cases hk
          · simp only [Cell.next.injEq] at hk
            exact uniq h' q1 (r0 := r0) (B := c.bkt key) (by rw [p4]; simp [upd]) (by rw [p1, hk])
        | committed key id =>
          have sub := sub.resolve_left (by rintro ⟨_, _, _, h⟩; cases h)
          obtain ⟨st, prev, f, ex, g1⟩ := h9 _ _ rfl
          rcases hset with rfl | ⟨z, rfl, rfl⟩
          · obtain ⟨vis, rest, a1, _, _, _, a5⟩ := (h.thr i _ g1).2
            obtain ⟨pre, r0, post, b1, b2, _⟩ := a5.1
            rcases hk with hk | ⟨r, q1, hk | hk⟩
            · cases hk
            · simp only [Cell.state.injEq] at hk
              refine uniq h (sub _ _ q1) (r0 := r0) (B := c.bkt key) (by rw [a1, b1]; simp) ?_
              have := b2.2.2
              simp only [reduceCtorEq, Option.some.injEq, false_or] at this
              rw [← hk, this]
            · cases hk
          · obtain ⟨st', id', key', prev', inc', f', g2, g3, g4, -⟩ := h7 _ rfl
            obtain ⟨vis, rest, a1, _, _, _, a5⟩ := (h.thr i _ g2).2
            obtain ⟨pre, r0, post, b1, _, _, _, b5⟩ := a5.2
            rcases hk with hk | ⟨r, q1, hk | hk⟩
            · cases hk
            · cases hk
            · simp only [Cell.next.injEq] at hk
              rw [g4]
              refine uniq h (sub _ _ q1) (r0 := r0) (B := c.bkt key') (by rw [a1, b1]; simp) ?_
              rw [← hk, g3, b5.id]
        | removed key want id =>
          have sub := sub.resolve_left (by rintro ⟨_, _, _, h⟩; cases h)
          simp only at hset
          subst hset
          obtain ⟨pre, r0, post, p1, p2, p3, p4⟩ := he
          rcases hk with hk | ⟨r, q1, hk | hk⟩
          · cases hk
          · cases hk
          · simp only [Cell.next.injEq] at hk
            exact uniq h (sub _ _ q1) (r0 := r0) (B := c.bkt key) (by rw [p1]; simp) (by rw [p2, hk])
        | _ => cases h5

theorem reach_qb (hc : c.Ok) {s : LSt} (hr : Reach c s) (hf : s.faults = []) : ∃ base v leak, LInv c s base v leak ∧ QB c s v := by
  induction hr with
  | fresh h =>
    obtain ⟨base, v, leak, hi⟩ := fresh_inv hc h
    refine ⟨base, v, leak, hi, ?_⟩
    unfold fresh at h
    split at h
    · cases h
      exact ⟨(fun a ha => by cases ha), (fun b k _ n y hm => by cases hm)⟩
    · cases h
  | step hr hs ih =>
    cases hs with
    | act a h =>
      obtain ⟨base, v, leak, hi, hq⟩ := ih (act_faults h hf)
      obtain ⟨b', v', l', h', hrel⟩ := step_act hc hi h hf
      obtain ⟨e1, e2⟩ := act_tk (c := c) (fun i t ht => (hi.thr i t ht).1) (fun i st txn free tks r ht => release_ok hi ht rfl) h
      exact ⟨b', v', l', h', qb_act hc hi h' hrel e2 e1 hq⟩
    | journal h hh =>
      obtain ⟨base, v, leak, hi, hq⟩ := ih hf
      obtain ⟨b', v', h', e⟩ := step_journal hc hi h hh
      refine ⟨b', v', leak, h', ⟨hq.ack, ?_⟩⟩
      intro b k hk n y hm
      exact hq.cell b k (hk.sub (fun b r hr => by rw [e] at hr; exact hr)) n y hm

/-- the device shows bucket `b` as it is when the overlay has nothing about it -/
theorem bucket_of (hc : c.Ok) {s : LSt} {base : Mem} {v : V} {leak : List (Nat × Nat)} (h : LInv c s base v leak) {b : Nat} (hb : b < 2 ^ c.bits)
    (hq : ∀ k, CellOf v b k → s.ov.map k = none) : BucketShows c s.j.dev (absOf c v) b := by
  have ge := h.geo hc
  have hl : ∀ r ∈ v.ch b, (Own.linked, r) ∈ v.recs := fun r hr => linked_of hc h hr
  have hst : ∀ r ∈ v.ch b, rdState s.j.dev r.off = rdState v.L r.off := fun r hr =>
    dev_state hc h.good ge h.jinv h.L h.U (hl r hr) (by rw [h.ov]; exact hq _ (.inr ⟨r, hr, .inl rfl⟩))
  have hnx : ∀ r ∈ v.ch b, rdNext s.j.dev r.off = rdNext v.L r.off := fun r hr =>
    dev_next hc h.good ge h.jinv h.L h.U (hl r hr) (by rw [h.ov]; exact hq _ (.inr ⟨r, hr, .inr rfl⟩))
  have hhd : rdHead s.j.dev c.bkDev b = rdHead v.L c.bkDev b := dev_head hc h.good ge h.jinv h.L h.U hb (by rw [h.ov]; exact hq _ (.inl rfl))
  have hch : DevChain s.j.dev (rdHead s.j.dev c.bkDev b) ((v.ch b).map Rec.off) := by
    have hseg := h.good.chain b hb
    rw [← hhd] at hseg
    have hpos : ∀ r ∈ v.ch b, r.off ≠ 0 := by
      intro r hr
      have := ge.off (hl r hr)
      have := hc.heapPos
      simp only at *
      omega
    generalize rdHead s.j.dev c.bkDev b = hd at hseg
    generalize v.ch b = l at hseg hnx hpos
    induction l generalizing hd with
    | nil =>
      have : hd = 0 := hseg
      subst this
      exact .nil
    | cons r l ih =>
      obtain ⟨e1, e2⟩ := hseg
      subst e1
      refine .cons (hpos r (by simp)) ?_
      rw [hnx r (by simp)]
      refine ih _ ?_ ?_ ?_
      all_goals first | exact e2 | exact fun r hr => hnx r (by simp [hr]) | exact fun r hr => hpos r (by simp [hr])
  refine ⟨_, hch, h.good.chn b, ?_, ?_⟩
  · intro off ho
    obtain ⟨r, hr, rfl⟩ := List.mem_map.1 ho
    rw [hst r hr]; exact (h.good.att r (hl r hr)).2
  intro k hk
  unfold absOf
  rw [hk]
  have hm : ∀ r ∈ v.ch b, rdKey s.j.dev r.off = r.o.key ∧
      (⟨rdId s.j.dev r.off, rdSize s.j.dev r.off, decide (rdState s.j.dev r.off = stCommitted)⟩ : Ver) = ver v.L r := by
    intro r hr
    have hf := inode_fields hc h (hl r hr)
    refine ⟨hf.2.1, ?_⟩
    have he := verAt_eq hc h hr
    unfold verAt ver at he
    unfold ver
    simp only [Ver.mk.injEq] at he ⊢
    exact ⟨he.1, he.2.1, by rw [hst r hr]⟩
  generalize v.ch b = l at hm
  clear hst hnx hch hl
  induction l with
  | nil => rfl
  | cons r l ih =>
    have h1 := hm r (by simp)
    have ih := ih (fun r hr => hm r (by simp [hr]))
    simp only [List.map_cons, List.filter_cons, h1.1]
    split
    · simp only [List.map_cons, ih, h1.2]
    · exact ih

/-- a bucket no running call has altered is on the device -/
theorem quiet_bucket (hc : c.Ok) {s : LSt} (hr : Reach c s) (hf : s.faults = []) {b : Nat} (hb : b < 2 ^ c.bits)
    (hq : Answered c s b) :
    ∃ x, absRun c.versioning (s.lin.map (·.2)) = some x ∧ BucketShows c s.j.dev x b := by
  obtain ⟨base, v, leak, h, q⟩ := reach_qb hc hr hf
  refine ⟨_, h.abs, bucket_of hc h hb ?_⟩
  intro k hk
  cases hm : s.ov.map k with
  | none => rfl
  | some p =>
    obtain ⟨n, y⟩ := p
    obtain ⟨i, e, t, g1, g2, g3, g4, _⟩ := q.cell b k hk n y hm
    obtain ⟨a, ha, rfl⟩ := hq i e g1 g3.1 (by
      cases e with
      | created k id n => exact .inl ⟨_, _, _, rfl⟩
      | committed k id => exact .inr (.inl ⟨_, _, rfl⟩)
      | removed k w id => exact .inr (.inr ⟨_, _, _, rfl⟩)
      | _ => exact g2.elim)
    rw [(q.ack a ha).2] at g4
    cases g4

/-! ## Looking an object up on a device that shows its bucket -/

/-- the fields of a copy of an inode are those of the inode -/
theorem copy_fields (m : Mem) (off : Nat) :
    let raw := m.read off ({ keyLen := rdKeyLen m off } : ObjectOffsets).lpages
    rdId (ofBytes raw) 0 = rdId m off ∧ rdSize (ofBytes raw) 0 = rdSize m off ∧ rdKey (ofBytes raw) 0 = rdKey m off ∧
    rdState (ofBytes raw) 0 = rdState m off ∧ rdNext (ofBytes raw) 0 = rdNext m off := by
  obtain ⟨c1, c2, c3, c4, c5, c6, c7, c8⟩ := consts
  have hlen : ({ keyLen := rdKeyLen m off } : ObjectOffsets).lpages = 37 + rdKeyLen m off := by
    simp only [ObjectOffsets.lpages, c8]
  simp only [hlen]
  have rd : ∀ a l, a + l ≤ 37 + rdKeyLen m off →
      (ofBytes (m.read off (37 + rdKeyLen m off))).read (0 + a) l = m.read (off + a) l := fun a l h => read_ofBytes h
  have hkl : rdKeyLen (ofBytes (m.read off (37 + rdKeyLen m off))) 0 = rdKeyLen m off := by
    generalize hn : rdKeyLen m off = n at rd ⊢
    refine Eq.trans ?_ hn
    unfold rdKeyLen rdBe; rw [rd _ _ (by rw [c7]; omega)]
  refine ⟨?_, ?_, ?_, ?_, ?_⟩
  · unfold rdId rdBe; rw [rd _ _ (by rw [c6]; omega)]
  · unfold rdSize rdBe; rw [rd _ _ (by rw [c5]; omega)]
  · unfold rdKey; rw [hkl, rd _ _ (by rw [c8])]
  · unfold rdState; rw [rd _ _ (by rw [c1]; omega)]
  · unfold rdNext rdBe; rw [rd _ _ (by rw [c3]; omega)]

theorem looking_trans {j k1 : Nat} {s s1 : LSt} (h1 : Looking c j k1 s s1) : ∀ {k2 : Nat} {s2 : LSt}, Looking c j k2 s1 s2 → Looking c j (k1 + k2) s s2 := by
  intro k2 s2 h2
  induction h2 with
  | refl => exact h1
  | step _ ha hb ih => exact .step (ih h1) ha hb

/-- the inode at `off` is what an inspect looks for -/
def Hits (m : Mem) (key : List Byte) (want : Option Nat) (off : Nat) : Prop :=
  rdKey m off = key ∧ rdState m off = stCommitted ∧ (want = none ∨ want = some (rdId m off))

/-- where a lookup is: `n` actions before its answer at the latest -/
def Walks (c : LCfg) (m : Mem) (x : Abs) (l : List Nat) (key : List Byte) (want : Option Nat) (i : Nat) (acks : List Ack) (n : Nat) (s : LSt) : Prop :=
  (n = 0 ∧ s.thr i = none ∧ ∃ k, s.acks = acks ++ [k] ∧ k.id = i ∧ AnswersAs x key want k.resp) ∨
  (s.ov = {} ∧ s.j.dev = m ∧ s.acks = acks ∧ ∃ st vis rest cur prev raw, s.thr i = some ⟨st, .walk (.look want) key cur prev raw none none⟩ ∧
    l = vis ++ rest ∧ DevChain m cur rest ∧ (∀ off ∈ vis, ¬ Hits m key want off) ∧
    ((raw = none ∧ n = 2 * rest.length + 1) ∨ (rest ≠ [] ∧ n = 2 * rest.length ∧ raw = some (m.read cur ({ keyLen := rdKeyLen m cur } : ObjectOffsets).lpages))))

section
variable {m : Mem} {x : Abs} {b : Nat} {l : List Nat} {key : List Byte} {want : Option Nat} {i : Nat} {acks : List Ack}

theorem look_none (hs : ∀ k, c.bkt k = b → (l.filter (fun off => rdKey m off = k)).map (fun off => (⟨rdId m off, rdSize m off, decide (rdState m off = stCommitted)⟩ : Ver)) = x k)
    (hk : c.bkt key = b) (hn : ∀ off ∈ l, ¬ Hits m key want off) : x.find key want = none := by
  unfold Abs.find
  rw [← hs key hk, List.find?_eq_none]
  intro v hv
  obtain ⟨off, ho, rfl⟩ := List.mem_map.1 hv
  obtain ⟨h1, h2⟩ := List.mem_filter.1 ho
  intro hcon
  simp only [Bool.and_eq_true, decide_eq_true_eq, wants, Bool.or_eq_true, Option.isNone_iff_eq_none, beq_iff_eq] at hcon h2
  exact hn off h1 ⟨h2, hcon.1, hcon.2⟩

theorem look_some (hs : ∀ k, c.bkt k = b → (l.filter (fun off => rdKey m off = k)).map (fun off => (⟨rdId m off, rdSize m off, decide (rdState m off = stCommitted)⟩ : Ver)) = x k)
    (hk : c.bkt key = b) {vis rest : List Nat} {off : Nat} (hl : l = vis ++ off :: rest) (hn : ∀ off ∈ vis, ¬ Hits m key want off) (ho : Hits m key want off) :
    x.find key want = some ⟨rdId m off, rdSize m off, true⟩ := by
  unfold Abs.find
  rw [← hs key hk, hl, List.filter_append, List.map_append, List.find?_append]
  have h0 : ((vis.filter (fun off => rdKey m off = key)).map (fun off => (⟨rdId m off, rdSize m off, decide (rdState m off = stCommitted)⟩ : Ver))).find?
      (fun v => v.committed && wants want v) = none := by
    rw [List.find?_eq_none]
    intro v hv
    obtain ⟨off, ho, rfl⟩ := List.mem_map.1 hv
    obtain ⟨h1, h2⟩ := List.mem_filter.1 ho
    intro hcon
    simp only [Bool.and_eq_true, decide_eq_true_eq, wants, Bool.or_eq_true, Option.isNone_iff_eq_none, beq_iff_eq] at hcon h2
    exact hn off h1 ⟨h2, hcon.1, hcon.2⟩
  rw [h0, Option.none_or]
  have h1 : (off :: rest).filter (fun off => rdKey m off = key) = off :: rest.filter (fun off => rdKey m off = key) := by
    rw [List.filter_cons, if_pos (by simp [ho.1])]
  rw [h1, List.map_cons, List.find?_cons_of_pos]
  · simp [ho.2.1]
  · simp only [Bool.and_eq_true, decide_eq_true_eq, wants, Bool.or_eq_true, Option.isNone_iff_eq_none, beq_iff_eq]
    exact ⟨ho.2.1, ho.2.2⟩

variable (hst : ∀ off ∈ l, rdState m off = stIncomplete ∨ rdState m off = stCommitted)
  (hs : ∀ k, c.bkt k = b → (l.filter (fun off => rdKey m off = k)).map (fun off => (⟨rdId m off, rdSize m off, decide (rdState m off = stCommitted)⟩ : Ver)) = x k)
  (hk : c.bkt key = b)
include hst hs hk

/-- processing the inode just read -/
theorem walks_inode {s : LSt} {st : Begun} {vis rest : List Nat} {cur : Nat} {prev : Option Nat} {raw : List Byte} (idle : Bool) (h1 : s.ov = {}) (h2 : s.j.dev = m)
    (h3 : s.acks = acks) (hl : l = vis ++ rest) (hch : DevChain m cur rest) (hv : ∀ off ∈ vis, ¬ Hits m key want off)
    (hne : rest ≠ []) (hraw : raw = m.read cur ({ keyLen := rdKeyLen m cur } : ObjectOffsets).lpages) :
    ∃ n, n < 2 * rest.length ∧ Walks c m x l key want i acks n (onInode c s i ⟨st, .dead⟩ (.look want) key cur prev raw none none idle) := by
  cases hch with
  | nil => exact absurd rfl hne
  | @cons _ l' h0 hch =>
    obtain ⟨f1, f2, f3, f4, f5⟩ := copy_fields m cur
    simp only [← hraw] at f1 f2 f3 f4 f5
    clear hraw
    have e1 : rawState s raw = rdState m cur := by
      unfold rawState; rw [h1]; simpa [Overlay.Ov.get] using f4
    have e2 : rawNext s raw = rdNext m cur := by
      unfold rawNext; rw [h1]; simpa [Overlay.Ov.get] using f5
    have hgo : ¬ Hits m key want cur → ∃ n, n < 2 * (cur :: l').length ∧ Walks c m x l key want i acks n
        (setPc s i ⟨st, .dead⟩ (.walk (.look want) key (rdNext m cur) (some cur) none none none)) := by
      intro hn
      refine ⟨2 * l'.length + 1, by simp only [List.length_cons]; omega, .inr ⟨h1, h2, h3, st, vis ++ [cur], l', rdNext m cur, some cur, none, by simp [setPc, upd],
        by simp [hl], hch, ?_, .inl ⟨rfl, rfl⟩⟩⟩
      intro off ho
      rcases List.mem_append.1 ho with ho | ho
      · exact hv off ho
      · rw [List.mem_singleton.1 ho]; exact hn
    unfold onInode
    simp only [f3, e1, e2]
    have hsc := hst cur (by rw [hl]; simp)
    split
    · rename_i hkey
      have hns : ¬ (rdState m cur ≠ stIncomplete ∧ rdState m cur ≠ stCommitted) := fun h => hsc.elim h.1 h.2
      rw [if_neg hns]
      by_cases hm : rdState m cur = (Req.look want).expects.1 ∧ ((Req.look want).expects.2.isNone = true ∨ (Req.look want).expects.2 = some (rdId (ofBytes raw) 0))
      · rw [if_pos hm]
        have hit : Hits m key want cur := ⟨hkey, hm.1, by
          rcases hm.2 with h | h
          · exact .inl (Option.isNone_iff_eq_none.1 h)
          · exact .inr (f1 ▸ h)⟩
        refine ⟨0, by simp, .inl ⟨rfl, by simp [onFound, respond, event, upd], ?_⟩⟩
        refine ⟨_, by simp only [onFound, respond, event]; rw [h3], rfl, ?_⟩
        unfold AnswersAs
        rw [look_some hs hk hl hv hit]
        exact ⟨cur, by simp only [f1, f2]⟩
      · rw [if_neg hm]
        refine hgo (fun hh => hm ⟨hh.2.1, ?_⟩)
        rcases hh.2.2 with h | h
        · exact .inl (Option.isNone_iff_eq_none.2 h)
        · exact .inr (f1.symm ▸ h)
    · rename_i hkey
      exact hgo (fun hh => hkey hh.1)

theorem walks_act {n : Nat} {s s' : LSt} {a : Act} (h : Walks c m x l key want i acks n s) (hl : a.looks i) (ha : act c s a = some s') :
    ∃ n', n' < n ∧ Walks c m x l key want i acks n' s' := by
  rcases h with ⟨_, h, _⟩ | ⟨h1, h2, h3, st, vis, rest, cur, prev, raw, g1, g2, g3, g4, g5⟩
  · cases a <;> simp only [Act.looks] at hl <;> subst hl <;> simp [act, h] at ha
  · cases a with
    | read j =>
      cases hl
      simp only [act, g1] at ha
      rcases g5 with ⟨rfl, rfl⟩ | ⟨_, _, rfl⟩
      · simp only at ha
        split at ha
        · cases ha
        · rename_i hc0
          cases ha
          have hne : rest ≠ [] := by
            rintro rfl
            cases g3
            exact hc0 rfl
          refine ⟨2 * rest.length, by omega, .inr ⟨h1, h2, h3, st, vis, rest, cur, prev, _, by simp [setPc, upd]; rfl, g2, g3, g4, .inr ⟨hne, rfl, by rw [h2]⟩⟩⟩
      · simp at ha
    | inode j idle =>
      cases hl
      simp only [act, g1] at ha
      rcases g5 with ⟨rfl, rfl⟩ | ⟨hne, rfl, rfl⟩
      · simp at ha
      · simp only [Option.some.injEq] at ha
        subst ha
        exact walks_inode hst hs hk idle h1 h2 h3 g2 g3 g4 hne rfl
    | atEnd j idle =>
      cases hl
      simp only [act, g1] at ha
      rcases g5 with ⟨rfl, rfl⟩ | ⟨hne, rfl, rfl⟩
      · cases g3 with
        | nil =>
          simp only [Option.some.injEq] at ha
          subst ha
          refine ⟨0, by simp, .inl ⟨rfl, by simp [onEnd, respond, event, upd], ?_⟩⟩
          refine ⟨_, by simp only [onEnd, respond, event]; rw [h3], rfl, ?_⟩
          unfold AnswersAs
          rw [look_none hs hk (fun off ho => g4 off (by rw [g2] at ho; simpa using ho))]
        | cons h0 _ =>
          split at ha
          · rename_i e
            simp only [Option.some.injEq, Thread.mk.injEq, PC.walk.injEq] at e
            exact absurd e.2.2.2.1 h0
          · cases ha
      · split at ha
        · rename_i e
          simp at e
        · cases ha
    | _ => cases hl

omit hst hs hk in
/-- the lookup can always go on until it answers -/
theorem walks_next {n : Nat} {s : LSt} (h : Walks c m x l key want i acks n s) : n = 0 ∨ ∃ a s', a.looks i ∧ act c s a = some s' := by
  rcases h with ⟨h, _⟩ | ⟨h1, h2, h3, st, vis, rest, cur, prev, raw, g1, g2, g3, g4, g5⟩
  · exact .inl h
  · right
    rcases g5 with ⟨rfl, rfl⟩ | ⟨hne, rfl, rfl⟩
    · cases g3 with
      | nil => exact ⟨.atEnd i false, _, rfl, by simp only [act, g1]; rfl⟩
      | cons h0 _ => exact ⟨.read i, _, rfl, by simp only [act, g1]; rw [if_neg h0]⟩
    · exact ⟨.inode i false, _, rfl, by simp only [act, g1]; rfl⟩

theorem walks_run {n : Nat} {s s' : LSt} {k : Nat} (h : Walks c m x l key want i acks n s) (hr : Looking c i k s s') :
    ∃ n', n' + k ≤ n ∧ Walks c m x l key want i acks n' s' := by
  induction hr with
  | refl => exact ⟨n, Nat.le_refl _, h⟩
  | step _ h1 h2 ih =>
    obtain ⟨n1, g1, g2⟩ := ih h
    obtain ⟨n2, g3, g4⟩ := walks_act hst hs hk g2 h1 h2
    exact ⟨n2, by omega, g4⟩

theorem walks_ends : ∀ {n : Nat} {s : LSt}, Walks c m x l key want i acks n s → ∃ k s', Looking c i k s s' ∧ Walks c m x l key want i acks 0 s' := by
  intro n
  induction n using Nat.strongRecOn with
  | ind n ih =>
    intro s h
    rcases walks_next h with rfl | ⟨a, s', h1, h2⟩
    · exact ⟨0, s, .refl, h⟩
    · obtain ⟨n', g1, g2⟩ := walks_act hst hs hk h h1 h2
      obtain ⟨k, s2, g3, g4⟩ := ih n' g1 g2
      exact ⟨_, s2, looking_trans (.step .refl h1 h2) g3, g4⟩

end

/-- on a device that shows the key's bucket an inspect comes to an end and answers what the bucket says -/
theorem look_answers {m : Mem} {x : Abs} {b : Nat} (hb : BucketShows c m x b) {s : LSt} (h1 : s.ov = {}) (h2 : s.j.dev = m) (h3 : s.thr = fun _ => none)
    {key : List Byte} (hk : c.bkt key = b) (want : Option Nat) :
    ∃ s1, act c s (.lookup (.look want) key) = some s1 ∧ (∃ N, ∀ n s2, Looking c s.nextCall n s1 s2 → n ≤ N) ∧
      ∀ n s2, Looking c s.nextCall n s1 s2 → (∀ a ∈ s2.acks, a ∈ s.acks ∨ (a.id = s.nextCall ∧ AnswersAs x key want a.resp)) ∧
        ∃ n' s3 a, Looking c s.nextCall n' s2 s3 ∧ s3.acks = s.acks ++ [a] ∧ a.id = s.nextCall ∧ AnswersAs x key want a.resp := by
  obtain ⟨l, g1, _, g3, g4⟩ := hb
  have hlk : canLock c s (c.bkt key) (Req.look want).exclusive = true := by
    unfold canLock
    rw [List.all_eq_true]
    intro j _
    rw [h3]; rfl
  refine ⟨_, by simp only [act]; rw [if_pos hlk], ?_⟩
  have hw : Walks c m x l key want s.nextCall s.acks (2 * l.length + 1) { s with
        thr := upd s.thr s.nextCall (some ⟨⟨.lookup (.look want) key, s.lin.length⟩, .walk (.look want) key (getHead c s (c.bkt key)) none none none none⟩)
        nextCall := s.nextCall + 1 } := by
    refine .inr ⟨h1, h2, rfl, ⟨.lookup (.look want) key, s.lin.length⟩, [], l, getHead c s (c.bkt key), none, none, by simp only [upd, if_true], rfl, ?_, (fun _ h => by cases h), .inl ⟨rfl, rfl⟩⟩
    rw [hk]
    unfold getHead
    rw [h1, h2]
    simpa [Overlay.Ov.get] using g1
  refine ⟨⟨2 * l.length + 1, fun n s2 hr => ?_⟩, ?_⟩
  · obtain ⟨n', e, _⟩ := walks_run g3 g4 hk hw hr
    omega
  · intro n s2 hr
    obtain ⟨n', _, hw2⟩ := walks_run g3 g4 hk hw hr
    constructor
    · intro a ha
      rcases hw2 with ⟨_, _, k, e1, e2, e3⟩ | ⟨_, _, e, _⟩
      · rw [e1, List.mem_append, List.mem_singleton] at ha
        rcases ha with ha | rfl
        · exact .inl ha
        · exact .inr ⟨e2, e3⟩
      · exact .inl (e ▸ ha)
    · obtain ⟨k, s3, e1, e2⟩ := walks_ends g3 g4 hk hw2
      rcases e2 with ⟨_, _, a, q1, q2, q3⟩ | ⟨_, _, _, _, _, _, _, _, _, _, _, _, _, q⟩
      · exact ⟨k, s3, a, e1, q1, q2, q3⟩
      · rcases q with ⟨_, q⟩ | ⟨q0, q, _⟩
        · omega
        · have : 0 < _ := List.length_pos_iff.2 q0
          omega

end
/-! ## A store with two buckets in use -/

/-- as `rcfg 0`, but the key `[1]` is in bucket 102 -/
def qcfg : LCfg := { rcfg 0 with hash := fun k => if k = [1] then 102 * 2 ^ 52 else 0 }

theorem qcfg_ok : qcfg.Ok := by
  obtain ⟨h1, h2, h3, h4, h5, h6, h7, h8, h9, h10, _, h12, h13⟩ := rcfg_ok 0 (by decide)
  refine ⟨h1, h2, h3, h4, h5, h6, h7, h8, h9, h10, ?_, h12, h13⟩
  intro k
  simp only [qcfg]
  split <;> decide

def qrun (xs : List Cmd) : Option LSt := (r0 0).bind (fun s => run qcfg s xs)

theorem qrun_reach {xs : List Cmd} {s : LSt} (h : qrun xs = some s) : Reach qcfg s := by
  obtain ⟨s0, h1, h2⟩ := Option.bind_eq_some_iff.1 h
  have e : ∀ m, fresh qcfg m = fresh (rcfg 0) m := fun m => by unfold fresh; rfl
  exact run_reach (.fresh (c := qcfg) (s := s0) (dev := fun _ => 0) (((e _).trans (r0_fresh 0)).trans h1)) h2

end Lite
end Blobd
