import Verif.Proofs.LiteCrash
import Verif.Proofs.LiteRun
set_option autoImplicit false
/-! # Opening a device: bucket heads, particular executions -/
namespace Blobd
namespace Lite
open Spec

theorem leVal_zero {l : List Byte} (h : leVal l = 0) : ∀ x ∈ l, x = 0 := by
  induction l with
  | nil => intro x hx; cases hx
  | cons a l ih =>
    simp only [leVal] at h
    have h1 : a.toNat = 0 := by omega
    have h2 : leVal l = 0 := by omega
    intro x hx
    rcases List.mem_cons.1 hx with rfl | hx
    · exact UInt8.toNat_inj.1 h1
    · exact ih h2 x hx

theorem beVal_zero {l : List Byte} (h : beVal l = 0) : ∀ x ∈ l, x = 0 :=
  fun x hx => leVal_zero (l := l.reverse) h x (List.mem_reverse.2 hx)

/-- an empty bucket is five zero bytes -/
theorem head_zero_bytes {m : Mem} {base b : Nat} (h : rdHead m base b = 0) {x : Nat} (h1 : base + bucketOff b ≤ x) (h2 : x < base + bucketOff b + 5) :
    m x = 0 := by
  unfold rdHead minPageSizePow2 at h
  rw [Nat.shiftLeft_eq] at h
  have h0 : rdBe m (base + bucketOff b) 5 = 0 := by omega
  have hb := beVal_zero h0 (m x) ?_
  · exact hb
  · rw [List.mem_iff_getElem]
    refine ⟨x - (base + bucketOff b), by rw [Mem.length_read]; omega, ?_⟩
    rw [Mem.getElem_read _ _ _ _ (by omega)]
    congr 1
    omega

theorem drained_head {c : LCfg} (hc : c.Ok) {s : LSt} {base : Mem} {v : V} {leak : List (Nat × Nat)} (h : LInv c s base v leak)
    (hu : unacked s.j = []) {b : Nat} (hb : b < 2 ^ c.bits) : getHead c s b = rdHead s.j.dev c.bkDev b := by
  rw [head_read hc h.good (h.geo hc) h.jinv h.L h.U (s := s) rfl h.ov hb]
  unfold rdHead rdBe
  congr 2
  apply Mem.read_congr
  intro x h1 h2
  rw [h.L]
  refine (h.jinv.dev_eq (.inl ?_) (fun t ht => by rw [hu] at ht; cases ht)).symm
  have := hc.buckets
  unfold bucketOff at h2
  have : (b + 1) * 5 ≤ 2 ^ c.bits * 5 := Nat.mul_le_mul_right 5 hb
  omega

theorem chain_zero {s : LSt} {off : Nat} (h : Chain s off []) : off = 0 := by cases h; rfl
theorem chain_cons_head {s : LSt} {off o : Nat} {l : List Nat} (h : Chain s off (o :: l)) : off = o := by cases h; rfl

/-- where startup goes for a bucket with head `off` -/
theorem startup_head (m : Mem) (base b : Nat) : rdHeadAtStartup m base b = rdHead m base b / 65536 := by
  unfold rdHeadAtStartup rdHead minPageSizePow2
  rw [Nat.shiftLeft_eq, Nat.shiftRight_eq_div_pow]
  omega

theorem loadInode_bad {c : LCfg} {m : Mem} {cur : Nat} (h1 : rdState m cur ≠ stIncomplete) (h2 : rdState m cur ≠ stCommitted) (a : Buddy) :
    loadInode c m cur a = none := by
  unfold loadInode
  split
  · rfl
  · rw [if_neg (by simp [h1, h2])]

/-- a traversal that starts at something that is not an inode never ends -/
theorem load_stuck {c : LCfg} {m : Mem} {cur : Nat} (hb : ∀ a, loadInode c m cur a = none) {x y : List Nat × Buddy} (h : LoadRun c m x y)
    (hx : cur ∈ x.1) : cur ∈ y.1 := by
  induction h with
  | refl => exact hx
  | step _ hs ih =>
    cases hs with
    | @inode pre post cur' nx a a' h0 h =>
      have hne : cur' ≠ cur := by
        rintro rfl
        rw [hb] at h
        cases h
      have := ih
      simp only [List.mem_append, List.mem_cons] at this ⊢
      rcases this with e | e | e
      · exact .inl e
      · exact absurd e.symm hne
      · exact .inr (.inr e)

theorem load_none {c : LCfg} {m : Mem} {x y : List Nat × Buddy} (h : LoadRun c m x y) (hx : x.1 = []) : y = x := by
  induction h with
  | refl => rfl
  | step _ hs ih =>
    cases hs with
    | inode h0 h => rw [← ih] at hx; simp at hx

/-! ## What happened stays on record -/

theorem commitTxn_lin {c : LCfg} (s : LSt) (idle : Bool) (ws : List (Nat × List Byte)) :
    (commitTxn c s idle ws).1.lin = s.lin ∧ (commitTxn c s idle ws).1.acks = s.acks := by
  rcases commitTxn_eff (c := c) s idle ws with e | ⟨t, j', e, _⟩ <;> rw [e] <;> exact ⟨rfl, rfl⟩

theorem unlink_lin {c : LCfg} {s s1 : LSt} {b : Nat} {f : Found} {tk : Overlay.Ticket Cell} {ws : List (Nat × List Byte)} {free : List (Nat × Nat)}
    (h : unlink c s b f = some (s1, tk, ws, free)) : s1.lin = s.lin ∧ s1.acks = s.acks := by
  obtain ⟨_, h1, ⟨_, _, h2, _⟩, _⟩ := unlink_j h
  exact ⟨h1, h2⟩

/-- what happened, and what was answered, is only ever added to -/
def Grows (s s' : LSt) : Prop := s.lin <+: s'.lin ∧ s.acks <+: s'.acks

theorem Grows.refl {s s' : LSt} (h : s'.lin = s.lin ∧ s'.acks = s.acks) : Grows s s' := by
  unfold Grows; rw [h.1, h.2]; exact ⟨List.prefix_rfl, List.prefix_rfl⟩
theorem Grows.trans {s s1 s2 : LSt} (h : Grows s s1) (h' : Grows s1 s2) : Grows s s2 := ⟨h.1.trans h'.1, h.2.trans h'.2⟩

theorem grows_event (s : LSt) (i : Nat) (e : Ev) : Grows s (event s i e) := ⟨⟨_, rfl⟩, List.prefix_rfl⟩
theorem grows_respond (s : LSt) (i : Nat) (t : Thread) (r : Resp) : Grows s (respond s i t r) := ⟨List.prefix_rfl, ⟨_, rfl⟩⟩

theorem found_grows {c : LCfg} (s : LSt) (i : Nat) (t : Thread) (req : Req) (key : List Byte) (f : Found) (idle : Bool) :
    Grows s (onFound c s i t req key f idle) := by
  cases req with
  | look want => exact (grows_event s i _).trans (grows_respond _ i t _)
  | write id offset len =>
    simp only [onFound]
    split
    · exact (grows_event s i _).trans (grows_respond _ i t _)
    · split
      · exact (grows_event s i _).trans (.refl ⟨rfl, rfl⟩)
      · exact (grows_event s i _).trans (.refl ⟨rfl, rfl⟩)
  | delete want =>
    simp only [onFound]
    split
    · exact .refl ⟨rfl, rfl⟩
    · rename_i s1 tk ws free hu
      refine Grows.trans (.refl (unlink_lin hu)) ((grows_event s1 i (.removed key want (rdId (ofBytes f.raw) 0))).trans (.refl ?_))
      exact commitTxn_lin _ idle ws
  | commit id => exact .refl ⟨rfl, rfl⟩

theorem end_grows {c : LCfg} (s : LSt) (i : Nat) (t : Thread) (req : Req) (key : List Byte) (inc ex : Option Found) (idle : Bool) :
    Grows s (onEnd c s i t req key inc ex idle) := by
  cases req with
  | look want => exact (grows_event s i _).trans (grows_respond _ i t _)
  | write id offset len => exact (grows_event s i _).trans (grows_respond _ i t _)
  | delete want => exact (grows_event s i _).trans (grows_respond _ i t _)
  | commit id =>
    cases inc with
    | none => exact (grows_event s i _).trans (grows_respond _ i t _)
    | some f =>
      have fin : ∀ (s1 : LSt) (tk : List (Overlay.Ticket Cell)) (ws : List (Nat × List Byte)) (free : List (Nat × Nat)), Grows s s1 → Grows s
          (let r := s1.ov.set (.state id) stCommitted
           let s2 := event { s1 with ov := r.1 } i (.committed key id)
           let q := commitTxn c s2 idle (ws ++ [(f.off + ObjectOffsets.state, leBytes 1 stCommitted)])
           setPc q.1 i t (.wait q.2 free (r.2 :: tk) .committed)) := by
        intro s1 tk ws free h
        exact h.trans ((grows_event s1 i (.committed key id)).trans (.refl (commitTxn_lin _ idle _)))
      simp only [onEnd]
      cases ex with
      | none => exact fin s [] [] [] (.refl ⟨rfl, rfl⟩)
      | some e =>
        cases c.versioning with
        | true => exact fin s [] [] [] (.refl ⟨rfl, rfl⟩)
        | false =>
          simp only [Bool.false_eq_true, if_false]
          cases hu : unlink c s (c.bkt key) e with
          | none => exact .refl ⟨rfl, rfl⟩
          | some r =>
            obtain ⟨s1, tk, ws, free⟩ := r
            exact fin s1 [tk] ws free (.refl (unlink_lin hu))

theorem inode_grows {c : LCfg} (s : LSt) (i : Nat) (t : Thread) (req : Req) (key : List Byte) (cur : Nat) (prev : Option Nat)
    (raw : List Byte) (inc ex : Option Found) (idle : Bool) : Grows s (onInode c s i t req key cur prev raw inc ex idle) := by
  unfold onInode
  simp only
  split
  · split
    · exact .refl ⟨rfl, rfl⟩
    · split
      · split
        · exact .refl ⟨rfl, rfl⟩
        · split <;> exact .refl ⟨rfl, rfl⟩
      · split
        · exact found_grows ..
        · exact .refl ⟨rfl, rfl⟩
  · exact .refl ⟨rfl, rfl⟩

theorem act_grows {c : LCfg} {s s' : LSt} {a : Act} (ha : act c s a = some s') : Grows s s' := by
  cases a with
  | create k n as t id =>
    simp only [act, create] at ha
    split at ha
    · split at ha
      · cases ha
      · split at ha
        · cases ha; exact ⟨List.prefix_rfl, ⟨_, rfl⟩⟩
        · split at ha
          · cases ha; exact .refl ⟨rfl, rfl⟩
          · split at ha <;> cases ha <;> exact .refl ⟨rfl, rfl⟩
    · cases ha
  | createLink i idle =>
    simp only [act] at ha
    split at ha
    · split at ha <;> cases ha
      exact (grows_event s i _).trans (.refl (commitTxn_lin _ idle _))
    · cases ha
  | inode i idle =>
    simp only [act] at ha
    split at ha <;> cases ha
    exact inode_grows ..
  | atEnd i idle =>
    simp only [act] at ha
    split at ha <;> cases ha
    exact end_grows ..
  | respond i =>
    simp only [act] at ha
    split at ha <;> cases ha
    exact grows_respond ..
  | writeEnd i r =>
    simp only [act] at ha
    split at ha <;> cases ha
    exact grows_respond ..
  | signalled i =>
    simp only [act] at ha
    split at ha
    · split at ha
      · split at ha <;> cases ha <;> exact .refl ⟨rfl, rfl⟩
      · cases ha
    · cases ha
  | data i n skip bytes =>
    simp only [act] at ha
    split at ha
    · split at ha
      · split at ha <;> cases ha
        exact .refl ⟨rfl, rfl⟩
      · cases ha
    · cases ha
  | cancel i n bytes =>
    simp only [act] at ha
    split at ha
    · split at ha
      · split at ha <;> cases ha
        exact .refl ⟨rfl, rfl⟩
      · cases ha
    · cases ha
  | read i =>
    simp only [act] at ha
    split at ha
    · split at ha <;> cases ha
      exact .refl ⟨rfl, rfl⟩
    · cases ha
  | _ =>
    simp only [act] at ha
    split at ha <;> cases ha <;> exact .refl ⟨rfl, rfl⟩

theorem later_grows {c : LCfg} {s s' : LSt} (h : Later c s s') : Grows s s' := by
  induction h with
  | refl => exact .refl ⟨rfl, rfl⟩
  | act a _ ha _ _ ih => exact ih.trans (act_grows ha)
  | journal _ _ _ ih => exact ih.trans (.refl ⟨rfl, rfl⟩)

theorem run_execs {c : LCfg} {s s' : LSt} {xs : List Cmd} (h : run c s xs = some s') : Execs c s s' := by
  have key : ∀ (xs : List Cmd) (s1 : LSt), Execs c s s1 → run c s1 xs = some s' → Execs c s s' := by
    intro xs
    induction xs with
    | nil => intro s1 h1 h2; cases h2; exact h1
    | cons x xs ih =>
      intro s1 h1 h2
      unfold run at h2
      rw [List.foldlM_cons] at h2
      simp only [Option.bind_eq_bind, Option.bind_eq_some_iff] at h2
      obtain ⟨s2, k1, k2⟩ := h2
      refine ih s2 (.step h1 ?_) k2
      rcases exec_step k1 with ⟨a, _, ha⟩ | ⟨j', h3, h4, rfl⟩
      · exact .act a ha
      · exact .journal h3 h4
  exact key xs s .refl h

/-! ## Crashes with calls one at a time -/

/-- what the device looks like while one transaction is pending -/
theorem phase_one {c : Journal.JCfg} {j : Journal.State} {t : Journal.Txn} (hu : unacked j = [t]) :
    (∀ base, JInv c base j → ∀ x, Journal.Outside c x → j.dev x = base x) ∨
    ∃ b todo, j.phase = .entries b todo ∧ ∀ base, JInv c base j →
      (∀ x, Journal.Outside c x → j.dev x = base x ∨ j.dev x = logical base j x) ∧
      ∀ x, Journal.Outside c x → ¬ Journal.Touches todo x → j.dev x = logical base j x := by
  cases hp : j.phase with
  | idle =>
    left; intro base h
    have hph := h.inv.phase
    simp only [hp] at hph
    exact hph
  | journal b =>
    left; intro base h
    have hph := h.inv.phase
    simp only [hp] at hph
    exact hph.2
  | blanking b =>
    left; intro base h
    have hph := h.inv.phase
    simp only [hp] at hph
    exact hph
  | entries b todo =>
    by_cases hb : b.txns = []
    · left
      intro base h x hx
      have hph := h.inv.phase
      simp only [hp] at hph
      have := hph.2.2.2.1 x hx
      simpa [hb, Journal.image, Journal.writesOf, Mem.writeAll] using this
    · refine .inr ⟨b, todo, rfl, ?_⟩
      intro base h
      have hph := h.inv.phase
      have hacc := h.acc
      rw [hu] at hacc
      unfold held at hacc
      simp only [hp] at hph
      obtain ⟨_, _, _, h4, h5, _⟩ := hph
      have hbt : b.txns = [t] := by
        have : Journal.inFlight j = b.txns := by unfold Journal.inFlight; rw [hp]
        rw [this] at hacc
        match hbx : b.txns, hb with
        | y :: l, _ =>
          rw [hbx] at hacc
          simp only [List.cons_append, List.cons.injEq] at hacc
          obtain ⟨rfl, h2⟩ := hacc
          have := (List.append_eq_nil_iff.1 h2.symm).1
          rw [this]
      have hl : logical base j = Journal.image base ([] ++ b.txns) := by unfold logical; rw [hu, hbt]; rfl
      exact ⟨fun x hx => hl ▸ h4 x hx, fun x hx hn => hl ▸ h5 x hx hn⟩

theorem logical_byte {base : Mem} {j : Journal.State} {t : Journal.Txn} (hu : unacked j = [t]) {o : Nat} {b : Byte} (hw : t.writes = [(o, [b])]) (x : Nat) :
    logical base j x = if x = o then b else base x := by
  unfold logical
  rw [hu]
  simp only [Journal.image, Journal.writesOf, List.flatMap_cons, List.flatMap_nil, List.append_nil, hw, Mem.writeAll, List.foldl_cons, List.foldl_nil]
  by_cases e : x = o
  · subst e; simp [Mem.write]
  · rw [if_neg e]
    apply Mem.write_out
    simp only [List.length_cons, List.length_nil]
    omega

/-- where the device is as before or as after the pending transaction, the reopened store is one in which the last event
has not, or has, happened -/
theorem seq_crash {c : LCfg} (hc : c.Ok) {s : LSt} (h : SeqReach c s) (hx : ¬ Exposed c s) :
    ∃ pre base v leak b, (pre = s.lin ∨ ∃ p, s.lin = pre ++ [p]) ∧ AI (restarted c s b pre) ∧ LInv c (restarted c s b pre) base v leak := by
  obtain ⟨_, hf⟩ := seq_faults hc h
  obtain ⟨base1, v1, leak1, hi⟩ := reach_inv hc h.reach hf
  have after : (∀ x, Journal.Outside c.jc x → s.j.dev x = logical base1 s.j x) → ∃ pre base v leak b, (pre = s.lin ∨ ∃ p, s.lin = pre ++ [p]) ∧
      AI (restarted c s b pre) ∧ LInv c (restarted c s b pre) base v leak := by
    intro ha
    obtain ⟨v', leak', h', _⟩ := reopen_at hc hi (m := s.j.dev) (fun x hx => by rw [ha x hx, hi.L])
    exact ⟨s.lin, _, v', leak', s.alloc, .inl rfl, reopened_ai (reach_ai h.reach) s.alloc, h'⟩
  rcases seq_before hc h with hd | ⟨s0, p, base, g1, g2, g3, g4, g5, g6, g7, g8⟩
  · refine after (fun x hx => hi.jinv.dev_eq hx (fun t ht => by rw [drained_unacked hd] at ht; cases ht))
  · have hnd : ¬ Drained s := fun hd => by rw [drained_unacked hd] at g6; cases g6
    have hnr : ¬ ReplacingNow c s := fun hr => hx ⟨hnd, .inl hr⟩
    have g7 := g7.resolve_right hnr
    have before : (∀ x, Journal.Outside c.jc x → s.j.dev x = base x) → ∃ pre base v leak b, (pre = s.lin ∨ ∃ p, s.lin = pre ++ [p]) ∧
        AI (restarted c s b pre) ∧ LInv c (restarted c s b pre) base v leak := by
      intro hb
      obtain ⟨_, hf0⟩ := seq_faults hc g1
      obtain ⟨base0, v0, leak0, hi0⟩ := reach_inv hc g1.reach hf0
      obtain ⟨v', leak', h', _⟩ := reopen_inv hc hi0 (drained_unacked g2) (m := s.j.dev) (fun x hx => by rw [hb x hx, g7 x hx])
      have e : restarted c s s0.alloc s0.lin = { reopened c s0 s0.alloc with j := { dev := s.j.dev } } := by
        unfold restarted reopened Journal.recover
        rw [g4.1, g4.2.1, g4.2.2, hf, hf0]
      refine ⟨s0.lin, s.j.dev, v', leak', s0.alloc, .inr ⟨p, g3⟩, ?_, e ▸ h'⟩
      have := reopened_ai (c := c) (reach_ai g1.reach) s0.alloc
      rw [e]
      exact ⟨this.ids, (fun i t ht => by cases ht), this.acks⟩
    match hu : unacked s.j, g6 with
    | [t], _ =>
      rcases phase_one (c := c.jc) hu with hb | ⟨bt, todo, hp, hb⟩
      · exact before (hb base g5)
      · by_cases ht : todo = []
        · subst ht
          exact after (fun x hx => (hb base1 hi.jinv).2 x hx (by rintro ⟨w, hw, _⟩; cases hw))
        · have hcom : ∃ k id, p.2 = .committed k id := by
            by_contra hno
            refine hx ⟨hnd, .inr ⟨⟨bt, todo, hp, ht⟩, ?_⟩⟩
            intro pre i k id he
            rw [g3] at he
            have := (List.append_inj' he rfl).2
            simp only [List.cons.injEq, and_true] at this
            exact hno ⟨k, id, by rw [this]⟩
          obtain ⟨t', o, b, k1, k2⟩ := (g8 hcom).resolve_left hnr
          rw [hu] at k1
          cases k1
          have hlb := fun (base : Mem) x => logical_byte (base := base) hu k2 x
          by_cases hall : ∀ x, Journal.Outside c.jc x → s.j.dev x = base x
          · exact before hall
          · obtain ⟨x0, hx0⟩ := not_forall.1 hall
            obtain ⟨ho, hne⟩ := Classical.not_imp.1 hx0
            have e0 := ((hb base g5).1 x0 ho).resolve_left hne
            rw [hlb] at e0
            have hxo : x0 = o := by
              by_contra hno
              rw [if_neg hno] at e0
              exact hne e0
            subst hxo
            rw [if_pos rfl] at e0
            refine after (fun x hx => ?_)
            rw [hlb]
            by_cases e : x = x0
            · subst e; rw [if_pos rfl]; exact e0
            · rw [if_neg e]
              rcases (hb base1 hi.jinv).1 x hx with q | q
              · exact q
              · rw [hlb, if_neg e] at q; exact q

/-! ## A store with the smallest device layout -/

/-- 4096 buckets, 64 KiB large pages: the heap starts at 33619968 = 513 · 65536 (libblobd-lite/src/lib.rs:186-201); every key in bucket `b` -/
def rcfg (b : Nat) : LCfg where
  heap := ⟨64, 33619968, 131072, ⟨8, 16⟩, .left⟩
  bkDev := 0
  bits := 12
  hash := fun _ => b * 2 ^ 52
  jc := { devOffset := 20480, cap := 33599488, encode := fun _ => [], hash := fun _ => List.replicate 32 0 }
  versioning := false

theorem rcfg_ok (b : Nat) (hb : b < 4096) : (rcfg b).Ok :=
  ⟨by show 8 ≤ 16; decide, by show 16 < 32; decide, by show 16 < 32; decide, by show 8 ≤ 8; decide,
    by show 0 + 5 * 2 ^ 12 ≤ 20480; decide, by show 20480 + 33599488 ≤ 33619968; decide, by show 0 < 33619968; decide,
    by show 33619968 + 131072 ≤ 2 ^ 48; decide, by show 12 ≤ 12; decide, by show 12 ≤ 48; decide,
    fun _ => by simp only [rcfg]; omega, ⟨by show 36 ≤ 33599488; decide, fun _ => by simp [rcfg]⟩, fun _ _ => by simp [rcfg]⟩

/-- `fresh rcfg` on a device of zeros -/
def r0 (b : Nat) : Option LSt :=
  (Buddy.new (rcfg b).heap.pageNumBits (rcfg b).heap.base (rcfg b).heap.heap (rcfg b).heap.pages (rcfg b).heap.dir).map (fun a =>
  { j := { dev := fun _ => 0 }, ov := {}, alloc := a, thr := fun _ => none, nextCall := 0, orphans := [], ids := [], lin := [], acks := [],
    faults := [] })

theorem r0_fresh (b : Nat) : fresh (rcfg b) (fun _ => 0) = r0 b := by
  have : Mem.write (fun _ => (0 : Byte)) (rcfg b).bkDev (List.replicate (bucketsSize (2 ^ (rcfg b).bits)) 0) = fun _ => 0 := by
    funext x
    simp only [Mem.write]
    split
    · rw [List.getElem?_replicate]
      split <;> rfl
    · rfl
  unfold fresh r0
  rw [this]
  cases Buddy.new (rcfg b).heap.pageNumBits (rcfg b).heap.base (rcfg b).heap.heap (rcfg b).heap.pages (rcfg b).heap.dir <;> rfl

def rseq (b : Nat) (xs : List Cmd) : Option LSt := (r0 b).bind (fun s => runSeq (rcfg b) s xs)

theorem rseq_reach {b : Nat} (hb : b < 4096) {xs : List Cmd} {s : LSt} (h : rseq b xs = some s) : SeqReach (rcfg b) s := by
  obtain ⟨s0, h1, h2⟩ := Option.bind_eq_some_iff.1 h
  exact runSeq_reach (rcfg_ok b hb) (.fresh ((r0_fresh b).trans h1)) h2

/-- opening finds a single bucket, which consists of one thing that looks like an inode of an object without pages -/
def opensOne (c : LCfg) (m : Mem) (cur : Nat) : Bool :=
  decide (loadHeads c m = [cur]) && (decide (cur ≠ 0) && ((match calcObjectLayout c.pages (rdSize m cur) with
    | some lay => decide (loadPages c m cur lay = [])
    | none => false) && (decide (rdState m cur = stIncomplete ∨ rdState m cur = stCommitted) && decide (rdNext m cur = 0))))

theorem opens_one {c : LCfg} {m : Mem} {cur : Nat} {a0 : Buddy} (hn : Buddy.new c.heap.pageNumBits c.heap.base c.heap.heap c.heap.pages c.heap.dir = some a0)
    (h : opensOne c m cur = true) : Opens c m a0 := by
  unfold opensOne at h
  simp only [Bool.and_eq_true, decide_eq_true_eq] at h
  obtain ⟨h1, h2, h3, h4, h5⟩ := h
  have hi : loadInode c m cur a0 = some (a0, 0) := by
    unfold loadInode
    split at h3
    · rename_i lay hl
      rw [hl]
      simp only [decide_eq_true_eq] at h3
      simp only [if_pos h4, h3, h5]
      rfl
    · cases h3
  exact ⟨a0, [0], hn, .step .refl (by rw [h1]; exact .inode (pre := []) (post := []) h2 hi), by simp⟩

/-- calls one at a time, the process ends, the device is opened again, further steps -/
def rcrash (b : Nat) (xs : List Cmd) (cur : Nat) (ys : List Cmd) : Option (LSt × LSt) :=
  (rseq b xs).bind (fun s =>
    (Buddy.new (rcfg b).heap.pageNumBits (rcfg b).heap.base (rcfg b).heap.heap (rcfg b).heap.pages (rcfg b).heap.dir).bind (fun a0 =>
      if opensOne (rcfg b) s.j.dev cur then (run (rcfg b) (reopened (rcfg b) s a0) ys).map (fun s' => (s, s')) else none))

theorem rcrash_ok {b : Nat} (hb : b < 4096) {xs : List Cmd} {cur : Nat} {ys : List Cmd} {s s' : LSt} (h : rcrash b xs cur ys = some (s, s')) :
    SeqReach (rcfg b) s ∧ ∃ a, Opens (rcfg b) s.j.dev a ∧ Execs (rcfg b) (reopened (rcfg b) s a) s' := by
  obtain ⟨s1, h1, h2⟩ := Option.bind_eq_some_iff.1 h
  obtain ⟨a0, h3, h4⟩ := Option.bind_eq_some_iff.1 h2
  split at h4
  · rename_i ho
    obtain ⟨s2, h5, h6⟩ := Option.map_eq_some_iff.1 h4
    simp only [Prod.mk.injEq] at h6
    obtain ⟨rfl, rfl⟩ := h6
    exact ⟨rseq_reach hb h1, a0, opens_one h3 ho, run_execs h5⟩
  · cases h4

end Lite
end Blobd
