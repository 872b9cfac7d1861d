import Verif.Proofs.LiteStep2
set_option autoImplicit false
/-! # Steps of the lite store: transactions, linking, waiting, walking -/
namespace Blobd
namespace Lite
open Spec

theorem foldl_write (n : Nat) (ws : List (Nat × List Byte)) (hw : ∀ w ∈ ws, 0 < w.2.length) :
    ∀ pre, ws.foldl (fun (t : Journal.Txn) w => t.write w.1 w.2) ⟨n, pre⟩ = ⟨n, pre ++ ws⟩ := by
  induction ws with
  | nil => intro pre; simp
  | cons w ws ih =>
    intro pre
    have h1 : w.2.isEmpty = false := by
      have := hw w (by simp)
      cases hh : w.2 with
      | nil => rw [hh] at this; simp at this
      | cons _ _ => rfl
    have h2 : Journal.Txn.write ⟨n, pre⟩ w.1 w.2 = ⟨n, pre ++ [w]⟩ := by simp [Journal.Txn.write, h1]
    rw [List.foldl_cons, h2, ih (fun w h => hw w (by simp [h]))]
    simp

/-- `commit_transaction` of what a call wants to journal -/
theorem commitTxn_ok {c : LCfg} (hc : c.Ok) {s : LSt} {base : Mem} (h : JInv c.jc base s.j) (idle : Bool) {ws : List (Nat × List Byte)}
    (hne : ws ≠ []) (hlen : ws.length ≤ 2)
    (hw : ∀ w ∈ ws, 0 < w.2.length ∧ w.2.length ≤ 6 ∧ (w.1 + w.2.length ≤ c.jc.devOffset ∨ c.jc.devOffset + c.jc.cap ≤ w.1)) :
    ∃ j' t, commitTxn c s idle ws = ({ s with j := j' }, some s.j.hist.length) ∧ JInv c.jc base j' ∧
      unacked j' = unacked s.j ++ [t] ∧ t.id = s.j.hist.length ∧ t.writes = ws ∧ logical base j' = (logical base s.j).writeAll ws := by
  have hf := foldl_write s.j.hist.length ws (fun w h => (hw w h).1) []
  rw [List.nil_append] at hf
  have hemp : ws.isEmpty = false := by cases ws <;> simp_all
  have hok : Journal.TxnOk c.jc ⟨s.j.hist.length, ws⟩ := by
    refine ⟨?_, ?_⟩
    · match ws, hlen, hw, hne with
      | [a], _, hw, _ =>
        have := hc.enc a (hw a (by simp)).2.1
        simp [Journal.Txn.raw]; omega
      | [a, b], _, hw, _ =>
        have := hc.enc a (hw a (by simp)).2.1
        have := hc.enc b (hw b (by simp)).2.1
        simp [Journal.Txn.raw]; omega
    · intro w hw' x h1 h2
      have := (hw w hw').2.2
      unfold Journal.Outside
      omega
  cases hcm : Journal.commit c.jc idle ⟨s.j.hist.length, ws⟩ s.j with
  | none => simp [Journal.commit, hemp] at hcm
  | some j' =>
    obtain ⟨j1, j2, j3, j4⟩ := h.commit hc.jok hok rfl hcm
    refine ⟨j', _, ?_, j1, j2, rfl, rfl, logical_commit j2⟩
    simp only [commitTxn, hf, hcm]

theorem commitTxn_nil {c : LCfg} (s : LSt) (idle : Bool) : commitTxn c s idle [] = (s, none) := by
  simp [commitTxn, Journal.commit]

theorem Mid.away {c : LCfg} (hc : c.Ok) {ids : List Nat} {v v' : V} {i b : Nat} {M : Mem} {ws : List (Nat × List Byte)}
    (m : Mid c ids v v' i b M ws) (ge : Geo c v.recs) :
    ∀ w ∈ ws, 0 < w.2.length ∧ w.2.length ≤ 6 ∧ (w.1 + w.2.length ≤ c.jc.devOffset ∨ c.jc.devOffset + c.jc.cap ≤ w.1) := by
  intro w hw
  have ge' := geo_snd m.snd ge
  have h1 := hc.buckets
  have h2 := hc.journal
  obtain ⟨k, n, x, k1, k2, _⟩ := m.jw w hw
  cases k with
  | head b =>
    obtain ⟨hb, ha⟩ := k1
    simp only [bucketOff, Cell.width] at *
    omega
  | state id =>
    obtain ⟨r, hr, _, ha⟩ := k1
    have := ge'.off hr
    simp only [Cell.width] at *
    omega
  | next id =>
    obtain ⟨r, hr, _, ha⟩ := k1
    have := ge'.off hr
    simp only [Cell.width] at *
    omega

/-- once everything pending is at most `n` -/
theorem done_all {U : List Journal.Txn} {n : Nat} (h : ∀ t ∈ U, t.id ≤ n) (a : Nat) : Done U (some n) a :=
  fun t ht _ _ _ => ⟨n, rfl, h t ht⟩

theorem JInv.id_le {c : Journal.JCfg} {base : Mem} {j : Journal.State} (h : JInv c base j) {t : Journal.Txn} {U : List Journal.Txn}
    (hU : U = unacked j) (ht : t.id = j.hist.length) : ∀ t' ∈ U ++ [t], t'.id ≤ j.hist.length := by
  intro t' ht'
  rcases List.mem_append.1 ht' with h' | h'
  · rw [hU] at h'
    exact Nat.le_of_lt (h.id_ge h').2
  · rw [List.mem_singleton] at h'
    rw [h', ht]

/-- releasing the pages of an unlinked object never panics -/
theorem release_ok {c : LCfg} {s : LSt} {base : Mem} {v : V} {leak : List (Nat × Nat)} (h : LInv c s base v leak) {i : Nat} {t : Thread}
    {txn : Option Nat} {free : List (Nat × Nat)} {tickets : List (Overlay.Ticket Cell)} {resp : Resp} (ht : s.thr i = some t)
    (hp : t.pc = .wait txn free tickets resp) : ∃ a, s.alloc.releaseAll free = some a := by
  have hpc := (h.thr i t ht).2
  rw [hp] at hpc
  obtain ⟨p1, p2⟩ := hpc
  rcases p2 with p2 | ⟨r, r1, r2, _, _⟩
  · rw [p2]; exact ⟨s.alloc, rfl⟩
  · obtain ⟨l1, l2, e⟩ := List.append_of_mem r1
    have hheap : Buddy.Inv c.heap s.alloc (regs c.pages r ++ ((l1 ++ l2).flatMap (fun x => regs c.pages x.2) ++ leak)) := by
      refine h.heap.perm ?_
      rw [← List.append_assoc]
      refine List.Perm.append_right _ ?_
      have := (List.perm_middle (a := (Own.dying i, r)) (l₁ := l1) (l₂ := l2)).flatMap_right (fun x => regs c.pages x.2)
      rw [e]
      rwa [List.flatMap_cons] at this
    obtain ⟨a', e1, _⟩ := Direct.releaseAll_inv hheap
    exact ⟨a', by rw [r2]; exact e1⟩

theorem meta_last {pages : Pages} (r : Rec) : (regs pages r).getLast? = some (r.off, r.o.metaSizePow2) := by simp [regs]

section
variable {c : LCfg} (hc : c.Ok) {s : LSt} {base : Mem} {v : V} {leak : List (Nat × Nat)} (h : LInv c s base v leak)
include hc h

/-- others are not in bucket `b` -/
theorem others_out {i b : Nat} {pc : PC} (hl : LockOk c s i pc) (hpc : pc.lock c = some (b, true)) :
    ∀ j t, j ≠ i → s.thr j = some t → ∀ b' e, t.pc.lock c = some (b', e) → ¬ b' = b := by
  intro j t hj ht b' e hb hbb
  subst hbb
  have := (hl _ _ hpc j t hj ht e hb).1
  cases this

/-- libblobd-lite/src/op/create_object.rs:98-122 -/
theorem step_link {i : Nat} {t : Thread} (t' : Thread) {o : NewObject} {off : Nat} (ht : s.thr i = some t) (hp : t.pc = .createLink o off)
    (hlk : canLock c s (c.bkt o.key) true = true) (idle : Bool) :
    ∃ v', LInv c (link c s i t' o off idle) base v' leak ∧ ChRel c v v' s.lin (link c s i t' o off idle).lin := by
  have ge := h.geo hc
  have hpc := (h.thr i t ht).2
  rw [hp] at hpc
  obtain ⟨p1, p2, p3⟩ := hpc
  have hbl := bkt_lt hc o.key
  have hcur := head_read hc h.good ge h.jinv h.L h.U (s := s) rfl h.ov hbl
  have m := Mid.link hc h.good ge p1 p2 p3 (b := c.bkt o.key) rfl hcur
  obtain ⟨j', t1, e1, e2, e3, e4, e5, e6⟩ := commitTxn_ok hc
    (s := event { s with ov := ((s.ov.set (.head (c.bkt o.key)) off).1.set (.next o.id) (getHead c s (c.bkt o.key))).1 } i (.created o.key o.id o.size))
    h.jinv idle (ws := [(c.bkDev + bucketOff (c.bkt o.key), encHead off), (off + ObjectOffsets.nextNode, beBytes 6 (getHead c s (c.bkt o.key)))])
    (by simp) (by simp) (m.away hc ge)
  simp only [event] at e3 e4 e6
  obtain ⟨f1, f2⟩ := m.finish hc h.good.toBase ge (ts := [t1]) (.inr ⟨t1, rfl, e5⟩)
  obtain ⟨_, l2, _⟩ := lists_link hc h.good.toBase ge h.good.toLists p1 p2 p3 rfl
  have hle := h.jinv.id_le h.U e4
  have es : link c s i t' o off idle = setPc { s with
      ov := ((s.ov.set (.head (c.bkt o.key)) off).1.set (.next o.id) (getHead c s (c.bkt o.key))).1
      lin := s.lin ++ [(i, .created o.key o.id o.size)], j := j' } i t' (.wait (some s.j.hist.length) []
        [(s.ov.set (.head (c.bkt o.key)) off).2, ((s.ov.set (.head (c.bkt o.key)) off).1.set (.next o.id) (getHead c s (c.bkt o.key))).2]
        (.created o.id)) := by
    simp only [link, e1]
    rfl
  rw [es]
  refine ⟨_, h.build f2 ?_ ?_ ?_ ?_ ?_ ?_ ?_ ?_ ?_ ?_ ?_ ?_ ?_ ?_, .inr ⟨i, _, rfl, ⟨off, o⟩, rfl, rfl, rfl, rfl⟩⟩
  · exact e2
  · simp only [setPc]; rw [e6, ← h.L]; rfl
  · simp only [setPc]; rw [e3, h.U]
  · simp only [setPc]; rw [h.ov]
  · exact heap_snd (setOwn_snd _ _ _) h.heap
  · exact f1
  · intro j hj; simp [setPc, upd, hj]
  · exact Nat.le_refl _
  · intro t2 ht2
    have : t2 = { t' with pc := .wait (some s.j.hist.length) [] [(s.ov.set (.head (c.bkt o.key)) off).2,
        ((s.ov.set (.head (c.bkt o.key)) off).1.set (.next o.id) (getHead c s (c.bkt o.key))).2] (.created o.id) } := by
      simpa [setPc, upd] using ht2.symm
    rw [this]
    refine ⟨(h.thr i t ht).1, ⟨?_, .inl rfl⟩, LockOk.none rfl⟩
    intro tk htk
    refine ⟨?_, fun x _ a _ => done_all hle a⟩
    simp only [List.mem_cons, List.not_mem_nil, or_false] at htk
    rcases htk with rfl | rfl <;> simp only [Overlay.Ov.set, h.ov] <;> omega
  · intro j t2 hj ht2 b' e hb hbb
    subst hbb
    have := (canLock_free hlk (fun i t h' => (h.thr i t h').1) j t2 e ht2 hb).1
    cases this
  · exact fun _ _ _ _ _ _ => ⟨fun h => h, fun h => h⟩
  · simp only [setPc, List.map_append, List.map_cons, List.map_nil]
    rw [absRun_snoc h.abs]
    simp only [absStep, Option.some.injEq]
    exact (l2.symm.trans (by simp only [hcur]; rfl))
  · exact h.orph
  · intro x hx
    have hx : x ∈ setOwn v.recs off .linked := hx
    rcases mem_setOwn.1 hx with ⟨h1, h2⟩ | ⟨_, h2, _⟩
    · refine .inr (.inl ⟨h2, fun t2 ht2 ho => ?_⟩)
      rw [ht] at ht2
      cases ht2
      rw [hp] at ho
      have ho : x = (Own.fresh i, ⟨off, o⟩) := ho
      rw [ho] at h1
      exact h1 rfl
    · exact .inl h2

theorem chain_head {b : Nat} (hb : b < 2 ^ c.bits) : rdHead v.L c.bkDev b = headOff (v.ch b) := (h.good.chain b hb).head

/-- libblobd-lite/src/bucket.rs:85 -/
theorem step_lookup {req : Req} {key : List Byte} (hlk : canLock c s (c.bkt key) req.exclusive = true) :
    LInv c { s with
      thr := upd s.thr s.nextCall (some ⟨⟨.lookup req key, s.lin.length⟩, .walk req key (getHead c s (c.bkt key)) none none none none⟩)
      nextCall := s.nextCall + 1 } base v leak := by
  have ge := h.geo hc
  refine LInv.newThread hc h rfl rfl h.heap rfl rfl rfl rfl ?_ ?_ rfl
  · refine ⟨[], v.ch (c.bkt key), rfl, ?_, rfl, fun b hb => (by cases hb), ?_⟩
    · rw [head_read hc h.good ge h.jinv h.L h.U (s := s) rfl h.ov (bkt_lt hc _), chain_head hc h (bkt_lt hc _)]
    · unfold Seen
      cases req
      · exact ⟨rfl, rfl, by simp⟩
      · exact ⟨rfl, rfl, by simp⟩
      · exact ⟨rfl, rfl, by simp⟩
      · exact ⟨by simp [Held], by simp [Held]⟩
  · intro b e he j t' hj ht' e' he'
    simp only [PC.lock, Option.some.injEq, Prod.mk.injEq] at he
    obtain ⟨rfl, rfl⟩ := he
    exact canLock_free hlk (fun i t h' => (h.thr i t h').1) j t' e' ht' he'

theorem rest_cons {key : List Byte} {vis rest : List Rec} (hch : v.ch (c.bkt key) = vis ++ rest) {cur : Nat} (hcur : cur = headOff rest)
    (h0 : cur ≠ 0) : ∃ r rest', rest = r :: rest' ∧ cur = r.off ∧ (Own.linked, r) ∈ v.recs := by
  cases rest with
  | nil => exact absurd hcur h0
  | cons r rest' =>
    have hr : r ∈ v.ch (c.bkt key) := by rw [hch]; simp
    exact ⟨r, rest', rfl, hcur, by rw [h.good.lnk, h.good.chb _ r hr]; exact hr⟩

theorem rest_nil {key : List Byte} {vis rest : List Rec} (hch : v.ch (c.bkt key) = vis ++ rest) (hcur : 0 = headOff rest) : rest = [] := by
  cases rest with
  | nil => rfl
  | cons r rest' =>
    exfalso
    have hr : r ∈ v.ch (c.bkt key) := by rw [hch]; simp
    have hl : (Own.linked, r) ∈ v.recs := by rw [h.good.lnk, h.good.chb _ r hr]; exact hr
    have := ((h.geo hc).off hl).1
    have := hc.heapPos
    have : r.off = 0 := hcur.symm
    simp only at *
    omega

/-- libblobd-lite/src/bucket.rs:90-92 -/
theorem step_read {i : Nat} {t : Thread} (t' : Thread) {req : Req} {key : List Byte} {cur : Nat} {prev : Option Nat} {inc ex : Option Found}
    (ht : s.thr i = some t) (hp : t.pc = .walk req key cur prev none inc ex) (h0 : cur ≠ 0) :
    LInv c (setPc s i t' (.walk req key cur prev
      (some (s.j.dev.read cur ({ keyLen := rdKeyLen s.j.dev cur } : ObjectOffsets).lpages)) inc ex)) base v leak := by
  obtain ⟨hi, hpc⟩ := h.thr i t ht
  have hl := h.lockOk ht
  rw [hp] at hpc hl
  obtain ⟨vis, rest, q1, q2, q3, q4, q5⟩ := hpc
  obtain ⟨r, rest', r1, r2, r3⟩ := rest_cons hc h q1 q2 h0
  refine h.setPc hi ⟨vis, rest, q1, q2, q3, ?_, q5⟩ hl (fun t2 ht2 => by rw [ht] at ht2; cases ht2; rw [hp]; trivial)
  intro b hb
  refine ⟨r, rest', r1, ?_⟩
  simp only [Option.some.injEq] at hb
  rw [← hb, r2]
  exact copy_read hc h.good (h.geo hc) h.jinv h.L h.U r3

/-- libblobd-lite/src/op/commit_object.rs:85-92, libblobd-lite/src/op/delete_object.rs:37-40 -/
theorem step_signalled {i : Nat} {t : Thread} (t' : Thread) {txn : Option Nat} {free : List (Nat × Nat)} {tickets : List (Overlay.Ticket Cell)}
    {resp : Resp} (ht : s.thr i = some t) (hp : t.pc = .wait txn free tickets resp) (hack : txn.all (fun n => n ∈ s.j.acked) = true)
    {a : Buddy} (hrel : s.alloc.releaseAll free = some a) :
    ∃ v', LInv c (setPc { s with alloc := a } i t' (.evict tickets resp)) base v' leak ∧ v'.ch = v.ch := by
  obtain ⟨hi, hpc⟩ := h.thr i t ht
  rw [hp] at hpc
  obtain ⟨p1, p2⟩ := hpc
  have hdone : ∀ a, Done v.U txn a → Done v.U none a := by
    intro a hd t' ht' w hw e
    obtain ⟨n, hn, hle⟩ := hd t' ht' w hw e
    rw [hn] at hack
    have hm : n ∈ s.j.acked := by simpa using hack
    have := h.jinv.acked_lt hm (by rw [← h.U]; exact ht')
    omega
  have htick : Tick c v none tickets := fun tk htk => ⟨(p1 tk htk).1, fun x hx a ha => hdone a ((p1 tk htk).2 x hx a ha)⟩
  rcases p2 with p2 | ⟨r, r1, r2, r3, r4⟩
  · subst p2
    have : s.alloc = a := by simpa [Buddy.releaseAll] using hrel
    subst this
    refine ⟨v, ?_, rfl⟩
    exact h.setPc (t := t') hi htick (LockOk.none rfl) (fun t2 ht2 => by rw [ht] at ht2; cases ht2; rw [hp]; rfl)
  · have hperm : v.recs.Perm ((Own.dying i, r) :: v.recs.filter (fun x => x.2.off ≠ r.off)) := by
      obtain ⟨l1, l2, e⟩ := List.append_of_mem r1
      have hn := h.good.offs
      rw [e] at hn
      simp only [List.map_append, List.map_cons] at hn
      have hn2 := List.nodup_append.1 hn
      have hf1 : l1.filter (fun x => decide (x.2.off ≠ r.off)) = l1 := by
        rw [List.filter_eq_self]
        intro x hx
        have := hn2.2.2 x.2.off (List.mem_map.2 ⟨x, hx, rfl⟩) r.off (by simp)
        simpa using this
      have hf2 : l2.filter (fun x => decide (x.2.off ≠ r.off)) = l2 := by
        rw [List.filter_eq_self]
        intro x hx
        have hn3 := (List.nodup_cons.1 hn2.2.1).1
        have : x.2.off ≠ r.off := fun e => hn3 (e ▸ List.mem_map.2 ⟨x, hx, rfl⟩)
        simpa using this
      rw [e, List.filter_append, List.filter_cons, if_neg (by simp), hf1, hf2]
      exact List.perm_middle
    have hheap : Buddy.Inv c.heap s.alloc (regs c.pages r ++ ((v.recs.filter (fun x => x.2.off ≠ r.off)).flatMap (fun x => regs c.pages x.2) ++ leak)) := by
      refine h.heap.perm ?_
      rw [← List.append_assoc]
      refine List.Perm.append_right _ ?_
      have := hperm.flatMap_right (fun x => regs c.pages x.2)
      rwa [List.flatMap_cons] at this
    obtain ⟨a', e1, e2⟩ := Direct.releaseAll_inv hheap
    rw [r2, e1] at hrel
    cases hrel
    generalize hrs : v.recs.filter (fun x => x.2.off ≠ r.off) = recs' at *
    have hsub : ∀ x, x ∈ recs' ↔ x ∈ v.recs ∧ x.2.off ≠ r.off := by
      intro x; rw [← hrs, List.mem_filter]; simp
    have hother : ∀ o r', (o, r') ∈ v.recs → o ≠ .dying i → (o, r') ∈ recs' := by
      intro o r' hm hne
      refine (hsub _).2 ⟨hm, fun e => hne ?_⟩
      have := h.good.toBase.uniq hm r1 e
      cases this; rfl
    have hlk : ∀ r', (Own.linked, r') ∈ recs' ↔ (Own.linked, r') ∈ v.recs :=
      fun r' => ⟨fun h => ((hsub _).1 h).1, fun h => hother _ _ h (by simp)⟩
    have hcell : ∀ k a, CellAt c { v with recs := recs' } k a ↔ CellAt c v k a := by
      intro k a
      cases k <;> simp [CellAt, hlk]
    have g := h.good
    refine ⟨{ v with recs := recs' }, h.build (i := i) (P := fun _ => False) (E := fun _ => False) ?_ h.jinv h.L h.U h.ov e2 ?_ ?_ (Nat.le_refl _) ?_
      (fun _ _ _ _ _ _ _ h => h) (fun _ _ _ _ _ _ => ⟨fun h => h, fun h => h⟩) h.abs h.orph ?_, rfl⟩
    · refine ⟨fun _ _ => rfl, fun _ _ _ _ => ⟨rfl, rfl⟩, fun _ _ _ _ _ _ _ h => h, fun j r' _ h => ⟨hother _ _ h (by simp), fun h => h, rfl⟩, ?_, Nat.le_refl _, ?_⟩
      · intro j r' hj hm
        exact ⟨hother _ _ hm (by simpa using hj), fun _ ht _ _ _ => ht⟩
      · intro k n x hk _
        exact ⟨hk, fun a ha => ⟨(hcell k a).1 ha, fun _ ht _ _ _ => ht⟩⟩
    · refine { toCells := ?_, toLists := ?_, toBase := ?_ }
      · refine ⟨?_, fun k a x hk => g.cur k a x ((hcell k a).1 hk), fun k a hk => g.quiet k a ((hcell k a).1 hk), ?_, g.ser⟩
        · intro t2 ht2 w hw
          rcases g.pend t2 ht2 w hw with h' | ⟨x, x1, x2, x3⟩
          · exact .inl h'
          · by_cases e : x.2.off = r.off
            · exfalso
              have d1 := hdone _ r3 t2 ht2 w hw
              have d2 := hdone _ r4 t2 ht2 w hw
              rw [← e] at d1 d2
              rcases x3 with ⟨y, _⟩ | ⟨y, _⟩
              · obtain ⟨n, hn, _⟩ := d1 y; cases hn
              · obtain ⟨n, hn, _⟩ := d2 y; cases hn
            · exact .inr ⟨x, (hsub x).2 ⟨x1, e⟩, x2, x3⟩
        · intro id ho
          obtain ⟨o1, o2⟩ := g.ovid id ho
          exact ⟨o1, fun j r' hm => o2 j r' ((hsub _).1 hm).1⟩
      · exact ⟨fun r' hr' => g.att r' ((hlk r').1 hr'), fun r' => (hlk r').trans (g.lnk r'), g.chb, g.chn, g.chain⟩
      · refine ⟨fun x hx => g.fit x ((hsub x).1 hx).1, ?_, ?_⟩
        · rw [← hrs]
          exact g.offs.sublist (List.filter_sublist.map _)
        · rw [← hrs]
          exact g.idn.sublist (List.filter_sublist.map _)
    · intro j hj; simp [setPc, upd, hj]
    · intro t2 ht2
      have : t2 = { t' with pc := .evict tickets resp } := by simpa [setPc, upd] using ht2.symm
      rw [this]
      exact ⟨hi, fun tk htk => ⟨(htick tk htk).1, fun x hx a ha => (htick tk htk).2 x hx a ((hcell _ _).1 ha)⟩, LockOk.none rfl⟩
    · intro x hx
      obtain ⟨h1, h2⟩ := (hsub x).1 hx
      refine .inr (.inl ⟨h1, fun t2 ht2 ho => ?_⟩)
      rw [ht] at ht2
      cases ht2
      rw [hp] at ho
      have ho : x.1 = Own.dying i ∧ free = regs c.pages x.2 := ho
      apply h2
      have e1 := meta_last (pages := c.pages) x.2
      have e2 := meta_last (pages := c.pages) r
      rw [← ho.2, r2, e2] at e1
      simp only [Option.some.injEq, Prod.mk.injEq] at e1
      exact e1.1.symm

/-- libblobd-lite/src/overlay.rs:51-75 -/
theorem step_evict {i : Nat} {t : Thread} (t' : Thread) {k : Overlay.Ticket Cell} {ks : List (Overlay.Ticket Cell)} {resp : Resp} {fs : List Fault}
    (ht : s.thr i = some t) (hp : t.pc = .evict (k :: ks) resp) (hcopy : copyHeld s k.key = false) :
    ∃ v', LInv c (setPc { s with ov := s.ov.evict k, faults := fs } i t' (.evict ks resp)) base v' leak ∧ v'.ch = v.ch := by
  obtain ⟨hi, hpc⟩ := h.thr i t ht
  rw [hp] at hpc
  have hpc : Tick c v none (k :: ks) := hpc
  have g := h.good
  have hcell : ∀ k' a, CellAt c { v with ov := v.ov.evict k } k' a ↔ CellAt c v k' a := by
    intro k' a; cases k' <;> rfl
  have hev : ∀ k' n x, (v.ov.evict k).map k' = some (n, x) → v.ov.map k' = some (n, x) := by
    intro k' n x hx
    simp only [Overlay.Ov.evict] at hx
    split at hx
    · rename_i e
      rw [e]
      split at hx
      · split at hx
        · cases hx
        · rename_i heq _; rw [heq]; exact hx
      · cases hx
    · exact hx
  have hnone : ∀ k', (v.ov.evict k).map k' = none → v.ov.map k' = none ∨ (k' = k.key ∧ ∃ x, v.ov.map k' = some (k.serial, x)) := by
    intro k' hx
    simp only [Overlay.Ov.evict] at hx
    split at hx
    · rename_i e
      rw [e]
      split at hx
      · split at hx
        · rename_i heq hs
          exact .inr ⟨rfl, _, by rw [heq, hs]⟩
        · cases hx
      · rename_i heq; exact .inl heq
    · exact .inl hx
  have hget : ∀ k' x, (v.ov.evict k).get k' = some x → v.ov.get k' = some x := by
    intro k' x hx
    unfold Overlay.Ov.get at hx ⊢
    cases hm : (v.ov.evict k).map k' with
    | none => rw [hm] at hx; cases hx
    | some nx =>
      rw [hm] at hx
      rw [hev k' nx.1 nx.2 hm]
      exact hx
  refine ⟨{ v with ov := v.ov.evict k }, h.build (i := i) (P := fun _ => False) (E := fun k' => k' = k.key) ?_ h.jinv h.L h.U ?_ h.heap ?_ ?_
    (Nat.le_refl _) ?_ (fun _ _ _ _ _ _ _ h => h) ?_ h.abs h.orph
    (.quiet (fun _ h => h) (fun t2 ht2 => by rw [ht] at ht2; cases ht2; rw [hp]; trivial)), rfl⟩
  · refine ⟨fun _ _ => rfl, fun _ _ _ _ => ⟨rfl, rfl⟩, ?_, fun _ _ _ h => ⟨h, fun h => h, rfl⟩, fun _ _ _ h => ⟨h, fun _ ht _ _ _ => ht⟩, Nat.le_refl _, ?_⟩
    · intro _ _ _ _ k' _ he hn
      rcases hnone k' hn with h' | ⟨h', _⟩
      · exact h'
      · exact absurd h' he
    · intro k' n x hk' _
      exact ⟨hev k' n x hk', fun a ha => ⟨(hcell k' a).1 ha, fun _ ht _ _ _ => ht⟩⟩
  · show v.ov.evict k = s.ov.evict k
    rw [h.ov]
  · refine { toCells := ⟨g.pend, ?_, ?_, ?_, ?_⟩, toLists := ⟨g.att, g.lnk, g.chb, g.chn, g.chain⟩, toBase := g.toBase }
    · intro k' a x hk' hg
      exact g.cur k' a x ((hcell k' a).1 hk') (hget k' x hg)
    · intro k' a hk' hn
      have hk2 := (hcell k' a).1 hk'
      rcases hnone k' hn with h' | ⟨h', x, hx⟩
      · exact g.quiet k' a hk2 h'
      · subst h'
        exact (hpc k (by simp)).2 x hx a hk2
    · intro id ho
      refine g.ovid id ?_
      rcases ho with ho | ho
      · left
        intro hn
        cases hm : (v.ov.evict k).map (.state id) with
        | none => exact ho hm
        | some nx => rw [hev _ nx.1 nx.2 hm] at hn; cases hn
      · right
        intro hn
        cases hm : (v.ov.evict k).map (.next id) with
        | none => exact ho hm
        | some nx => rw [hev _ nx.1 nx.2 hm] at hn; cases hn
    · intro k' n x hx
      exact g.ser k' n x (hev k' n x hx)
  · intro j hj; simp [setPc, upd, hj]
  · intro t2 ht2
    have : t2 = { t' with pc := .evict ks resp } := by simpa [setPc, upd] using ht2.symm
    rw [this]
    refine ⟨hi, fun tk htk => ?_, LockOk.none rfl⟩
    obtain ⟨h1, h2⟩ := hpc tk (List.mem_cons_of_mem _ htk)
    exact ⟨h1, fun x hx a ha => h2 x (hev _ _ _ hx) a ((hcell _ _).1 ha)⟩
  · intro j t2 hj ht2 raw hraw
    unfold copyHeld at hcopy
    have := List.any_eq_false.1 hcopy j (List.mem_range.2 (h.thr j t2 ht2).1)
    rw [ht2] at this
    simp only [Bool.not_eq_true] at this
    have := List.any_eq_false.1 this raw hraw
    simp only [Bool.not_eq_true, Bool.or_eq_false_iff, decide_eq_false_iff_not] at this
    exact ⟨fun e => this.1 e.symm, fun e => this.2 e.symm⟩

end
end Lite
end Blobd
