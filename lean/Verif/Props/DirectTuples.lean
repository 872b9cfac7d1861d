import Verif.Proofs.DirectSettled
import Verif.Proofs.DirectTuple
/-!
# Properties C24–C26: persisted tuples and the tuple index of the direct store
-/
namespace Blobd
namespace Props
open Direct Direct.TS List

/-! ### C24 -/

/-- **C24.** A tuple is decoded exactly as it was encoded, whatever the buffer held before; a bundle
page built from any list of tuples that fits decodes to the same list, whatever uninitialised bytes the
page buffer contained; writing it changes only that bundle; and a freshly formatted area decodes to
empty bundles. -/
theorem C24_tuple_roundtrip (t : Tuple) (h : TupleFits t) (out : List Byte) (ho : out.length = 24) :
    (t.serialise out).length = 24 ∧ Tuple.deserialise (t.serialise out) = some t :=
  ⟨serialise_length ho, deserialise_serialise h ho⟩

theorem C24_bundle_roundtrip (pages : Pages) (ts : List Tuple) (hfit : ∀ t ∈ ts, TupleFits t)
    (hlen : ts.length ≤ 2 ^ pages.spage / 24) (page : List Byte) (hp : page.length = 2 ^ pages.spage) (dev : Mem) (b c : Nat) :
    loadBundle pages (writeBundle pages dev b (encodeBundle pages ts page)) c =
      if c = b then some ts else loadBundle pages dev c := by
  obtain ⟨h1, h2⟩ := decode_encode (pages := pages) hfit hlen hp
  rw [loadBundle_writeBundle h1, h2]

theorem C24_formatted_empty (pages : Pages) (h : 24 ≤ 2 ^ pages.spage) (dev : Mem) (areaLen b : Nat)
    (hb : (b + 1) * 2 ^ pages.spage ≤ areaLen) : loadBundle pages (formatted dev areaLen) b = some [] :=
  loadBundle_formatted h dev areaLen b hb

/-- hypotheses met: two tuples with extreme field values in a 512-byte page -/
example : ∀ t ∈ [(⟨.committed, 2 ^ 128 - 1, 2 ^ 48 - 1, 255⟩ : Tuple), ⟨.incomplete, 0, 512, 9⟩],
    TupleFits t ∧ 2 ≤ 2 ^ (⟨9, 24⟩ : Pages).spage / 24 := by
  intro t ht
  simp only [mem_cons, not_mem_nil, or_false] at ht
  rcases ht with rfl | rfl <;> exact ⟨⟨by decide, by decide, by decide⟩, by decide⟩

/-! ### C25 -/

/-- **C25.** In every execution (operations and background rounds interleaved arbitrarily): whenever
the background loop has caught up, the device holds exactly one tuple per live object, namely its
latest one, and nothing else; no bundle holds more than `max`. The map `L` of live objects is changed
only by the operations' specifications (Spec/DirectTuples.lean). -/
theorem C25_disk_exact_when_quiet (max n : Nat) (s : TS) (L : Live) (h : TReach max n s L) (hq : Quiet n s) :
    (∀ t, OnDisk n s t ↔ L t.id = some t) ∧
    (∀ b, b < n → (s.disk b).length ≤ max ∧ ((s.disk b).map (·.id)).Nodup) ∧
    (∀ b c t u, b < n → c < n → t ∈ s.disk b → u ∈ s.disk c → t.id = u.id → b = c) := by
  have hi := treach_inv h
  have hd : ∀ b, b < n → s.disk b = s.bundles b := fun b hb => (hi.clean b hb (hq.2 b hb)).2 hq.1
  refine ⟨fun t => ?_, fun b hb => ?_, fun b c t u hb hc ht hu he => ?_⟩
  · rw [treach_live h]
    constructor
    · rintro ⟨b, hb, ht⟩; exact ⟨rfl, b, hb, by rw [← hd b hb]; exact ht⟩
    · rintro ⟨_, b, hb, ht⟩; exact ⟨b, hb, by rw [hd b hb]; exact ht⟩
  · rw [hd b hb]; exact ⟨hi.cap b hb, hi.nodup b hb⟩
  · rw [hd b hb] at ht
    rw [hd c hc] at hu
    exact (hi.uniq hb hc ht hu he).1

/-- runs of the background loop alone -/
inductive BgRun (n : Nat) : TS → TS → Prop
  | refl (s : TS) : BgRun n s s
  | step {s t u : TS} : BgStep n s t → BgRun n t u → BgRun n s u

theorem BgRun.trans {n : Nat} {s t u : TS} (h : BgRun n s t) (h' : BgRun n t u) : BgRun n s u := by
  induction h with
  | refl => exact h'
  | step hs _ ih => exact .step hs (ih h')

theorem drain {n : Nat} : ∀ (ws : List (Nat × List Tuple)) (sig : List Nat) (s : TS), s.batch = some (ws, sig) →
    ∃ s', BgRun n s s' ∧ s'.batch = none ∧ s'.dirty = s.dirty ∧ s'.waiting = s.waiting ∧ s'.next = s.next := by
  intro ws
  induction ws with
  | nil =>
    intro sig s hb
    refine ⟨_, .step (.signal (s' := { s with batch := none, fired := s.fired ++ sig }) (by simp [signal, hb])) (.refl _), rfl, rfl, rfl, rfl⟩
  | cons w ws ih =>
    intro sig s hb
    obtain ⟨s', hr, h1, h2, h3, h4⟩ := ih sig { s with batch := some (ws, sig), disk := upd s.disk w.1 w.2 } rfl
    exact ⟨s', .step (.write 0 (by simp [writePage, hb])) hr, h1, h2, h3, h4⟩

/-- The background loop can always catch up, and then every waiting operation has been acknowledged. -/
theorem C25_catches_up (max n : Nat) (s : TS) (L : Live) (h : TReach max n s L) :
    ∃ s', BgRun n s s' ∧ Quiet n s' ∧ TReach max n s' L ∧ ∀ t, t < s.next → t ∈ s'.fired := by
  have runReach : ∀ {s s' : TS}, BgRun n s s' → TReach max n s L → TReach max n s' L := by
    intro s s' hr h
    induction hr with
    | refl => exact h
    | step hs _ ih => exact ih (.bg h hs)
  have finish : ∀ s : TS, s.batch = none → TReach max n s L →
      ∃ s', BgRun n s s' ∧ Quiet n s' ∧ TReach max n s' L ∧ s'.waiting = [] ∧ s'.batch = none ∧ s'.next = s.next := by
    intro s hb hr
    cases hbt : (s.snapshot n).batch with
    | none =>
      exact ⟨_, .step (.snapshot hb) (.refl _), ⟨hbt, fun _ _ => rfl⟩, .bg hr (.snapshot hb), rfl, hbt, rfl⟩
    | some p =>
      obtain ⟨ws, sig⟩ := p
      obtain ⟨s', hrun, h1, h2, h3, h4⟩ := drain (n := n) ws sig _ hbt
      refine ⟨s', .step (.snapshot hb) hrun, ⟨h1, fun b _ => by rw [h2]; rfl⟩, runReach hrun (.bg hr (.snapshot hb)),
        by rw [h3]; rfl, h1, by rw [h4]; rfl⟩
  have main : ∃ s0, BgRun n s s0 ∧ s0.batch = none ∧ s0.next = s.next := by
    cases hbt : s.batch with
    | none => exact ⟨s, .refl _, hbt, rfl⟩
    | some p =>
      obtain ⟨ws, sig⟩ := p
      obtain ⟨s', hrun, h1, _, _, h4⟩ := drain (n := n) ws sig s hbt
      exact ⟨s', hrun, h1, h4⟩
  obtain ⟨s0, hr0, hb0, hn0⟩ := main
  obtain ⟨s', hr', hq, hreach, hw, hb, hn⟩ := finish s0 hb0 (runReach hr0 h)
  refine ⟨s', hr0.trans hr', hq, hreach, fun t ht => ?_⟩
  rcases (treach_tickets hreach).some t (by omega) with h1 | h1 | h1
  · rw [hw] at h1; simp at h1
  · simp [TS.sig, hb] at h1
  · exact h1

/-- executions in which a fact about the live map stays true -/
inductive TRun (max n : Nat) (ok : Live → Prop) : TS → Live → TS → Live → Prop
  | refl (s : TS) (L : Live) : TRun max n ok s L s L
  | insert {s t u : TS} {L M : Live} (r : TRun max n ok s L t M) (o : Tuple) (hs : t.insertObject max n o = some u)
      (hk : ok (upd M o.id (some o))) : TRun max n ok s L u (upd M o.id (some o))
  | update {s t u : TS} {L M : Live} (r : TRun max n ok s L t M) (cur new : Nat) (st : ObjState)
      (hs : t.updateObject max cur new st = some u)
      (hk : ok (upd (upd M cur none) new ((M cur).map (fun t => { t with id := new, state := st })))) :
      TRun max n ok s L u (upd (upd M cur none) new ((M cur).map (fun t => { t with id := new, state := st })))
  | delete {s t u : TS} {L M : Live} (r : TRun max n ok s L t M) (id : Nat) (tp : Tuple)
      (hs : t.deleteObject id = some (u, tp)) (hk : ok (upd M id none)) : TRun max n ok s L u (upd M id none)
  | bg {s t u : TS} {L M : Live} (r : TRun max n ok s L t M) (hs : BgStep n t u) : TRun max n ok s L u M

theorem stays {max n : Nat} {s s' : TS} {L' : Live} (hi : TInv max n s) (hs : Step max n s s') (hr' : TReach max n s' L') {o : Tuple} {b : Nat}
    (hb : b < n) (ho : o ∈ s.bundles b) (hL : L' o.id = some o) : o ∈ s'.bundles b := by
  obtain ⟨_, c, hc, hoc⟩ := (treach_live hr' o.id o).1 hL
  by_cases hcb : c = b
  · rw [← hcb]; exact hoc
  · have key : ∀ d, MemOp s s' d → o ∈ s'.bundles b := by
      intro d hm
      by_cases hbd : b = d
      · have h2 := hm.others c (by omega)
        rw [h2] at hoc
        exact absurd (hi.uniq hc hb hoc ho rfl).1 hcb
      · rw [hm.others b hbd]; exact ho
    cases hs with
    | insert o hs => obtain ⟨d, hm, _⟩ := insert_memOp hs; exact key d hm
    | update c nw st hs => obtain ⟨d, hm, _⟩ := update_memOp hs; exact key d hm
    | delete id t hs => obtain ⟨d, hm, _⟩ := delete_memOp hs; exact key d hm
    | bg hs => rw [(bg_bundles hs).1]; exact ho

theorem durable_of_settled {max n : Nat} {o : Tuple} {k : Nat} {s t : TS} {L M : Live}
    (hr : TReach max n s L) (hL : L o.id = some o)
    (hset : ∃ b, b < n ∧ o ∈ s.bundles b ∧ Settled s b (fun l => o ∈ l) k)
    (r : TRun max n (fun M => M o.id = some o) s L t M) :
    TReach max n t M ∧ M o.id = some o ∧ ∃ b, b < n ∧ o ∈ t.bundles b ∧ Settled t b (fun l => o ∈ l) k := by
  induction r with
  | refl => exact ⟨hr, hL, hset⟩
  | insert r o' hs hk ih =>
    obtain ⟨hr', _, b, hb, hob, hset⟩ := ih hr hL
    have hreach := TReach.insert hr' o' hs
    have hin := stays (treach_inv hr') (.insert o' hs) hreach hb hob hk
    exact ⟨hreach, hk, b, hb, hin, settled_step (treach_inv hr') (treach_tickets hr') hb hset (.insert o' hs) hin⟩
  | update r c nw st hs hk ih =>
    obtain ⟨hr', _, b, hb, hob, hset⟩ := ih hr hL
    have hreach := TReach.update hr' c nw st hs
    have hin := stays (treach_inv hr') (.update c nw st hs) hreach hb hob hk
    exact ⟨hreach, hk, b, hb, hin, settled_step (treach_inv hr') (treach_tickets hr') hb hset (.update c nw st hs) hin⟩
  | delete r id tp hs hk ih =>
    obtain ⟨hr', _, b, hb, hob, hset⟩ := ih hr hL
    have hreach := TReach.delete hr' id tp hs
    have hin := stays (treach_inv hr') (.delete id tp hs) hreach hb hob hk
    exact ⟨hreach, hk, b, hb, hin, settled_step (treach_inv hr') (treach_tickets hr') hb hset (.delete id tp hs) hin⟩
  | bg r hs ih =>
    obtain ⟨hr', hM, b, hb, hob, hset⟩ := ih hr hL
    have hreach := TReach.bg hr' hs
    have hin := stays (treach_inv hr') (.bg hs) hreach hb hob hM
    exact ⟨hreach, hM, b, hb, hin, settled_step (treach_inv hr') (treach_tickets hr') hb hset (.bg hs) hin⟩

/-- **C25 (acknowledged means durable).** Insert a tuple; however the execution continues while that
tuple stays the object's current one, once the insert has been acknowledged (its ticket fired) the tuple
is on the device. -/
theorem C25_acknowledged_insert_on_disk (max n : Nat) (s s1 t : TS) (L M : Live) (h : TReach max n s L) (o : Tuple)
    (hs : s.insertObject max n o = some s1)
    (r : TRun max n (fun M => M o.id = some o) s1 (upd L o.id (some o)) t M) (hf : s.next ∈ t.fired) : OnDisk n t o := by
  obtain ⟨b, hm, hch, hbun⟩ := insert_memOp hs
  have hb := (choose_lt (treach_inv h) hch).1
  have hin : o ∈ s1.bundles b := by rw [hbun]; simp
  obtain ⟨_, _, c, hc, _, hset⟩ := durable_of_settled (k := s.next) (.insert h o hs) (upd_same _ _ _)
    ⟨b, hb, hin, settled_start (treach_tickets h) hm hin⟩ r
  exact ⟨c, hc, (hset.fired hf).2⟩

/-- … and likewise an acknowledged change of id and state (which is what a commit does). -/
theorem C25_acknowledged_update_on_disk (max n : Nat) (s s1 t : TS) (L M : Live) (h : TReach max n s L) (cur new : Nat)
    (st : ObjState) (o : Tuple) (hL : L cur = some o) (hs : s.updateObject max cur new st = some s1)
    (r : TRun max n (fun M => M new = some { o with id := new, state := st }) s1
      (upd (upd L cur none) new (some { o with id := new, state := st })) t M)
    (hf : s.next ∈ t.fired) : OnDisk n t { o with id := new, state := st } := by
  have hreach := TReach.update h cur new st hs
  rw [hL, Option.map_some] at hreach
  obtain ⟨_, b, hb, hin⟩ := (treach_live hreach new { o with id := new, state := st }).1 (upd_same _ _ _)
  obtain ⟨d, hm, hd⟩ := update_memOp hs
  have hbd : b = d := by
    by_contra hne
    rw [hm.others b hne] at hin
    obtain ⟨b', t', ht', ht'm, ht'id, hnn, hnew, rfl⟩ := update_eq hs
    obtain ⟨hb'n, _⟩ := ((treach_inv h).idx cur b').1 ht'
    by_cases hcn : new = cur
    · have := (treach_inv h).uniq hb hb'n hin ht'm (by simp [ht'id, hcn])
      have hd2 : b' = d := Option.some.inj (ht'.symm.trans hd)
      exact hne (this.1.trans hd2)
    · have := ((treach_inv h).idx new b).2 ⟨hb, _, hin, rfl⟩
      rw [upd_ne hcn, this] at hnew
      simp at hnew
  subst hbd
  obtain ⟨_, _, c, hc, _, hset⟩ := durable_of_settled (k := s.next) (o := { o with id := new, state := st }) hreach (upd_same _ _ _)
    ⟨b, hb, hin, settled_start (treach_tickets h) hm hin⟩ r
  exact ⟨c, hc, (hset.fired hf).2⟩

/-- The bytes: if the device decodes to `disk` before a page write of the background loop, it does after
the write of the encoded page (any uninitialised buffer contents). -/
theorem C25_bytes_follow (pages : Pages) (n : Nat) (s s' : TS) (dev : Mem) (i : Nat)
    (hdev : ∀ c, c < n → loadBundle pages dev c = some (s.disk c)) (hs : s.writePage i = some s') (page : List Byte)
    (hp : page.length = 2 ^ pages.spage) :
    ∃ b ts, (∀ c, s'.disk c = if c = b then ts else s.disk c) ∧
      ((∀ t ∈ ts, TupleFits t) → ts.length ≤ 2 ^ pages.spage / 24 →
        ∀ c, c < n → loadBundle pages (writeBundle pages dev b (encodeBundle pages ts page)) c = some (s'.disk c)) := by
  obtain ⟨ws, sig, b, ts, hb, hw, rfl⟩ := writePage_eq hs
  refine ⟨b, ts, fun c => rfl, fun hfit hlen c hc => ?_⟩
  rw [C24_bundle_roundtrip pages ts hfit hlen page hp]
  show _ = some (upd s.disk b ts c)
  unfold upd
  split
  · rfl
  · exact hdev c hc

/-- a concrete execution: insert, background round in the middle of a second insert, commit, delete -/
example : ∃ s L, TReach 2 2 s L ∧ Quiet 2 s ∧ OnDisk 2 s ⟨.committed, 7, 1024, 9⟩ := by
  let s0 := TS.new 2 2 (fun _ => [])
  have h0 : TReach 2 2 s0 (fun _ => none) := .init _ ⟨by simp, by simp, by simp, by simp⟩ _ (by simp)
  have h1 := TReach.insert h0 ⟨.incomplete, 5, 1024, 9⟩ rfl
  have h2 := TReach.bg h1 (.snapshot rfl)
  have h3 := TReach.insert h2 ⟨.incomplete, 6, 2048, 9⟩ rfl
  have h4 := TReach.update h3 5 7 .committed rfl
  obtain ⟨s', _, hq, hr, _⟩ := C25_catches_up _ _ _ _ h4
  refine ⟨s', _, hr, hq, ?_⟩
  rw [(C25_disk_exact_when_quiet _ _ _ _ hr hq).1]
  rfl

/-! ### C26 -/

/-- **C26 (partial).** The only way an operation on live objects with fresh ids fails is an insert
finding neither a free bundle nor a free-and-dirty one: updates and deletes of live objects never
panic, and an insert panics exactly when both sets are empty. Missing: these sets do not contain every
bundle with room, see `C26_violated_slots_lost`. -/
theorem C26_panics_only_without_free_bundle_partial (max n : Nat) (s : TS) (L : Live) (h : TReach max n s L) :
    (∀ o, L o.id = none → (s.insertObject max n o = none ↔
      ∀ b, b < n → s.free b = false ∧ s.freeDirty b = false)) ∧
    (∀ cur new st t, L cur = some t → (new = cur ∨ L new = none) → s.updateObject max cur new st ≠ none) ∧
    (∀ id t, L id = some t → ∃ s', s.deleteObject id = some (s', t)) := by
  have hi := treach_inv h
  have hlive := treach_live h
  have htb : ∀ x, L x = none → s.toBundle x = none := by
    intro x hx
    cases hb : s.toBundle x with
    | none => rfl
    | some b =>
      obtain ⟨hbn, t, ht, he⟩ := (hi.idx x b).1 hb
      have := (hlive x t).2 ⟨he, b, hbn, ht⟩
      rw [hx] at this; simp at this
  have hfind : ∀ x t, L x = some t → ∃ b, s.toBundle x = some b ∧ b < n ∧ t ∈ s.bundles b ∧
      (s.bundles b).find? (fun u => u.id == x) = some t := by
    intro x t hx
    obtain ⟨he, b, hb, ht⟩ := (hlive x t).1 hx
    refine ⟨b, (hi.idx x b).2 ⟨hb, t, ht, he⟩, hb, ht, ?_⟩
    cases hf : (s.bundles b).find? (fun u => u.id == x) with
    | none =>
      have := find?_eq_none.1 hf t ht
      simp [he] at this
    | some u =>
      have h1 := mem_of_find?_eq_some hf
      have h2 : u.id = x := by simpa using find?_some hf
      rw [(hi.uniq hb hb h1 ht (h2.trans he.symm)).2]
  refine ⟨fun o ho => ⟨fun hn => ?_, fun hn => ?_⟩, ?_, ?_⟩
  · cases hm : (bmMin n s.freeDirty).or (bmMin n s.free) with
    | none =>
      rw [Option.or_eq_none_iff] at hm
      exact fun b hb => ⟨bmMin_none hm.2 hb, bmMin_none hm.1 hb⟩
    | some b =>
      exfalso
      obtain ⟨hbn, hlt, _⟩ := choose_lt hi hm
      have hany : (s.bundles b).any (fun t => t.id == o.id) = false := by
        rw [any_eq_false]
        intro t ht he
        have := (hlive o.id t).2 ⟨by simpa using he, b, hbn, ht⟩
        rw [ho] at this; simp at this
      unfold insertObject at hn
      rw [hm] at hn
      simp only [Option.bind_eq_bind, Option.bind_some] at hn
      rw [if_neg (by rw [htb _ ho]; simp), if_neg (by simp [hany]), if_neg (by simp only [length_append, length_cons, length_nil]; omega)] at hn
      simp at hn
  · have h1 : bmMin n s.freeDirty = none := find?_eq_none.2 (fun b hb => by simp [(hn b (by simpa using hb)).2])
    have h2 : bmMin n s.free = none := find?_eq_none.2 (fun b hb => by simp [(hn b (by simpa using hb)).1])
    unfold insertObject
    rw [h1, h2]
    rfl
  · intro cur new st t hc hnew
    obtain ⟨b, hb, hbn, ht, hf⟩ := hfind cur t hc
    unfold updateObject
    rw [hb]
    simp only [Option.bind_eq_bind, Option.bind_some, hf]
    have hnb : ∀ u c, c < n → u ∈ s.bundles c → u.id ≠ cur → u.id ≠ new := by
      intro u c hcn hu hne he
      rcases hnew with rfl | hnew
      · exact hne he
      · have := (hlive new u).2 ⟨he, c, hcn, hu⟩
        rw [hnew] at this; simp at this
    have hany : ((s.bundles b).filter (fun t => t.id != cur)).any (fun t => t.id == new) = false := by
      rw [any_eq_false]
      intro u hu
      obtain ⟨h1, h2⟩ := mem_filter.1 hu
      simpa using hnb u b hbn h1 (by simpa using h2)
    have htn : (upd s.toBundle cur none) new = none := by
      rcases hnew with rfl | hnew
      · rw [upd_same]
      · by_cases hcn : new = cur
        · rw [hcn, upd_same]
        · rw [upd_ne hcn]; exact htb new hnew
    rw [if_neg (by simp [hany]), if_neg (by simp [htn])]
    simp
  · intro id t hid
    obtain ⟨b, hb, hbn, ht, hf⟩ := hfind id t hid
    unfold deleteObject
    rw [hb]
    simp only [Option.bind_eq_bind, Option.bind_some, hf]
    exact ⟨_, rfl⟩

/-- A bundle that has once left the free set never returns to it, whatever is deleted from it. -/
theorem C26_never_free_again (max n : Nat) (s s' : TS) (h : TS.Step max n s s') (b : Nat) (hb : s.free b = false) :
    s'.free b = false := by
  cases h with
  | insert o hs =>
    obtain ⟨c, _, _, _, _, rfl⟩ := insert_eq hs
    simp only
    split
    · unfold upd; split
      · rfl
      · exact hb
    · exact hb
  | update c nw st hs => obtain ⟨_, _, _, _, _, _, _, rfl⟩ := update_eq hs; exact hb
  | delete id t hs => obtain ⟨_, _, _, _, rfl⟩ := delete_eq hs; exact hb
  | bg hs => rw [(bg_bundles hs).2.2]; exact hb

/-- **C26 is violated.** For a tuple area of one bundle and every bundle capacity `max ≥ 1` there is an
execution after which *no* object exists at all, and yet the next create panics with "run out of space
for tuples": fill the bundle, let the background loop run, delete everything, let it run again. -/
theorem C26_violated_slots_lost (max : Nat) (hmax : 0 < max) :
    ∃ s L, TReach max 1 s L ∧ (∀ x, L x = none) ∧ Quiet 1 s ∧ ∀ o, s.insertObject max 1 o = none := by
  have h0 : TReach max 1 (TS.new max 1 (fun _ => [])) (fun _ => none) :=
    .init _ ⟨by simp, by simp, by simp, by simp⟩ _ (by simp)
  -- fill
  have fill : ∀ k, k ≤ max → ∃ s L, TReach max 1 s L ∧ (s.bundles 0).length = k ∧
      (∀ x, L x ≠ none ↔ x < k) ∧ (s.free 0 = decide (k < max)) := by
    intro k
    induction k with
    | zero =>
      intro _
      exact ⟨_, _, h0, rfl, by simp, by simp [TS.new]⟩
    | succ k ih =>
      intro hk
      obtain ⟨s, L, hr, hlen, hL, hfree⟩ := ih (by omega)
      have hLk : L k = none := by
        by_contra hc; have := (hL k).1 hc; omega
      have hp := (C26_panics_only_without_free_bundle_partial max 1 s L hr).1 ⟨.incomplete, k, 0, 0⟩ hLk
      cases hs : s.insertObject max 1 ⟨.incomplete, k, 0, 0⟩ with
      | none =>
        have := (hp.1 hs 0 (by omega)).1
        rw [hfree] at this
        simp at this; omega
      | some s' =>
        refine ⟨s', _, .insert hr _ hs, ?_, ?_, ?_⟩
        · obtain ⟨b, hm, _, hbun⟩ := insert_memOp hs
          obtain ⟨hb, _⟩ := choose_lt (treach_inv hr) (by assumption)
          have : b = 0 := by omega
          subst this
          rw [hbun, length_append, hlen]; rfl
        · intro x
          simp only
          by_cases hx : x = k
          · subst hx; rw [upd_same]; simp
          · rw [upd_ne hx, hL]; omega
        · obtain ⟨b, hm, _, _, _, rfl⟩ := insert_eq hs
          obtain ⟨hb, _⟩ := choose_lt (treach_inv hr) hm
          have : b = 0 := by omega
          subst this
          simp only [length_append, length_cons, length_nil, hlen, Nat.zero_add]
          split
          · rename_i he; rw [upd_same]; simp [← he]
          · rw [hfree]
            have h1 : k < max := by omega
            have h2 : k + 1 < max := by omega
            simp [h1, h2]
  -- empty
  have empty : ∀ k s L, TReach max 1 s L → s.free 0 = false → (∀ x, L x ≠ none → x < k) →
      ∃ s' L', TReach max 1 s' L' ∧ s'.free 0 = false ∧ ∀ x, L' x = none := by
    intro k
    induction k with
    | zero => intro s L hr hf hL; exact ⟨s, L, hr, hf, fun x => by by_contra hc; exact absurd (hL x hc) (by omega)⟩
    | succ k ih =>
      intro s L hr hf hL
      cases hk : L k with
      | none =>
        refine ih s L hr hf (fun x hx => ?_)
        have := hL x hx
        by_cases he : x = k
        · subst he; exact absurd hk hx
        · omega
      | some t =>
        obtain ⟨s', hs⟩ := (C26_panics_only_without_free_bundle_partial max 1 s L hr).2.2 k t hk
        refine ih s' _ (.delete hr k t hs) (C26_never_free_again max 1 s s' (.delete k t hs) 0 hf) (fun x hx => ?_)
        by_cases he : x = k
        · subst he; rw [upd_same] at hx; exact absurd rfl hx
        · rw [upd_ne he] at hx; have := hL x hx; omega
  obtain ⟨s, L, hr, _, hL, hf⟩ := fill max (by omega)
  obtain ⟨s1, L1, hr1, hf1, hL1⟩ := empty max s L hr (by rw [hf]; simp) (fun x hx => (hL x).1 hx)
  obtain ⟨s2, hrun, hq2, hr2, hfired⟩ := C25_catches_up max 1 s1 L1 hr1
  clear hfired
  have hf2 : s2.free 0 = false := by
    clear hq2 hr2
    induction hrun with
    | refl => exact hf1
    | step hs _ ih =>
      exact ih (.bg hr1 hs) (C26_never_free_again max 1 _ _ (.bg hs) 0 hf1)
  have hr3 := TReach.bg hr2 (.snapshot hq2.1)
  refine ⟨_, _, hr3, hL1, ⟨?_, fun _ _ => rfl⟩, fun o => ?_⟩
  · simp [TS.snapshot, hq2.2]
  · rw [(C26_panics_only_without_free_bundle_partial max 1 _ L1 hr3).1 o (hL1 _)]
    intro b hb
    have : b = 0 := by omega
    subst this
    exact ⟨hf2, rfl⟩

end Props
end Blobd
