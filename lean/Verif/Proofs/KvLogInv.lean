import Verif.Proofs.KvLog
/-! # The KV ring log: invariant of the running log -/
namespace Blobd
namespace Kv

/-- a flush whose records start at virtual offset `v` -/
structure FlushOk (c : LogCfg) (v : Nat) (f : Flush) : Prop where
  le : v ≤ f.newTail
  aligned : 2 ^ c.spage ∣ f.newTail
  /-- its writes only touch ring bytes of `[v, newTail)` -/
  inside : ∀ w ∈ f.writes, ∀ x, w.1 ≤ x → x < w.1 + w.2.length →
    ∃ y, v ≤ y ∧ y < f.newTail ∧ y % c.dataLen = x
  /-- once performed, the ring holds its records -/
  lands : ∀ data : Mem, Holds c (data.writeAll f.writes) v f.recs f.newTail

/-- the flushes in flight cover `[v, vtail)` one after another -/
def InflightOk (c : LogCfg) (data : Mem) : Nat → List Flush → Nat → Prop
  | v, [], vtail => v = vtail
  | v, f :: fs, vtail => FlushOk c v f ∧ (f.done = true → Holds c data v f.recs f.newTail) ∧
      InflightOk c data f.newTail fs vtail

structure LogInv (c : LogCfg) (s : LogSt) (recs : List Rec) : Prop where
  holds : Holds c s.data s.head recs s.tail
  flight : InflightOk c s.data s.tail s.inflight s.vtail
  space : s.vtail < s.head + c.dataLen
  headAl : 2 ^ c.spage ∣ s.head
  tailAl : 2 ^ c.spage ∣ s.tail
  vtailAl : 2 ^ c.spage ∣ s.vtail

theorem InflightOk.le {c : LogCfg} {data : Mem} {v vt : Nat} {fs : List Flush}
    (h : InflightOk c data v fs vt) : v ≤ vt := by
  induction fs generalizing v with
  | nil => exact Nat.le_of_eq h
  | cons f fs ih => exact Nat.le_trans h.1.le (ih h.2.2)

theorem InflightOk.append {c : LogCfg} {data : Mem} {v vt : Nat} {fs : List Flush} {f : Flush}
    (h : InflightOk c data v fs vt) (hf : FlushOk c vt f) (hd : f.done = false) :
    InflightOk c data v (fs ++ [f]) f.newTail := by
  induction fs generalizing v with
  | nil =>
    simp only [InflightOk] at h
    subst h
    exact ⟨hf, by simp [hd], rfl⟩
  | cons g fs ih => exact ⟨h.1, h.2.1, ih h.2.2⟩

theorem mod_inj_window {y z n h : Nat} (hy : h ≤ y) (hy2 : y < h + n) (hz : h ≤ z) (hz2 : z < h + n)
    (e : y % n = z % n) : y = z := by
  have key : ∀ a b : Nat, h ≤ a → b < h + n → a ≤ b → a % n = b % n → a = b := by
    intro a b ha hb hab e
    have hd : n ∣ b - a := by
      have h1 := Nat.div_add_mod a n
      have h2 := Nat.div_add_mod b n
      refine ⟨b / n - a / n, ?_⟩
      rw [Nat.mul_sub]; omega
    rcases Nat.eq_zero_or_pos (b - a) with h0 | h0
    · omega
    · have := Nat.le_of_dvd h0 hd
      omega
  rcases Nat.le_total y z with h1 | h1
  · exact key y z hy hz2 h1 e
  · exact (key z y hz hy2 h1 e.symm).symm

/-- `y` lies in the stretch of a flush whose writes have not completed -/
def InUndone : Nat → List Flush → Nat → Prop
  | _, [], _ => False
  | v, f :: fs, y => (f.done = false ∧ v ≤ y ∧ y < f.newTail) ∨ InUndone f.newTail fs y

theorem inUndone_of_write {c : LogCfg} {data : Mem} {vt : Nat} {g : Flush} (hg : g.done = false)
    {w : Nat × List Byte} (hw : w ∈ g.writes) {x : Nat} (h1 : w.1 ≤ x) (h2 : x < w.1 + w.2.length) :
    ∀ (fs : List Flush) (v : Nat), InflightOk c data v fs vt → g ∈ fs →
      ∃ y, InUndone v fs y ∧ y % c.dataLen = x := by
  intro fs
  induction fs with
  | nil => intro v _ h; cases h
  | cons f fs ih =>
    intro v h hm
    rcases List.mem_cons.1 hm with rfl | hm
    · obtain ⟨y, a, b, e⟩ := h.1.inside w hw x h1 h2
      exact ⟨y, .inl ⟨hg, a, b⟩, e⟩
    · obtain ⟨y, a, e⟩ := ih f.newTail h.2.2 hm
      exact ⟨y, .inr a, e⟩

theorem inUndone_bounds {c : LogCfg} {data : Mem} {vt : Nat} :
    ∀ (fs : List Flush) (v : Nat), InflightOk c data v fs vt → ∀ y, InUndone v fs y → v ≤ y ∧ y < vt := by
  intro fs
  induction fs with
  | nil => intro v _ y h; cases h
  | cons f fs ih =>
    intro v h y hy
    have := h.2.2.le
    have := h.1.le
    rcases hy with ⟨_, a, b⟩ | hy
    · exact ⟨a, by omega⟩
    · have := ih _ h.2.2 y hy; omega

theorem inflight_congr {c : LogCfg} {data data' : Mem} {vt : Nat} :
    ∀ (fs : List Flush) (v : Nat), InflightOk c data v fs vt →
      (∀ y, v ≤ y → y < vt → data' (y % c.dataLen) ≠ data (y % c.dataLen) → InUndone v fs y) →
      InflightOk c data' v fs vt := by
  intro fs
  induction fs with
  | nil => intro v h _; exact h
  | cons f fs ih =>
    intro v h hc
    have hle := h.2.2.le
    have hle1 := h.1.le
    refine ⟨h.1, fun hd => (h.2.1 hd).congr ?_, ih _ h.2.2 ?_⟩
    · intro y h1 h2
      apply Classical.byContradiction
      intro hne
      rcases hc y h1 (by omega) hne with ⟨hf, _⟩ | hu
      · rw [hd] at hf; cases hf
      · have := inUndone_bounds fs _ h.2.2 y hu; omega
    · intro y h1 h2 hne
      rcases hc y (by omega) h2 hne with ⟨_, _, hf⟩ | hu
      · omega
      · exact hu

/-- a change of the ring confined to flushes whose writes have not completed -/
def Confined (s : LogSt) (data' : Mem) : Prop :=
  ∀ x, data' x ≠ s.data x → ∃ f ∈ s.inflight, f.done = false ∧
    ∃ w ∈ f.writes, w.1 ≤ x ∧ x < w.1 + w.2.length

theorem LogInv.confined_undone {c : LogCfg} {s : LogSt} {recs : List Rec} (h : LogInv c s recs) {data' : Mem}
    (hc : Confined s data') (y : Nat) (hy1 : s.head ≤ y) (hy2 : y < s.vtail)
    (hne : data' (y % c.dataLen) ≠ s.data (y % c.dataLen)) : InUndone s.tail s.inflight y := by
  obtain ⟨f, hf, hd, w, hw, h1, h2⟩ := hc _ hne
  obtain ⟨y', hu, e⟩ := inUndone_of_write hd hw h1 h2 s.inflight s.tail h.flight hf
  have hb := inUndone_bounds _ _ h.flight y' hu
  have := h.holds.le
  have := h.space
  have : y = y' := mod_inj_window (n := c.dataLen) (h := s.head) hy1 (by omega) (by omega) (by omega) e.symm
  rw [this]; exact hu

/-- bytes of the ring between head and tail are out of reach of every write in flight -/
theorem LogInv.confined_live {c : LogCfg} {s : LogSt} {recs : List Rec} (h : LogInv c s recs) {data' : Mem}
    (hc : Confined s data') (y : Nat) (hy1 : s.head ≤ y) (hy2 : y < s.tail) :
    data' (y % c.dataLen) = s.data (y % c.dataLen) := by
  apply Classical.byContradiction
  intro hne
  have hle := h.flight.le
  have hu := h.confined_undone hc y hy1 (by omega) hne
  have := inUndone_bounds _ _ h.flight y hu
  omega

theorem LogInv.scribble {c : LogCfg} {s : LogSt} {recs : List Rec} (h : LogInv c s recs) {data' : Mem}
    (hc : Confined s data') : LogInv c { s with data := data' } recs := by
  have hle := h.holds.le
  refine ⟨h.holds.congr (fun y h1 h2 => h.confined_live hc y h1 h2),
    inflight_congr _ _ h.flight (fun y h1 h2 hne =>
      h.confined_undone hc y (Nat.le_trans hle h1) h2 hne),
    h.space, h.headAl, h.tailAl, h.vtailAl⟩

theorem inflight_set {c : LogCfg} {data : Mem} {vt : Nat} :
    ∀ (fs : List Flush) (v i : Nat) (f : Flush), InflightOk c data v fs vt → fs[i]? = some f →
      (∀ v1, FlushOk c v1 f → Holds c data v1 f.recs f.newTail) →
      InflightOk c data v (fs.set i { f with done := true }) vt := by
  intro fs
  induction fs with
  | nil => intro v i f h hi; simp at hi
  | cons g fs ih =>
    intro v i f h hi hh
    cases i with
    | zero =>
      simp only [List.getElem?_cons_zero, Option.some.injEq] at hi
      subst hi
      exact ⟨⟨h.1.le, h.1.aligned, h.1.inside, h.1.lands⟩, fun _ => hh v h.1, h.2.2⟩
    | succ i =>
      simp only [List.getElem?_cons_succ] at hi
      exact ⟨h.1, h.2.1, ih _ i f h.2.2 hi hh⟩

theorem LogInv.finish {c : LogCfg} {s : LogSt} {recs : List Rec} (h : LogInv c s recs) (i : Nat)
    (hd : ∀ f, s.inflight[i]? = some f → f.done = false) : LogInv c (finishFlush s i) recs := by
  unfold finishFlush
  split
  · exact h
  · rename_i f hf
    have hc : Confined s (s.data.writeAll f.writes) := by
      intro x hx
      refine ⟨f, List.mem_of_getElem? hf, hd f hf, ?_⟩
      apply Classical.byContradiction
      intro hno
      apply hx
      apply Mem.writeAll_out
      intro w hw
      apply Classical.byContradiction
      intro hn
      exact hno ⟨w, hw, by omega, by omega⟩
    have h' := h.scribble hc
    exact ⟨h'.holds, inflight_set _ _ _ _ h'.flight hf (fun v1 h1 => h1.lands s.data), h'.space,
      h'.headAl, h'.tailAl, h'.vtailAl⟩

theorem recTasks_recs (f : Flush) : recTasks f.recs = f.tasks := by
  unfold Flush.recs; split <;> simp [recTasks]

theorem inflight_take {c : LogCfg} {data : Mem} {vt : Nat} :
    ∀ (fs : List Flush) (v n : Nat) (l : Flush), InflightOk c data v fs vt →
      (fs.take n).getLast? = some l → (fs.take n).all (·.done) = true →
      Holds c data v ((fs.take n).flatMap (·.recs)) l.newTail ∧ 2 ^ c.spage ∣ l.newTail ∧
      InflightOk c data l.newTail (fs.drop n) vt ∧
      (fs.take n).flatMap (·.tasks) = recTasks ((fs.take n).flatMap (·.recs)) := by
  intro fs
  induction fs with
  | nil => intro v n l h hl; simp at hl
  | cons f fs ih =>
    intro v n l h hl ha
    cases n with
    | zero => simp at hl
    | succ n =>
      simp only [List.take_succ_cons, List.all_cons, Bool.and_eq_true] at ha
      simp only [List.take_succ_cons, List.flatMap_cons, List.drop_succ_cons]
      have hh := h.2.1 ha.1
      have app : ∀ a b : List Rec, recTasks (a ++ b) = recTasks a ++ recTasks b := by
        intro a b; simp [recTasks]
      cases hr : fs.take n with
      | nil =>
        simp only [List.take_succ_cons, hr, List.getLast?_singleton, Option.some.injEq] at hl
        subst hl
        simp only [List.flatMap_nil, List.append_nil]
        refine ⟨hh, h.1.aligned, ?_, (recTasks_recs f).symm⟩
        have : fs = [] ∨ n = 0 := by
          rw [List.take_eq_nil_iff] at hr; exact hr.symm
        rcases this with rfl | rfl
        · simpa using h.2.2
        · simpa using h.2.2
      | cons g gs =>
        have hl' : (fs.take n).getLast? = some l := by
          rw [List.take_succ_cons, hr, List.getLast?_cons_cons] at hl
          rw [hr]; exact hl
        obtain ⟨a1, a2, a3, a4⟩ := ih f.newTail n l h.2.2 hl' ha.2
        rw [← hr]
        exact ⟨hh.append a1, a2, a3, by rw [app, ← a4, recTasks_recs]⟩

theorem LogInv.complete {c : LogCfg} {s s' : LogSt} {n : Nat} {ts : List Task} {recs : List Rec}
    (h : LogInv c s recs) (e : completeFlushes s n = some (s', ts)) :
    LogInv c s' (recs ++ (s.inflight.take n).flatMap (·.recs)) ∧ s'.head = s.head ∧
      ts = recTasks ((s.inflight.take n).flatMap (·.recs)) := by
  unfold completeFlushes at e
  simp only at e
  split at e
  · cases e
  · rename_i l hl
    split at e
    · rename_i hcond
      simp only [Option.some.injEq, Prod.mk.injEq] at e
      obtain ⟨rfl, rfl⟩ := e
      obtain ⟨a1, a2, a3, a4⟩ := inflight_take _ _ _ _ h.flight hl hcond.1
      exact ⟨⟨h.holds.append a1, a3, h.space, h.headAl, a2, h.vtailAl⟩, rfl, a4⟩
    · cases e

theorem recsEnd_aligned {c : LogCfg} (hc : c.Ok) {data : Mem} {v vend : Nat} {rs : List Rec}
    (h : Holds c data v rs vend) (hv : 2 ^ c.spage ∣ v) : 2 ^ c.spage ∣ vend := by
  induction h with
  | nil => exact hv
  | flush _ _ _ _ _ _ _ _ ih => exact ih (Nat.dvd_add hv (ceilPow2_dvd _ _))
  | wrap _ _ _ _ _ ih => exact ih (Nat.dvd_add hv (Nat.dvd_sub hc.dvd (mod_dvd_of hv hc.dvd)))

theorem LogInv.advance {c : LogCfg} (hc : c.Ok) {s : LogSt} {recs : List Rec} (h : LogInv c s recs) {upTo k : Nat}
    (hu : recsEnd c s.head (recs.take k) = upTo) : LogInv c (advanceHead s upTo) (recs.drop k) := by
  have hh := h.holds
  rw [← List.take_append_drop k recs] at hh
  obtain ⟨h1, h2⟩ := hh.split
  rw [hu] at h1 h2
  have := h1.le
  have := h.space
  exact ⟨h2, h.flight, by simp only [advanceHead]; omega, recsEnd_aligned hc h1 h.headAl, h.tailAl, h.vtailAl⟩

/-! ### Planning a flush -/

theorem padFlush_length (c : LogCfg) (junk : Nat → Byte) (buf : List Byte) :
    (padFlush c junk buf).length = ceilPow2 buf.length c.spage := by
  have h2 := Nat.two_pow_pos c.spage
  unfold padFlush
  simp only [modPow2_eq]
  split
  · rename_i h
    have e : ceilPow2 (buf ++ [(3:Byte)]).length c.spage = ceilPow2 buf.length c.spage := by
      simp only [List.length_append, List.length_cons, List.length_nil]
      have h1 := Nat.div_add_mod buf.length (2 ^ c.spage)
      have hl := Nat.mod_lt buf.length h2
      apply Nat.le_antisymm
      · apply ceilPow2_le_of_dvd (ceilPow2_dvd _ _)
        rw [ceilPow2_eq, if_pos (by omega), Nat.add_mul, Nat.mul_comm]
        omega
      · apply ceilPow2_le_of_dvd (ceilPow2_dvd _ _)
        have := le_ceilPow2 (buf.length + (0 + 1)) c.spage
        omega
    have := le_ceilPow2 (buf ++ [(3:Byte)]).length c.spage
    rw [← e]
    simp only [List.length_append, List.length_map, List.length_range] at *
    omega
  · have := le_ceilPow2 buf.length c.spage
    simp only [List.length_append, List.length_map, List.length_range]
    omega

theorem padFlush_prefix (c : LogCfg) (junk : Nat → Byte) (buf : List Byte) :
    ∃ t, padFlush c junk buf = buf ++ t ∧ (buf.length % 2 ^ c.spage > 0 → ∃ t', t = 3 :: t') := by
  unfold padFlush
  simp only [modPow2_eq]
  split
  · exact ⟨_, by rw [List.append_assoc]; rfl, fun _ => ⟨_, rfl⟩⟩
  · rename_i h
    exact ⟨_, rfl, fun h' => absurd h' h⟩

theorem holds_written {c : LogCfg} {ts : List Task} {buf : List Byte} (hb : encodeTasks ts = some buf)
    (hts : ∀ t ∈ ts, TaskOk t) (junk : Nat → Byte) {v : Nat} (hv : 2 ^ c.spage ∣ v)
    (hfit : v % c.dataLen + (padFlush c junk buf).length ≤ c.dataLen)
    (hbs : (padFlush c junk buf).length ≤ c.bufSize) {data : Mem}
    (hd : data.read (v % c.dataLen) (padFlush c junk buf).length = padFlush c junk buf) :
    Holds c data v [.flush ts] (v + (padFlush c junk buf).length) := by
  obtain ⟨t, ht, h3⟩ := padFlush_prefix c junk buf
  have hlen := padFlush_length c junk buf
  rw [hlen] at hfit hbs
  rw [ht, List.length_append, Mem.read_add] at hd
  obtain ⟨r1, r2⟩ := List.append_inj hd (by simp)
  rw [hlen]
  refine .flush hb hts hv hfit hbs r1 ?_ (.nil _)
  intro hp
  obtain ⟨t', rfl⟩ := h3 hp
  simp only [List.length_cons, Nat.add_comm t'.length 1, Mem.read_add] at r2
  have := (List.append_inj (t₁ := _) (s₂ := [3]) (t₂ := t') r2 (by simp)).1
  simpa [Mem.read] using this

theorem LogInv.plan {c : LogCfg} (hc : c.Ok) {s s' : LogSt} {j1 j2 : Nat → Byte} {ts : List Task}
    {f : Flush} {recs : List Rec} (h : LogInv c s recs) (hts : ∀ t ∈ ts, TaskOk t)
    (hbs : ∀ buf, encodeTasks ts = some buf → (padFlush c j1 buf).length ≤ c.bufSize)
    (e : planFlush c s j1 j2 ts = some (s', f)) :
    LogInv c s' recs ∧ s'.data = s.data ∧ s'.head = s.head ∧ s'.tail = s.tail ∧
      s'.inflight = s.inflight ++ [f] ∧ f.tasks = ts ∧ f.done = false ∧ FlushOk c s.vtail f := by
  unfold planFlush at e
  split at e
  · cases e
  · rename_i buf hbuf
    have hbs := hbs buf hbuf
    simp only [modPow2_eq] at e
    split at e
    · rename_i hal
      have hal := Nat.dvd_of_mod_eq_zero hal
      have h2 := Nat.two_pow_pos c.spage
      have hm := Nat.mod_lt s.vtail hc.pos
      have hpd : 2 ^ c.spage ∣ (padFlush c j1 buf).length := by
        rw [padFlush_length]; exact ceilPow2_dvd _ _
      have hmd : 2 ^ c.spage ∣ s.vtail % c.dataLen := mod_dvd_of hal hc.dvd
      have hgd : 2 ^ c.spage ∣ c.dataLen - s.vtail % c.dataLen := Nat.dvd_sub hc.dvd hmd
      have hge : 2 ^ c.spage ≤ c.dataLen - s.vtail % c.dataLen := Nat.le_of_dvd (by first | omega | (simp only; omega)) hgd
      split at e
      · rename_i hover
        split at e
        · rename_i hz
          split at e
          · cases e
          · rename_i hsp
            simp only [Option.some.injEq, Prod.mk.injEq] at e
            obtain ⟨rfl, rfl⟩ := e
            have hpl : (padFlush c j1 buf).length < c.dataLen := by
              have := h.flight.le
              have := h.holds.le
              omega
            have hphys : 0 < s.vtail % c.dataLen := by first | omega | (simp only; omega)
            have hv2 : 2 ^ c.spage ∣ s.vtail + (c.dataLen - s.vtail % c.dataLen) := Nat.dvd_add hal hgd
            have hok : FlushOk c s.vtail {
                writes := [(s.vtail % c.dataLen,
                    4 :: (List.range (1 <<< c.spage - 1)).map (fun i => j2 (1 + i))), (0, padFlush c j1 buf)]
                newTail := s.vtail + (c.dataLen - s.vtail % c.dataLen) + (padFlush c j1 buf).length
                tasks := ts, done := false } := by
              refine ⟨by first | omega | (simp only; omega), Nat.dvd_add hv2 hpd, ?_, ?_⟩
              · intro w hw x h1 h2'
                simp only [List.mem_cons, List.not_mem_nil, or_false] at hw
                rcases hw with rfl | rfl
                · simp only [List.length_cons, List.length_map, List.length_range, Nat.one_shiftLeft] at h1 h2'
                  refine ⟨s.vtail + (x - s.vtail % c.dataLen), by first | omega | (simp only; omega), by first | omega | (simp only; omega), ?_⟩
                  rw [mod_add_lt (by first | omega | (simp only; omega))]; omega
                · simp only at h1 h2'
                  refine ⟨s.vtail + (c.dataLen - s.vtail % c.dataLen) + x, by first | omega | (simp only; omega), by first | omega | (simp only; omega), ?_⟩
                  rw [Nat.add_mod, hz, Nat.zero_add, Nat.mod_mod, Nat.mod_eq_of_lt (by first | omega | (simp only; omega))]
              · intro data
                show Holds c _ s.vtail [.wrap, .flush ts] _
                simp only [Mem.writeAll, List.foldl_cons, List.foldl_nil]
                have hbelow : (padFlush c j1 buf).length ≤ s.vtail % c.dataLen := by
                  have := h.flight.le
                  have := h.holds.le
                  have := h.space
                  -- the new record ends before the old head comes round again
                  omega
                refine .wrap ⟨hphys, hm⟩ hal (by first | omega | (simp only; omega)) ?_ ?_
                · rw [Mem.write_out (by first | omega | (simp only; omega)), Mem.write_in (by simp) (by simp)]
                  simp
                · apply holds_written hbuf hts j1 hv2 (by rw [hz]; omega) hbs
                  rw [hz]
                  exact Mem.read_write_same _ _ _
            refine ⟨⟨h.holds, h.flight.append hok rfl, ?_, h.headAl, h.tailAl, Nat.dvd_add hv2 hpd⟩, rfl, rfl,
              rfl, rfl, rfl, rfl, hok⟩
            simp only; omega
        · cases e
      · rename_i hover
        split at e
        · cases e
        · rename_i hsp
          simp only [Option.some.injEq, Prod.mk.injEq] at e
          obtain ⟨rfl, rfl⟩ := e
          have hok : FlushOk c s.vtail {
              writes := [(s.vtail % c.dataLen, padFlush c j1 buf)]
              newTail := s.vtail + (padFlush c j1 buf).length
              tasks := ts, done := false } := by
            refine ⟨by first | omega | (simp only; omega), Nat.dvd_add hal hpd, ?_, ?_⟩
            · intro w hw x h1 h2'
              simp only [List.mem_cons, List.not_mem_nil, or_false] at hw
              subst hw
              simp only at h1 h2'
              refine ⟨s.vtail + (x - s.vtail % c.dataLen), by first | omega | (simp only; omega), by first | omega | (simp only; omega), ?_⟩
              rw [mod_add_lt (by first | omega | (simp only; omega))]; omega
            · intro data
              show Holds c _ s.vtail [.flush ts] _
              simp only [Mem.writeAll, List.foldl_cons, List.foldl_nil]
              apply holds_written hbuf hts j1 hal (by first | omega | (simp only; omega)) hbs
              exact Mem.read_write_same _ _ _
          refine ⟨⟨h.holds, h.flight.append hok rfl, ?_, h.headAl, h.tailAl, Nat.dvd_add hal hpd⟩, rfl, rfl,
            rfl, rfl, rfl, rfl, hok⟩
          simp only; omega
    · cases e

theorem LogInv.fresh {c : LogCfg} (hc : c.Ok) (data : Mem) : LogInv c (LogSt.fresh data) [] :=
  ⟨.nil _, rfl, by simpa [LogSt.fresh] using hc.pos, Nat.dvd_zero _, Nat.dvd_zero _, Nat.dvd_zero _⟩

theorem LogInv.replay {c : LogCfg} (hc : c.Ok) {s : LogSt} {recs : List Rec} (h : LogInv c s recs) :
    Kv.replay c s.data s.head s.tail = some ((recTasks recs).map Task.erase) :=
  replay_holds hc h.headAl h.tailAl h.holds

/-- after a crash the log restarts from the recorded head and tail -/
theorem LogInv.crash {c : LogCfg} {s : LogSt} {recs : List Rec} (h : LogInv c s recs) :
    LogInv c ⟨s.data, s.head, s.tail, s.tail, []⟩ recs := by
  have := h.flight.le
  have := h.space
  exact ⟨h.holds, rfl, by first | omega | (simp only; omega), h.headAl, h.tailAl, h.tailAl⟩

end Kv
end Blobd
