import Verif.Proofs.KvLogInv
import Verif.Props.KvObject
import Verif.Spec.KvLog
/-!
# C36 (log entries round-trip) and C37 (the ring is never overwritten)

`LogCfg.Ok`: the ring and the replay buffer are non-empty multiples of the small page. The replay buffer
is 128 MiB and small pages are at most 16 MiB; that the ring is a multiple of the small page is *not*
checked by the code, see `C36_violated_unaligned_ring`.
-/
namespace Blobd
namespace Props
open Kv

/-- the batches correspond to stretches of records -/
def BatchesOk (c : LogCfg) : Nat → List Rec → List (List Task × Nat) → Prop
  | _, recs, [] => recs = []
  | v, recs, (ts, t) :: bs => ∃ r1 r2, recs = r1 ++ r2 ∧ recTasks r1 = ts ∧ recsEnd c v r1 = t ∧
      BatchesOk c t r2 bs

theorem recTasks_append (a b : List Rec) : recTasks (a ++ b) = recTasks a ++ recTasks b := by
  simp [recTasks]

theorem recsEnd_append (c : LogCfg) (v : Nat) (a b : List Rec) :
    recsEnd c v (a ++ b) = recsEnd c (recsEnd c v a) b := by
  induction a generalizing v with
  | nil => rfl
  | cons r a ih => cases r <;> simp [recsEnd, ih]

theorem BatchesOk.tasks {c : LogCfg} : ∀ {b : List (List Task × Nat)} {v : Nat} {recs : List Rec},
    BatchesOk c v recs b → recTasks recs = b.flatMap (·.1) := by
  intro b
  induction b with
  | nil => intro v recs h; simp only [BatchesOk] at h; subst h; rfl
  | cons x b ih =>
    intro v recs h
    obtain ⟨ts, t⟩ := x
    obtain ⟨r1, r2, rfl, h1, _, h3⟩ := h
    rw [recTasks_append, h1, ih h3]; simp

theorem BatchesOk.snoc {c : LogCfg} : ∀ {b : List (List Task × Nat)} {v : Nat} {recs rn : List Rec}
    {ts : List Task} {t : Nat}, BatchesOk c v recs b → recTasks rn = ts →
    recsEnd c (recsEnd c v recs) rn = t → BatchesOk c v (recs ++ rn) (b ++ [(ts, t)]) := by
  intro b
  induction b with
  | nil =>
    intro v recs rn ts t h h1 h2
    simp only [BatchesOk] at h; subst h
    exact ⟨rn, [], by simp, h1, by simpa [recsEnd] using h2, rfl⟩
  | cons x b ih =>
    intro v recs rn ts t h h1 h2
    obtain ⟨ts', t'⟩ := x
    obtain ⟨r1, r2, rfl, g1, g2, g3⟩ := h
    refine ⟨r1, r2 ++ rn, by simp, g1, g2, ih g3 h1 ?_⟩
    rw [recsEnd_append, g2] at h2
    exact h2

theorem BatchesOk.split {c : LogCfg} : ∀ {b : List (List Task × Nat)} {v : Nat} {recs : List Rec}
    {ts : List Task} {t : Nat} {rest : List (List Task × Nat)},
    BatchesOk c v recs (b ++ (ts, t) :: rest) →
    ∃ k, recsEnd c v (recs.take k) = t ∧ BatchesOk c t (recs.drop k) rest := by
  intro b
  induction b with
  | nil =>
    intro v recs ts t rest h
    obtain ⟨r1, r2, rfl, _, g2, g3⟩ := h
    exact ⟨r1.length, by simpa using g2, by simpa using g3⟩
  | cons x b ih =>
    intro v recs ts t rest h
    obtain ⟨ts', t'⟩ := x
    obtain ⟨r1, r2, rfl, _, g2, g3⟩ := h
    obtain ⟨k, e1, e2⟩ := ih g3
    refine ⟨r1.length + k, ?_, ?_⟩
    · rw [List.take_length_add_append, recsEnd_append, g2, e1]
    · rw [List.drop_length_add_append]; exact e2

theorem taskOk_of_loggable {H : List Byte → List Byte} (hH : ∀ x, (H x).length = 32) {t : Task}
    (h : Loggable H t) : TaskOk t := by
  obtain ⟨⟨raw, hr⟩, hd⟩ := h
  refine ⟨?_, fun d e => dataOk_of_storable (hd d e)⟩
  by_cases hne : raw = []
  · right; rw [hr, hne]; rfl
  · left; rw [hr]; exact keyOk_fromRaw hH hne

theorem logReach_inv {H : List Byte → List Byte} (hH : ∀ x, (H x).length = 32) {c : LogCfg} (hc : c.Ok)
    {s : LogSt} {b : List (List Task × Nat)} (h : LogReach H c s b) :
    ∃ recs, LogInv c s recs ∧ BatchesOk c s.head recs b := by
  induction h with
  | fresh data => exact ⟨[], LogInv.fresh hc data, rfl⟩
  | flush _ hts hbs hp ih =>
    obtain ⟨recs, hi, hb⟩ := ih
    obtain ⟨h1, _, h3, _⟩ := hi.plan hc (fun t ht => taskOk_of_loggable hH (hts t ht)) hbs hp
    exact ⟨recs, h1, by rw [h3]; exact hb⟩
  | device _ hd ih =>
    obtain ⟨recs, hi, hb⟩ := ih
    exact ⟨recs, hi.scribble hd, hb⟩
  | @written s b i f _ hf hd ih =>
    obtain ⟨recs, hi, hb⟩ := ih
    refine ⟨recs, hi.finish i (fun f' hf' => ?_), ?_⟩
    · rw [hf] at hf'; cases hf'; exact hd
    · unfold finishFlush; rw [hf]; exact hb
  | complete _ he ih =>
    obtain ⟨recs, hi, hb⟩ := ih
    obtain ⟨h1, h2, h3⟩ := hi.complete he
    refine ⟨_, h1, ?_⟩
    rw [h2]
    refine hb.snoc h3.symm ?_
    have := h1.holds.end_eq
    rw [recsEnd_append, h2] at this
    exact this
  | committed _ ih =>
    obtain ⟨recs, hi, hb⟩ := ih
    obtain ⟨k, e1, e2⟩ := hb.split
    exact ⟨recs.drop k, hi.advance hc e1, e2⟩
  | restart _ ih =>
    obtain ⟨recs, hi, hb⟩ := ih
    exact ⟨recs, hi.crash, hb⟩

/-- **C36.** At every moment of every history — any batching, any order in which flushes reach the device,
page padding, ring wraparound, half-finished writes, commits, crashes and restarts — replaying the log
from the recorded head to the recorded tail never panics and yields exactly the upserts and deletes of
the recorded, uncommitted batches, in order. -/
theorem C36_replay_exact_partial {H : List Byte → List Byte} (hH : ∀ x, (H x).length = 32) {c : LogCfg}
    (hc : c.Ok) {s : LogSt} {b : List (List Task × Nat)} (h : LogReach H c s b) :
    replay c s.data s.head s.tail = some ((b.flatMap (·.1)).map fun t => (t.key, t.op)) := by
  obtain ⟨recs, hi, hb⟩ := logReach_inv hH hc h
  rw [hi.replay hc, hb.tasks]
  rfl

/-- **C37.** At every moment, no byte of the ring between the recorded head and the recorded tail is a
target of any device write still in flight. -/
theorem C37_never_overwrites {H : List Byte → List Byte} (hH : ∀ x, (H x).length = 32) {c : LogCfg}
    (hc : c.Ok) {s : LogSt} {b : List (List Task × Nat)} (h : LogReach H c s b)
    (f : Flush) (hf : f ∈ s.inflight) (y : Nat) (h1 : s.head ≤ y) (h2 : y < s.tail) :
    ¬ Targets f (y % c.dataLen) := by
  obtain ⟨recs, hi, _⟩ := logReach_inv hH hc h
  rintro ⟨w, hw, g1, g2⟩
  have key : ∀ (fs : List Flush) (v : Nat), InflightOk c s.data v fs s.vtail → f ∈ fs →
      ∃ y', v ≤ y' ∧ y' < s.vtail ∧ y' % c.dataLen = y % c.dataLen := by
    intro fs
    induction fs with
    | nil => intro v _ h; cases h
    | cons g fs ih =>
      intro v hh hm
      have := hh.2.2.le
      have := hh.1.le
      rcases List.mem_cons.1 hm with rfl | hm
      · obtain ⟨y', a, b, e⟩ := hh.1.inside w hw _ g1 g2
        exact ⟨y', a, by omega, e⟩
      · obtain ⟨y', a, b, e⟩ := ih _ hh.2.2 hm
        exact ⟨y', by omega, b, e⟩
  obtain ⟨y', a, b, e⟩ := key _ _ hi.flight hf
  have := hi.space
  have := mod_inj_window (n := c.dataLen) (h := s.head) h1 (by omega) (by omega) (by omega) e.symm
  omega

/-- **C37, concurrent flushes.** Two flushes in flight at the same time never write the same byte of the
ring. -/
theorem C37_flushes_disjoint {H : List Byte → List Byte} (hH : ∀ x, (H x).length = 32) {c : LogCfg}
    (hc : c.Ok) {s : LogSt} {b : List (List Task × Nat)} (h : LogReach H c s b) :
    s.inflight.Pairwise (fun f g => ∀ x, ¬ (Targets f x ∧ Targets g x)) := by
  obtain ⟨recs, hi, _⟩ := logReach_inv hH hc h
  have hsp := hi.space
  have hle := hi.holds.le
  have span : ∀ (fs : List Flush) (v : Nat), InflightOk c s.data v fs s.vtail → ∀ g ∈ fs, ∀ x,
      Targets g x → ∃ y, v ≤ y ∧ y < s.vtail ∧ y % c.dataLen = x := by
    intro fs
    induction fs with
    | nil => intro v _ g h; cases h
    | cons g fs ih =>
      intro v hh f hm x hx
      have := hh.2.2.le
      have := hh.1.le
      rcases List.mem_cons.1 hm with rfl | hm
      · obtain ⟨w, hw, g1, g2⟩ := hx
        obtain ⟨y', a, b, e⟩ := hh.1.inside w hw _ g1 g2
        exact ⟨y', a, by omega, e⟩
      · obtain ⟨y', a, b, e⟩ := ih _ hh.2.2 f hm x hx
        exact ⟨y', by omega, b, e⟩
  have key : ∀ (fs : List Flush) (v : Nat), s.head ≤ v → InflightOk c s.data v fs s.vtail →
      fs.Pairwise (fun f g => ∀ x, ¬ (Targets f x ∧ Targets g x)) := by
    intro fs
    induction fs with
    | nil => intro _ _ _; exact .nil
    | cons f fs ih =>
      intro v hv hh
      have hle1 := hh.1.le
      have hle2 := hh.2.2.le
      refine .cons ?_ (ih _ (by omega) hh.2.2)
      rintro g hg x ⟨⟨w, hw, g1, g2⟩, hx⟩
      obtain ⟨y', a', b', e'⟩ := hh.1.inside w hw _ g1 g2
      obtain ⟨y, a, b, e⟩ := span fs _ hh.2.2 g hg x hx
      have := mod_inj_window (n := c.dataLen) (h := s.head) (y := y') (z := y) (by omega) (by omega)
        (by omega) (by omega) (by rw [e', e])
      omega
  exact key _ _ hle hi.flight

/-- **C37, bounds.** Every write in flight stays inside the ring. -/
theorem C37_inside_ring {H : List Byte → List Byte} (hH : ∀ x, (H x).length = 32) {c : LogCfg}
    (hc : c.Ok) {s : LogSt} {b : List (List Task × Nat)} (h : LogReach H c s b)
    (f : Flush) (hf : f ∈ s.inflight) (x : Nat) (hx : Targets f x) : x < c.dataLen := by
  obtain ⟨recs, hi, _⟩ := logReach_inv hH hc h
  obtain ⟨w, hw, g1, g2⟩ := hx
  have key : ∀ (fs : List Flush) (v : Nat), InflightOk c s.data v fs s.vtail → f ∈ fs →
      ∃ y', y' % c.dataLen = x := by
    intro fs
    induction fs with
    | nil => intro v _ h; cases h
    | cons g fs ih =>
      intro v hh hm
      rcases List.mem_cons.1 hm with rfl | hm
      · obtain ⟨y', a, b, e⟩ := hh.1.inside w hw _ g1 g2
        exact ⟨y', e⟩
      · exact ih _ hh.2.2 hm
  obtain ⟨y, rfl⟩ := key _ _ hi.flight hf
  exact Nat.mod_lt _ hc.pos

/-- **C36 is false when the ring size is not a multiple of the small page**, which no configuration check
rules out (libblobd-kv/src/lib.rs:113-117): the first flush that wraps leaves the tail unaligned, and
every later flush panics. -/
theorem C36_violated_unaligned_ring (c : LogCfg) (hpos : 0 < c.dataLen) (hn : ¬ 2 ^ c.spage ∣ c.dataLen)
    (s s' : LogSt) (f : Flush) (j1 j2 : Nat → Byte) (ts : List Task) (hfirst : s.vtail < c.dataLen)
    (hp : planFlush c s j1 j2 ts = some (s', f)) (hwrap : f.writes.length = 2)
    (k1 k2 : Nat → Byte) (ts' : List Task) :
    planFlush c s' k1 k2 ts' = none := by
  unfold planFlush at hp
  split at hp
  · cases hp
  · rename_i buf hbuf
    simp only [modPow2_eq] at hp
    split at hp
    · split at hp
      · split at hp
        · split at hp
          · cases hp
          · simp only [Option.some.injEq, Prod.mk.injEq] at hp
            obtain ⟨rfl, rfl⟩ := hp
            unfold planFlush
            split
            · rfl
            · simp only [modPow2_eq]
              rw [if_neg]
              intro hz
              apply hn
              have h1 := Nat.dvd_of_mod_eq_zero hz
              have h2 : 2 ^ c.spage ∣ (padFlush c j1 buf).length := by
                rw [padFlush_length]; exact ceilPow2_dvd _ _
              have h3 := (Nat.dvd_add_iff_left h2).2 h1
              rw [Nat.mod_eq_of_lt hfirst] at h3
              rwa [show s.vtail + (c.dataLen - s.vtail) = c.dataLen by omega] at h3
        · cases hp
      · split at hp
        · cases hp
        · simp only [Option.some.injEq, Prod.mk.injEq] at hp
          obtain ⟨rfl, rfl⟩ := hp
          simp at hwrap
    · cases hp

/-- a concrete instance: 4-byte pages, a 10-byte ring -/
example : ∃ s' f, planFlush ⟨2, 10, 4⟩ ⟨fun _ => 0, 8, 8, 8, []⟩ (fun _ => 0) (fun _ => 0)
    [⟨.literal [1], none, none⟩] = some (s', f) ∧ f.writes.length = 2 := ⟨_, _, rfl, rfl⟩

/-- **C36 needs flushes no longer than the replay buffer.** If the gap skipped by a wraparound marker is
larger than the 128 MiB replay buffer, start-up panics (libblobd-kv/src/log_buffer.rs:213): a flush is sent off when its
buffer *reaches* 128 MiB (line 630), so one wrapping flush can be longer than the buffer. -/
theorem C36_violated_gap_exceeds_buffer (c : LogCfg) (hc : c.Ok) (data : Mem) (head tail : Nat)
    (hh : 2 ^ c.spage ∣ head) (ht : 2 ^ c.spage ∣ tail) (h0 : 0 < head % c.dataLen)
    (hmark : data (head % c.dataLen) = 4) (hgap : c.bufSize < c.dataLen - head % c.dataLen)
    (hmore : head + (c.dataLen - head % c.dataLen) < tail) :
    replay c data head tail = none := by
  unfold replay
  simp only [modPow2_eq]
  rw [if_pos ⟨Nat.mod_eq_zero_of_dvd hh, Nat.mod_eq_zero_of_dvd ht, by omega⟩]
  obtain ⟨m, hm⟩ : ∃ m, tail - head + 1 = m + 2 := ⟨tail - head - 1, by omega⟩
  have hb := hc.bufPos
  have hm0 : head % 2 ^ c.spage = 0 := Nat.mod_eq_zero_of_dvd hh
  have hfill : fillBuf c data head tail (m + 2) [] = some (data.read (head % c.dataLen) c.bufSize) := by
    have d1 : (head + c.bufSize) % 2 ^ c.spage = 0 := Nat.mod_eq_zero_of_dvd (Nat.dvd_add hh hc.bufDvd)
    simp only [fillBuf, List.length_nil, Nat.add_zero, modPow2_eq, List.nil_append]
    rw [if_pos ⟨hm0, by omega⟩, if_neg (by omega)]
    rw [show min (min c.bufSize (tail - head)) (c.dataLen - head % c.dataLen) = c.bufSize by omega]
    simp only [Mem.length_read]
    rw [if_pos ⟨d1, by omega⟩, if_pos (by omega)]
  rw [hm]
  conv => lhs; unfold replayLoop
  rw [if_neg (by omega)]
  simp only
  rw [hm, hfill]
  simp only
  obtain ⟨n, hn⟩ : ∃ n, c.bufSize = 1 + n := ⟨c.bufSize - 1, by omega⟩
  have hhead : data.read (head % c.dataLen) c.bufSize = 4 :: data.read (head % c.dataLen + 1) n := by
    rw [hn, Mem.read_add]
    simp [Mem.read, hmark]
  have hp : parseEntry c head (data.read (head % c.dataLen) c.bufSize)
      = some (none, c.dataLen - head % c.dataLen) := by
    rw [hhead]
    simp only [parseEntry]
    rw [if_neg (by decide), if_neg (by decide), if_neg (by decide), if_pos trivial, if_pos (by omega)]
  rw [hp]
  simp only [Mem.length_read]
  rw [if_neg (by omega)]
  have hz : replayLoop c data tail (m + 1) (head + (c.dataLen - head % c.dataLen)) none = none := by
    conv => lhs; unfold replayLoop
    rw [if_neg (by omega)]
  rw [hz]

/-! ## Non-vacuity: a 20-byte ring with 4-byte pages; two flushes, a commit, and a wrapping flush -/

private def exT1 : Task := ⟨.literal [7, 8], some (.inline [5]), some [5]⟩
private def exT2 : Task := ⟨.literal [9], none, none⟩
private def exCfg : LogCfg := ⟨2, 20, 20⟩

/-- the tasks of the example are ones the API can produce -/
example : Loggable (fun _ => []) exT1 ∧ Loggable (fun _ => []) exT2 :=
  ⟨⟨⟨[7, 8], rfl⟩, by intro d h; cases h; simp [Storable]⟩, ⟨⟨[9], rfl⟩, by intro d h; cases h⟩⟩

/-- a history with padding, wraparound and a committed batch; the replay finds the last two tasks -/
example : ∃ s0 s1 s2 s3 s4 s5 s6 s7 f g h,
    s0 = LogSt.fresh (fun _ => 0) ∧
    planFlush exCfg s0 (fun _ => 1) (fun _ => 1) [exT1, exT1] = some (s1, f) ∧
    completeFlushes (finishFlush s1 0) 1 = some (s2, [exT1, exT1]) ∧
    planFlush exCfg s2 (fun _ => 1) (fun _ => 1) [exT2] = some (s3, g) ∧
    completeFlushes (finishFlush s3 0) 1 = some (s4, [exT2]) ∧
    s5 = advanceHead s4 12 ∧
    planFlush exCfg s5 (fun _ => 1) (fun _ => 1) [exT1] = some (s6, h) ∧
    completeFlushes (finishFlush s6 0) 1 = some (s7, [exT1]) ∧
    h.writes.length = 2 ∧ s7.head = 12 ∧ s7.tail = 28 ∧
    (replay exCfg s7.data s7.head s7.tail) =
      some [(.literal [9], none), (.literal [7, 8], some (.inline [5]))] := by
  refine ⟨_, _, _, _, _, _, _, _, _, _, _, rfl, rfl, rfl, rfl, rfl, rfl, rfl, rfl, rfl, rfl, rfl, ?_⟩
  decide +kernel

end Props
end Blobd
