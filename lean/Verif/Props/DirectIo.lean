import Verif.Proofs.DirectIoCount
import Verif.Proofs.ConcWrite
set_option autoImplicit false
/-!
# C77: reported counters of object data read and written (direct store)

One call at a time: a call's contribution to the counters is fixed by its own course, whatever other calls do meanwhile (`turns` and `valid`
range over every way the object can be deleted or committed under the call; each turn of a read finds its own device contents). The
counters of a store are the sums of these contributions.
-/
namespace Blobd
namespace Props
open RW

/-- C77 (reads): a refused read counts nothing. An accepted read counts as one, for exactly the bytes asked for; the bytes reported as sent are
exactly the bytes handed to the caller, never more than asked for, and all of them if the stream ends normally; and unless the object is
deleted under the read, the bytes reported as sent or discarded are together exactly the bytes read from the device. -/
theorem C77_direct_read_counted (pages : Pages) (found : Option Obj) (bufSize start : Nat) (stop? : Option Nat) (turns : List ReadTurn)
    (ans : Except OpError ReadLog) (c : IoCount) (h : opReadLog pages found bufSize start stop? turns = (some ans, c)) :
    (∀ e, ans = .error e → c = {}) ∧
    ∀ k, ans = .ok k → ∃ o, found = some o ∧ start ≤ stop?.getD o.size ∧ stop?.getD o.size ≤ o.size ∧
      c.readOps = 1 ∧ c.readRequested = stop?.getD o.size - start ∧
      c.readSent = k.chunks.flatten.length ∧ c.readSent ≤ c.readRequested ∧ (k.how = .finished → c.readSent = c.readRequested) ∧
      (k.how ≠ .gone → (k.reads.map Prod.snd).sum = c.readSent + c.readDiscarded) ∧
      c.writeOps = 0 ∧ c.writeRequested = 0 ∧ c.writeWritten = 0 := by
  unfold opReadLog at h
  cases found with
  | none =>
    simp only [Prod.mk.injEq, Option.some.injEq] at h
    obtain ⟨rfl, rfl⟩ := h
    exact ⟨fun _ _ => rfl, fun k hk => by cases hk⟩
  | some o =>
    dsimp only at h
    cases hl : calcObjectLayoutDirect pages o.size with
    | none => rw [hl] at h; simp at h
    | some lay =>
      rw [hl] at h
      dsimp only at h
      split at h
      · simp only [Prod.mk.injEq, Option.some.injEq] at h
        obtain ⟨rfl, rfl⟩ := h
        exact ⟨fun _ _ => rfl, fun k hk => by cases hk⟩
      · rename_i hr
        simp only [Prod.mk.injEq, Option.some.injEq] at h
        obtain ⟨rfl, rfl⟩ := h
        refine ⟨(fun e he => by cases he), fun k hk => ?_⟩
        cases hk
        refine ⟨o, rfl, by omega, by omega, rfl, rfl, ?_⟩
        split
        · rename_i he
          refine ⟨rfl, Nat.zero_le _, fun _ => ?_, fun _ => rfl, rfl, rfl, rfl⟩
          dsimp only
          omega
        · obtain ⟨a1, a2, a3, a4, _, _⟩ := readLog_acct (pages := pages) (lay := lay) (o := o) (bufSize := bufSize)
            (stop := stop?.getD o.size) turns (startIdx pages lay start) start
          exact ⟨a1, a2, a3, a4, rfl, rfl, rfl⟩

/-- C77 (reads, amplification): when the object is deleted under the read, the device bytes not accounted for as sent or discarded are at most
one buffer; and each device read discards less than two small pages. -/
theorem C77_direct_read_amplification (pages : Pages) (o : Obj) (bufSize start : Nat) (hb : 0 < bufSize) (stop? : Option Nat)
    (turns : List ReadTurn) (k : ReadLog) (c : IoCount)
    (h : opReadLog pages (some o) bufSize start stop? turns = (some (.ok k), c)) :
    c.readSent + c.readDiscarded ≤ (k.reads.map Prod.snd).sum ∧
      (k.reads.map Prod.snd).sum ≤ c.readSent + c.readDiscarded + bufSize ∧
      c.readDiscarded ≤ k.reads.length * (2 * 2 ^ pages.spage) := by
  unfold opReadLog at h
  dsimp only at h
  cases hl : calcObjectLayoutDirect pages o.size with
  | none => rw [hl] at h; simp at h
  | some lay =>
    rw [hl] at h
    dsimp only at h
    split at h
    · simp at h
    · simp only [Prod.mk.injEq, Option.some.injEq, Except.ok.injEq] at h
      obtain ⟨rfl, rfl⟩ := h
      split
      · exact ⟨Nat.le_refl _, Nat.zero_le _, Nat.zero_le _⟩
      · obtain ⟨_, _, _, _, a5, a6⟩ := readLog_acct (pages := pages) (lay := lay) (o := o) (bufSize := bufSize)
          (stop := stop?.getD o.size) turns (startIdx pages lay start) start
        have hw := (readLog_waste (pages := pages) (lay := lay) (o := o) (bufSize := bufSize)
          (stop := stop?.getD o.size) hb turns (startIdx pages lay start) start).2
        refine ⟨a5, ?_, hw⟩
        unfold total at a6
        dsimp only
        omega

/-- The counted read is the read of C18: when the object stays and the caller polls to the end, the stream ends normally with the same chunks. -/
theorem C77_direct_read_same (pages : Pages) (o : Obj) (dev : Mem) (bufSize start : Nat) (stop? : Option Nat) (fuel : Nat)
    (cs : List (List Byte)) (h : opReadDirect pages o dev bufSize start stop? fuel = .ret (.ok cs)) :
    ∃ k c, opReadLog pages (some o) bufSize start stop? (List.replicate fuel { dev := dev }) = (some (.ok k), c) ∧
      k.how = .finished ∧ k.chunks = cs := by
  unfold opReadDirect at h
  unfold opReadLog
  dsimp only
  cases hl : calcObjectLayoutDirect pages o.size with
  | none => rw [hl] at h; cases h
  | some lay =>
    rw [hl] at h
    dsimp only at h ⊢
    split at h
    · cases h
    · rename_i hr
      rw [if_neg hr]
      split at h
      · rename_i he
        cases h
        rw [if_pos he]
        exact ⟨_, _, rfl, rfl, rfl⟩
      · rename_i he
        rw [if_neg he]
        split at h
        · rename_i cs' hloop
          cases h
          obtain ⟨a, b⟩ := readLog_plain dev fuel _ _ hloop fuel (Nat.le_refl _)
          exact ⟨_, _, rfl, a, b⟩
        · cases h
        · cases h

/-- C77 (writes): however a write ends — also if it fails, panics, or is dropped part-way — the bytes reported as written are exactly the
bytes it wrote to the device. -/
theorem C77_direct_write_counted (pages : Pages) (junk : Nat → Byte) (found : Option Obj) (dev : Mem) (offset len : Nat)
    (stream : List (Except Unit (List Byte))) (valid : Nat → Bool) (turns : Nat)
    (r : Run (Except OpError Unit)) (ws : List (Nat × List Byte)) (dev' : Mem) (c : IoCount)
    (h : opWriteLog pages junk found dev offset len stream valid turns = (r, ws, dev', c)) :
    dev' = dev.writeAll ws ∧ c.writeWritten = (ws.map (fun w => w.2.length)).sum ∧
      c.readOps = 0 ∧ c.readRequested = 0 ∧ c.readSent = 0 ∧ c.readDiscarded = 0 := by
  unfold opWriteLog at h
  cases found with
  | none => cases h; exact ⟨rfl, rfl, rfl, rfl, rfl, rfl⟩
  | some o =>
    dsimp only at h
    cases hc : writeCheck pages o.size offset len with
    | some e => rw [hc] at h; cases h; exact ⟨rfl, rfl, rfl, rfl, rfl, rfl⟩
    | none =>
      cases hl : calcObjectLayoutDirect pages o.size with
      | none => rw [hc, hl] at h; cases h; exact ⟨rfl, rfl, rfl, rfl, rfl, rfl⟩
      | some lay =>
        rw [hc, hl] at h
        cases h
        obtain ⟨hk, _⟩ := wlogRun_ok (pages := pages) (junk := junk) (len := len) (targets := writeTargets pages lay o offset)
          (valid := valid) (dev := dev) turns (k := { st := { stream := stream, dev := dev } })
          ⟨Nat.zero_le _, by simp, rfl, rfl, by simp, by simp⟩
        exact ⟨hk.dev, hk.ctr, rfl, rfl, rfl, rfl⟩

/-- C77 (writes): a successful write counts as one, for exactly the bytes it stores, and the bytes reported as written are those rounded up to
the next multiple of the small page size — however its body is cut into chunks. -/
theorem C77_direct_write_success (pages : Pages) (hp : PagesOk pages) (junk : Nat → Byte) (found : Option Obj) (dev : Mem) (offset len : Nat)
    (stream : List (Except Unit (List Byte))) (valid : Nat → Bool) (turns : Nat) (ws : List (Nat × List Byte)) (dev' : Mem) (c : IoCount)
    (h : opWriteLog pages junk found dev offset len stream valid turns = (.ret (.ok ()), ws, dev', c)) :
    c.writeOps = 1 ∧ c.writeRequested = len ∧
      2 ^ pages.spage ∣ c.writeWritten ∧ len ≤ c.writeWritten ∧ c.writeWritten < len + 2 ^ pages.spage := by
  unfold opWriteLog at h
  cases found with
  | none => cases h
  | some o =>
    dsimp only at h
    cases hc : writeCheck pages o.size offset len with
    | some e => rw [hc] at h; cases h
    | none =>
      cases hl : calcObjectLayoutDirect pages o.size with
      | none => rw [hc, hl] at h; cases h
      | some lay =>
        rw [hc, hl] at h
        have hl' : calcObjectLayout pages o.size = some lay := by
          unfold calcObjectLayoutDirect at hl
          split at hl
          · exact hl
          · cases hl
        obtain ⟨es, hi⟩ := layInfo_of hp hl'
        obtain ⟨hfit, hsum, _, _, _, _, _, _, hsp⟩ := hi.targets hp offset len hc
        simp only [Prod.mk.injEq] at h
        obtain ⟨h1, rfl, rfl, rfl⟩ := h
        obtain ⟨hk, hw⟩ := wlogRun_ok (pages := pages) (junk := junk) (len := len) (targets := writeTargets pages lay o offset)
          (valid := valid) (dev := dev) turns (k := { st := { stream := stream, dev := dev } })
          ⟨Nat.zero_le _, by simp, rfl, rfl, by simp, by simp⟩
        have hwl := hw () h1
        rw [hk.amt] at hwl
        have hfull := amtSum_take_full hfit.pos hk.idx (hwl.trans hsum.symm)
        have hpad := hk.pad
        rw [hfull, List.take_length, fit_padded hfit hsp, hsum] at hpad
        dsimp only
        rw [hpad]
        exact ⟨rfl, rfl, ceilPow2_dvd _ _, le_ceilPow2 _ _, ceilPow2_lt _ _⟩

/-- The counted write is the write of C20: while the object stays, same answer, same device. -/
theorem C77_direct_write_same (pages : Pages) (junk : Nat → Byte) (o : Obj) (dev : Mem) (offset len : Nat)
    (stream : List (Except Unit (List Byte))) (fuel : Nat) (r : Except OpError Unit) (d : Mem)
    (h : opWriteDirect pages junk o dev offset len stream fuel = .ret (r, d)) :
    ∃ ws c, opWriteLog pages junk (some o) dev offset len stream (fun _ => true) fuel = (.ret r, ws, d, c) := by
  unfold opWriteDirect opWrite at h
  unfold opWriteLog
  dsimp only
  cases hc : writeCheck pages o.size offset len with
  | some e =>
    rw [hc] at h
    cases h
    exact ⟨_, _, rfl⟩
  | none =>
    cases hl : calcObjectLayoutDirect pages o.size with
    | none => rw [hc, hl] at h; cases h
    | some lay =>
      rw [hc, hl] at h
      dsimp only at h ⊢
      obtain ⟨a, b⟩ := wlogRun_plain (block := blockDirect pages junk) (len := len) (targets := writeTargets pages lay o offset)
        fuel { st := { stream := stream, dev := dev } } h
      exact ⟨_, _, by rw [a, b]⟩

def ioPages : Pages := ⟨2, 4⟩
def ioObj : Obj := ⟨21, fun i => 64 + 16 * i, fun i => 256 + 16 * i⟩

/-- C77 violated (failed writes are counted): the comment in metrics.rs says that only successful calls are considered, but a write whose body
breaks off at once, which stores nothing, is counted with its whole length. -/
theorem C77_violated_direct_failed_write : ∃ (o : Obj) (dev : Mem),
    opWriteLog ioPages (fun _ => 0) (some o) dev 0 16 [.error ()] (fun _ => true) 1 =
      (.ret (.error .dataStreamError), [], dev, { writeOps := 1, writeRequested := 16 }) :=
  ⟨ioObj, fun _ => 0, rfl⟩

-- non-vacuity: 21 bytes with 4-byte small and 16-byte large pages: the read of bytes 3..21 in chunks of at most
-- 7 reads 28 bytes from the device for 18; the write of the tail stores 5 bytes as 8
example : PagesOk ioPages := ⟨by decide, by decide, by decide⟩
example : (opReadLog ioPages (some ioObj) 7 3 none (List.replicate 9 { dev := fun n => n.toUInt8 })).2 =
    { readOps := 1, readRequested := 18, readSent := 18, readDiscarded := 10 } := by decide +kernel
example : (opReadLog ioPages (some ioObj) 7 3 none [{ dev := fun n => n.toUInt8 }, { dev := fun _ => 0, after := false }]).2 =
    { readOps := 1, readRequested := 18, readSent := 7, readDiscarded := 7 } := by decide +kernel
example : (opWriteLog ioPages (fun _ => 0) (some ioObj) (fun _ => 0) 16 5 [.ok [1, 2], .ok [3, 4, 5]] (fun _ => true) 9).2.2.2 =
    { writeOps := 1, writeRequested := 5, writeWritten := 8 } := by decide +kernel
example : (opWriteLog ioPages (fun _ => 0) (some ioObj) (fun _ => 0) 16 5 [.ok [1, 2], .ok [3, 4, 5]] (fun _ => true) 9).1 =
    .ret (.ok ()) := rfl

end Props
end Blobd
