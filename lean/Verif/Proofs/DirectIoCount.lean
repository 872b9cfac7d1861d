import Verif.Model.DirectIo
import Verif.Proofs.WriteRead
/-! Counters of reads and writes of object data (direct). -/
set_option autoImplicit false
namespace Blobd
namespace RW

/-! ### Reads -/

theorem range_len (pages : Pages) (offset len : Nat) :
    len ≤ (unalignedRange pages offset len).2 - (unalignedRange pages offset len).1 ∧
      (unalignedRange pages offset len).1 ≤ offset ∧ offset + len ≤ (unalignedRange pages offset len).2 := by
  unfold unalignedRange
  have h1 := floorPow2_le offset pages.spage
  have h2 := le_ceilPow2 (offset + len) pages.spage
  refine ⟨?_, ?_, ?_⟩ <;> dsimp only <;> omega

theorem floorPow2_lt (v p : Nat) : v < floorPow2 v p + 2 ^ p := by
  rw [floorPow2_eq]
  have h := Nat.div_add_mod v (2 ^ p)
  have h2 := Nat.mod_lt v (Nat.two_pow_pos p)
  rw [Nat.mul_comm] at h
  omega

theorem range_waste (pages : Pages) (offset len : Nat) (hl : 0 < len) :
    (unalignedRange pages offset len).2 - (unalignedRange pages offset len).1 < len + 2 * 2 ^ pages.spage := by
  unfold unalignedRange
  have h1 := floorPow2_lt offset pages.spage
  have h2 := ceilPow2_lt (offset + len) pages.spage
  have h4 := le_ceilPow2 (offset + len) pages.spage
  have h3 : 2 ^ pages.spage ≤ ceilPow2 (offset + len) pages.spage :=
    Nat.le_of_dvd (by omega) (ceilPow2_dvd _ _)
  dsimp only
  omega

theorem unalignedRead_length (pages : Pages) (dev : Mem) (offset len : Nat) :
    (unalignedRead pages dev offset len).length = len := by
  rw [unalignedRead_eq]; simp

def total (l : List (Nat × Nat)) : Nat := (l.map Prod.snd).sum

@[simp] theorem total_cons (p : Nat × Nat) (l : List (Nat × Nat)) : total (p :: l) = p.2 + total l := rfl
@[simp] theorem total_nil : total [] = 0 := rfl

variable {pages : Pages} {lay : ObjectLayout} {o : Obj} {bufSize stop : Nat}

theorem readLog_acct (ts : List ReadTurn) : ∀ idx next : Nat,
    (readLog pages lay o bufSize stop ts idx next).sent = (readLog pages lay o bufSize stop ts idx next).chunks.flatten.length ∧
    (readLog pages lay o bufSize stop ts idx next).sent ≤ stop - next ∧
    ((readLog pages lay o bufSize stop ts idx next).how = .finished →
      (readLog pages lay o bufSize stop ts idx next).sent = stop - next) ∧
    ((readLog pages lay o bufSize stop ts idx next).how ≠ .gone →
      total (readLog pages lay o bufSize stop ts idx next).reads =
        (readLog pages lay o bufSize stop ts idx next).sent + (readLog pages lay o bufSize stop ts idx next).discarded) ∧
    (readLog pages lay o bufSize stop ts idx next).sent + (readLog pages lay o bufSize stop ts idx next).discarded ≤
      total (readLog pages lay o bufSize stop ts idx next).reads ∧
    total (readLog pages lay o bufSize stop ts idx next).reads ≤
      (readLog pages lay o bufSize stop ts idx next).sent + (readLog pages lay o bufSize stop ts idx next).discarded +
        min bufSize (stop - (next + (readLog pages lay o bufSize stop ts idx next).sent)) := by
  induction ts with
  | nil =>
    intro idx next
    unfold readLog
    split
    · simp
    · simp; omega
  | cons t ts ih =>
    intro idx next
    unfold readLog
    split
    · rename_i hlt
      cases hp : pageAt pages lay o idx with
      | none => simp
      | some pe =>
        obtain ⟨pageOff, e⟩ := pe
        simp only
        generalize hcl : min (min bufSize (stop - next)) (1 <<< e - modPow2 next e) = cl
        have hr := range_len pages (pageOff + modPow2 next e) cl
        have hdl := unalignedRead_length pages t.dev (pageOff + modPow2 next e) cl
        generalize unalignedRange pages (pageOff + modPow2 next e) cl = r at hr ⊢
        split
        · split
          · have hk := ih (if cl = 1 <<< e - modPow2 next e then idx + 1 else idx) (next + cl)
            generalize readLog pages lay o bufSize stop ts (if cl = 1 <<< e - modPow2 next e then idx + 1 else idx) (next + cl) = k at hk ⊢
            obtain ⟨k1, k2, k3, k4, k5, k6⟩ := hk
            dsimp only
            rw [List.flatten_cons, List.length_append, hdl, total_cons]
            dsimp only
            refine ⟨by omega, by omega, fun h => by have := k3 h; omega, fun h => by have := k4 h; omega, by omega, ?_⟩
            rw [← Nat.add_assoc]
            omega
          · dsimp only
            rw [total_cons, total_nil]
            refine ⟨rfl, by omega, (fun h => by cases h), fun h => absurd rfl h, ?_, ?_⟩ <;> dsimp only <;> omega
        · simp
    · simp; omega

/-- if the object stays valid and the consumer polls to the end, the stream is the plain read loop's -/
theorem readLog_plain (dev : Mem) {cs : List (List Byte)} : ∀ (fuel idx next : Nat),
    readLoopDirect pages lay o dev bufSize stop fuel idx next = .ret cs →
      ∀ m, fuel ≤ m →
        (readLog pages lay o bufSize stop (List.replicate m { dev := dev }) idx next).how = .finished ∧
          (readLog pages lay o bufSize stop (List.replicate m { dev := dev }) idx next).chunks = cs := by
  intro fuel
  induction fuel generalizing cs with
  | zero => intro idx next h; cases h
  | succ fuel ih =>
    intro idx next h m hm
    obtain ⟨m, rfl⟩ : ∃ k, m = k + 1 := ⟨m - 1, by omega⟩
    rw [List.replicate_succ]
    unfold readLoopDirect at h
    unfold readLog
    split at h
    · rename_i hlt
      rw [if_pos hlt]
      cases hp : pageAt pages lay o idx with
      | none => rw [hp] at h; cases h
      | some pe =>
        obtain ⟨pageOff, e⟩ := pe
        rw [hp] at h
        dsimp only at h ⊢
        rw [if_pos rfl, if_pos rfl]
        split at h
        · rename_i cs' he
          cases h
          obtain ⟨a, b⟩ := ih _ _ he m (by omega)
          dsimp only
          exact ⟨a, by rw [b]⟩
        · rename_i hne
          exact absurd h (hne cs)
    · rename_i hlt
      cases h
      rw [if_neg hlt]
      exact ⟨rfl, rfl⟩

theorem readLog_waste (hb : 0 < bufSize) (ts : List ReadTurn) : ∀ idx next : Nat,
    (readLog pages lay o bufSize stop ts idx next).reads.length ≤ ts.length ∧
    (readLog pages lay o bufSize stop ts idx next).discarded ≤
      (readLog pages lay o bufSize stop ts idx next).reads.length * (2 * 2 ^ pages.spage) := by
  induction ts with
  | nil => intro idx next; unfold readLog; split <;> simp
  | cons t ts ih =>
    intro idx next
    unfold readLog
    split
    · rename_i hlt
      cases hp : pageAt pages lay o idx with
      | none => simp
      | some pe =>
        obtain ⟨pageOff, e⟩ := pe
        simp only
        have hm := Nat.mod_lt next (Nat.two_pow_pos e)
        generalize hcl : min (min bufSize (stop - next)) (1 <<< e - modPow2 next e) = cl
        have hcp : 0 < cl := by rw [modPow2_eq, Nat.one_shiftLeft] at hcl; omega
        have hw := range_waste pages (pageOff + modPow2 next e) cl hcp
        generalize unalignedRange pages (pageOff + modPow2 next e) cl = r at hw ⊢
        split
        · split
          · have hk := ih (if cl = 1 <<< e - modPow2 next e then idx + 1 else idx) (next + cl)
            generalize readLog pages lay o bufSize stop ts (if cl = 1 <<< e - modPow2 next e then idx + 1 else idx) (next + cl) = k at hk ⊢
            dsimp only
            rw [List.length_cons, List.length_cons, Nat.succ_mul]
            omega
          · dsimp only
            rw [List.length_cons, List.length_cons, List.length_nil]
            omega
        · simp
    · simp

/-! ### Writes -/

/-- bytes handed to the device for a page that receives `amount` bytes -/
def padded (spage amount : Nat) : Nat := max (2 ^ spage) (ceilPow2 amount spage)

theorem blockDirect_length (pages : Pages) (junk : Nat → Byte) (d : List Byte) :
    (blockDirect pages junk d).length = padded pages.spage d.length := by
  unfold blockDirect padded
  have := le_ceilPow2 d.length pages.spage
  simp only [List.length_append, List.length_map, List.length_range]
  omega

theorem padded_pos {spage amount : Nat} (h : 0 < amount) : padded spage amount = ceilPow2 amount spage := by
  unfold padded
  have h1 := le_ceilPow2 amount spage
  have := Nat.le_of_dvd (by omega) (ceilPow2_dvd amount spage)
  omega

theorem ceil_add {a b p : Nat} (h : 2 ^ p ∣ a) : ceilPow2 (a + b) p = a + ceilPow2 b p := by
  obtain ⟨k, rfl⟩ := h
  rw [ceilPow2_eq, ceilPow2_eq, Nat.mul_add_mod, Nat.mul_add_div (Nat.two_pow_pos p)]
  split
  · rw [Nat.add_assoc, Nat.add_mul, Nat.mul_comm k]
  · rw [Nat.add_mul, Nat.mul_comm k]

theorem fit_padded {ts pp : List (Nat × Nat)} {spage : Nat} (h : Fit ts pp) (hs : ∀ p ∈ pp, spage ≤ p.2) :
    (ts.map (fun t => padded spage t.1)).sum = ceilPow2 (amtSum ts) spage := by
  induction h with
  | nil => simp [ceilPow2_eq]
  | @last amt off e h0 h => simp [padded_pos h0]
  | @cons off e ts pp _ ih =>
    have hd : 2 ^ spage ∣ 2 ^ e := Nat.pow_dvd_pow 2 (hs (off, e) (by simp))
    rw [List.map_cons, List.sum_cons, ih (fun p hp => hs p (by simp [hp])), amtSum_cons, ceil_add hd,
      padded_pos (Nat.two_pow_pos e), ceilPow2_eq_self_of_dvd hd]

/-- what holds at every point of the write loop -/
structure WOk (pages : Pages) (targets : List (Nat × Nat)) (dev : Mem) (k : WLog) : Prop where
  idx : k.st.idx ≤ targets.length
  amt : k.st.written = amtSum (targets.take k.st.idx)
  dev : k.st.dev = dev.writeAll k.writes
  ctr : k.written = (k.writes.map (fun w => w.2.length)).sum
  pad : k.written = ((targets.take k.st.idx).map (fun t => padded pages.spage t.1)).sum
  offs : k.writes.map Prod.fst = (targets.take k.st.idx).map Prod.snd

variable {junk : Nat → Byte} {len : Nat} {targets : List (Nat × Nat)} {valid : Nat → Bool} {dev : Mem}

theorem take_idx {i : Nat} {t : Nat × Nat} (h : targets[i]? = some t) : targets.take (i + 1) = targets.take i ++ [t] := by
  rw [List.take_add_one, h]; rfl

theorem wlogProceed_ok {k : WLog} (h : WOk pages targets dev k) :
    WOk pages targets dev (wlogProceed (blockDirect pages junk) len targets valid k).2 ∧
      ∀ r, (wlogProceed (blockDirect pages junk) len targets valid k).1 ≠ .ret (.ok r) := by
  unfold wlogProceed
  split
  · exact ⟨h, fun r => by simp⟩
  · split
    · exact ⟨h, fun r => by simp⟩
    · rename_i amount pageOff ht
      split
      · exact ⟨h, fun r => by simp⟩
      · rename_i hlen
        split
        · refine ⟨?_, fun r => by simp⟩
          have hi : k.st.idx < targets.length := by
            obtain ⟨hi, _⟩ := List.getElem?_eq_some_iff.1 ht; exact hi
          have hl : (k.st.buf.take amount).length = amount := by rw [List.length_take]; omega
          refine ⟨by dsimp only; omega, ?_, ?_, ?_, ?_, ?_⟩ <;> dsimp only
          · rw [take_idx ht, amtSum_append, h.amt]; simp
          · rw [Mem.writeAll_append, ← h.dev]; rfl
          · rw [List.map_append, List.sum_append, h.ctr]; simp
          · rw [take_idx ht, List.map_append, List.sum_append, h.pad, blockDirect_length, hl]; simp
          · rw [take_idx ht, List.map_append, List.map_append, h.offs]; rfl
        · exact ⟨h, fun r => by simp⟩

theorem wlogStep_ok {k : WLog} (h : WOk pages targets dev k) :
    WOk pages targets dev (wlogStep (blockDirect pages junk) len targets valid k).2 ∧
      ∀ r, (wlogStep (blockDirect pages junk) len targets valid k).1 = .ret (.ok r) →
        (wlogStep (blockDirect pages junk) len targets valid k).2.st.written = len := by
  unfold wlogStep
  split
  · exact ⟨h, fun r hr => by simp at hr⟩
  · rename_i c rest hst
    have h' : WOk pages targets dev { k with st := { k.st with stream := rest, buf := k.st.buf ++ c } } :=
      ⟨h.idx, h.amt, h.dev, h.ctr, h.pad, h.offs⟩
    have := wlogProceed_ok (junk := junk) (len := len) (valid := valid) h'
    exact ⟨this.1, fun r hr => absurd hr (this.2 r)⟩
  · split
    · refine ⟨h, fun r hr => ?_⟩
      dsimp only at hr ⊢
      split at hr
      · simp at hr
      · rename_i hw; omega
    · have := wlogProceed_ok (junk := junk) (len := len) (valid := valid) h
      exact ⟨this.1, fun r hr => absurd hr (this.2 r)⟩

theorem wlogRun_ok (n : Nat) : ∀ {k : WLog}, WOk pages targets dev k →
    WOk pages targets dev (wlogRun (blockDirect pages junk) len targets valid n k).2 ∧
      ∀ r, (wlogRun (blockDirect pages junk) len targets valid n k).1 = .ret (.ok r) →
        (wlogRun (blockDirect pages junk) len targets valid n k).2.st.written = len := by
  induction n with
  | zero => intro k h; exact ⟨h, fun r hr => by simp [wlogRun] at hr⟩
  | succ n ih =>
    intro k h
    have hs := wlogStep_ok (junk := junk) (len := len) (valid := valid) h
    unfold wlogRun
    split
    · rename_i k' he
      rw [he] at hs
      exact ih hs.1
    · exact hs

theorem amtSum_take_full {ts : List (Nat × Nat)} (hp : ∀ t ∈ ts, 0 < t.1) {i : Nat} (hi : i ≤ ts.length)
    (h : amtSum (ts.take i) = amtSum ts) : i = ts.length := by
  have e : amtSum ts = amtSum (ts.take i) + amtSum (ts.drop i) := by
    rw [← amtSum_append, List.take_append_drop]
  have hz : amtSum (ts.drop i) = 0 := by omega
  cases hd : ts.drop i with
  | nil => have := List.drop_eq_nil_iff.1 hd; omega
  | cons t r =>
    have := hp t (List.mem_of_mem_drop (i := i) (by rw [hd]; simp))
    rw [hd] at hz; simp at hz; omega

/-- with the object valid throughout, the loop is the plain write loop -/
theorem wlogRun_plain {block : List Byte → List Byte} (n : Nat) : ∀ (k : WLog) {r : Except OpError Unit} {d : Mem},
    wrun block len targets n k.st = .ret (r, d) →
      (wlogRun block len targets (fun _ => true) n k).1 = .ret r ∧ (wlogRun block len targets (fun _ => true) n k).2.st.dev = d := by
  induction n with
  | zero => intro k r d h; cases h
  | succ n ih =>
    intro k r d h
    have hproc : ∀ k : WLog,
        (match wproceed block len targets k.st with
          | .cont s' => wrun block len targets n s'
          | .done r dev => .ret (r, dev)
          | .panic => .panic) = .ret (r, d) →
        (match wlogProceed block len targets (fun _ => true) k with
          | (.running, k') => wlogRun block len targets (fun _ => true) n k'
          | r => r).1 = .ret r ∧
        (match wlogProceed block len targets (fun _ => true) k with
          | (.running, k') => wlogRun block len targets (fun _ => true) n k'
          | r => r).2.st.dev = d := by
      intro k h
      unfold wproceed at h
      unfold wlogProceed
      by_cases hgt : k.st.written + k.st.buf.length > len
      · rw [if_pos hgt] at h
        rw [if_pos hgt]
        simp at h
        exact ⟨by rw [← h.1], h.2⟩
      · rw [if_neg hgt] at h
        rw [if_neg hgt]
        cases ht : targets[k.st.idx]? with
        | none => rw [ht] at h; simp at h
        | some t =>
          obtain ⟨amount, pageOff⟩ := t
          rw [ht] at h
          dsimp only at h ⊢
          by_cases hlt : k.st.buf.length < amount
          · rw [if_pos hlt] at h
            rw [if_pos hlt]
            exact ih k h
          · rw [if_neg hlt] at h
            rw [if_neg hlt, if_pos rfl]
            exact ih _ h
    unfold wrun wstep at h
    unfold wlogRun wlogStep
    cases hst : k.st.stream with
    | nil =>
      rw [hst] at h
      dsimp only at h ⊢
      by_cases he : k.st.buf.isEmpty
      · rw [if_pos he] at h
        rw [if_pos he]
        simp at h ⊢
        exact ⟨h.1, h.2⟩
      · rw [if_neg he] at h
        rw [if_neg he]
        exact hproc k h
    | cons c rest =>
      rw [hst] at h
      cases c with
      | error e =>
        simp at h ⊢
        exact ⟨h.1, h.2⟩
      | ok c => exact hproc { k with st := { k.st with stream := rest, buf := k.st.buf ++ c } } h

end RW
end Blobd
