import Verif.Model.KvLog
import Verif.Proofs.KvObject
import Verif.Proofs.Util
/-! # The KV ring log: invariants and replay -/
namespace Blobd
namespace Kv

/-- `n` bytes of the ring from virtual offset `v` -/
def ringRead (c : LogCfg) (data : Mem) (v n : Nat) : List Byte :=
  (List.range n).map (fun i => data ((v + i) % c.dataLen))

@[simp] theorem length_ringRead (c : LogCfg) (data : Mem) (v n : Nat) :
    (ringRead c data v n).length = n := by simp [ringRead]

theorem getElem_ringRead (c : LogCfg) (data : Mem) (v n i : Nat) (h : i < n) :
    (ringRead c data v n)[i]'(by simpa using h) = data ((v + i) % c.dataLen) := by simp [ringRead]

theorem ringRead_add (c : LogCfg) (data : Mem) (v a b : Nat) :
    ringRead c data v (a + b) = ringRead c data v a ++ ringRead c data (v + a) b := by
  apply List.ext_getElem
  · simp
  · intro i h1 h2
    simp at h1
    rw [getElem_ringRead _ _ _ _ _ h1, List.getElem_append]
    split
    · rename_i h; simp at h; rw [getElem_ringRead _ _ _ _ _ h]
    · rename_i h
      simp at h
      simp only [length_ringRead]
      rw [getElem_ringRead _ _ _ _ _ (by omega)]
      congr 2; omega

theorem ringRead_drop (c : LogCfg) (data : Mem) (v n k : Nat) (h : k ≤ n) :
    (ringRead c data v n).drop k = ringRead c data (v + k) (n - k) := by
  conv => lhs; rw [show n = k + (n - k) by omega]
  rw [ringRead_add, List.drop_left' (by simp)]

theorem mod_add_lt {v i n : Nat} (h : v % n + i < n) : (v + i) % n = v % n + i := by
  rw [Nat.add_mod, Nat.mod_eq_of_lt (a := i) (by omega), Nat.mod_eq_of_lt h]

theorem ringRead_eq_read {c : LogCfg} {data : Mem} {v n : Nat} (h : v % c.dataLen + n ≤ c.dataLen) :
    ringRead c data v n = data.read (v % c.dataLen) n := by
  apply List.ext_getElem
  · simp
  · intro i h1 h2
    simp at h1
    rw [getElem_ringRead _ _ _ _ _ h1, Mem.getElem_read _ _ _ _ h1, mod_add_lt (by omega)]

/-- tasks whose parts can be written and read back -/
def TaskOk (t : Task) : Prop :=
  (KeyOk t.key ∨ t.key = .literal []) ∧ ∀ d, t.op = some d → DataOk d

/-- description of what a stretch of the ring holds: the tasks of one flush, or the rest of the physical
ring skipped by a wraparound marker -/
inductive Rec where
  | flush (tasks : List Task)
  | wrap

/-- the records of a flush -/
def Flush.recs (f : Flush) : List Rec :=
  if f.writes.length = 2 then [.wrap, .flush f.tasks] else [.flush f.tasks]

/-- what a stretch `[v, vend)` of the ring holds -/
inductive Holds (c : LogCfg) (data : Mem) : Nat → List Rec → Nat → Prop
  | nil (v : Nat) : Holds c data v [] v
  | flush {v : Nat} {ts : List Task} {buf : List Byte} {rest : List Rec} {vend : Nat} :
      encodeTasks ts = some buf → (∀ t ∈ ts, TaskOk t) → 2 ^ c.spage ∣ v →
      v % c.dataLen + ceilPow2 buf.length c.spage ≤ c.dataLen →
      ceilPow2 buf.length c.spage ≤ c.bufSize →
      data.read (v % c.dataLen) buf.length = buf →
      (buf.length % 2 ^ c.spage > 0 → data (v % c.dataLen + buf.length) = 3) →
      Holds c data (v + ceilPow2 buf.length c.spage) rest vend →
      Holds c data v (.flush ts :: rest) vend
  | wrap {v : Nat} {rest : List Rec} {vend : Nat} :
      (0 < v % c.dataLen ∧ v % c.dataLen < c.dataLen) → 2 ^ c.spage ∣ v → c.dataLen - v % c.dataLen ≤ c.bufSize →
      data (v % c.dataLen) = 4 →
      Holds c data (v + (c.dataLen - v % c.dataLen)) rest vend →
      Holds c data v (.wrap :: rest) vend

/-- where a list of records starting at `v` ends -/
def recsEnd (c : LogCfg) : Nat → List Rec → Nat
  | v, [] => v
  | v, .flush ts :: rest => recsEnd c (v + ceilPow2 ((encodeTasks ts).getD []).length c.spage) rest
  | v, .wrap :: rest => recsEnd c (v + (c.dataLen - v % c.dataLen)) rest

/-- the tasks of records, in order -/
def recTasks (rs : List Rec) : List Task :=
  rs.flatMap (fun r => match r with | .flush ts => ts | .wrap => [])

theorem Holds.le {c : LogCfg} {data : Mem} {v vend : Nat} {rs : List Rec} (h : Holds c data v rs vend) :
    v ≤ vend := by
  induction h with
  | nil => exact Nat.le_refl _
  | flush _ _ _ _ _ _ _ _ ih => omega
  | wrap _ _ _ _ _ ih => omega

theorem Holds.end_eq {c : LogCfg} {data : Mem} {v vend : Nat} {rs : List Rec}
    (h : Holds c data v rs vend) : recsEnd c v rs = vend := by
  induction h with
  | nil => rfl
  | flush h1 _ _ _ _ _ _ _ ih => simp only [recsEnd, h1, Option.getD_some]; exact ih
  | wrap _ _ _ _ _ ih => exact ih

theorem Holds.append {c : LogCfg} {data : Mem} {v mid vend : Nat} {r1 r2 : List Rec}
    (h : Holds c data v r1 mid) (h2 : Holds c data mid r2 vend) : Holds c data v (r1 ++ r2) vend := by
  induction h with
  | nil => exact h2
  | flush a b d e f g i _ ih => exact .flush a b d e f g i (ih h2)
  | wrap a b d e _ ih => exact .wrap a b d e (ih h2)

theorem Holds.split {c : LogCfg} {data : Mem} {v vend : Nat} {r1 r2 : List Rec}
    (h : Holds c data v (r1 ++ r2) vend) :
    Holds c data v r1 (recsEnd c v r1) ∧ Holds c data (recsEnd c v r1) r2 vend := by
  induction r1 generalizing v with
  | nil => exact ⟨.nil v, h⟩
  | cons r r1 ih =>
    cases h with
    | flush a b d e f g i k =>
      obtain ⟨x, y⟩ := ih k
      simp only [recsEnd, a, Option.getD_some]
      exact ⟨.flush a b d e f g i x, y⟩
    | wrap a b d e k =>
      obtain ⟨x, y⟩ := ih k
      exact ⟨.wrap a b d e x, y⟩

theorem Holds.congr {c : LogCfg} {data data' : Mem} {v vend : Nat} {rs : List Rec}
    (h : Holds c data v rs vend)
    (he : ∀ x, v ≤ x → x < vend → data' (x % c.dataLen) = data (x % c.dataLen)) :
    Holds c data' v rs vend := by
  induction h with
  | nil => exact .nil _
  | @flush v ts buf rest vend a b d e f g i k ih =>
    have hle := k.le
    have hcl := le_ceilPow2 buf.length c.spage
    refine .flush a b d e f ?_ ?_ (ih (fun x h1 h2 => he x (by omega) h2))
    · rw [← g, Mem.length_read]
      apply Mem.read_congr
      intro x h1 h2
      have := he (v + (x - v % c.dataLen)) (by omega) (by omega)
      rw [mod_add_lt (by omega), show v % c.dataLen + (x - v % c.dataLen) = x by omega] at this
      exact this
    · intro h3
      have hlt : buf.length < ceilPow2 buf.length c.spage := by
        rcases Nat.lt_or_eq_of_le hcl with h | h
        · exact h
        · have := ceilPow2_dvd buf.length c.spage
          rw [← h] at this
          have := Nat.mod_eq_zero_of_dvd this
          omega
      have := he (v + buf.length) (by omega) (by omega)
      rw [mod_add_lt (by omega)] at this
      rw [this]; exact i h3
  | @wrap v rest vend a b d e k ih =>
    have hle := k.le
    have hlt := a.2
    refine .wrap a b d ?_ (ih (fun x h1 h2 => he x (by omega) h2))
    rw [he v (Nat.le_refl _) (by omega)]; exact e

/-! ## Replay -/

/-- a chain of parseable items -/
inductive Chain (c : LogCfg) (data : Mem) : Nat → List (Option (Key × Option Data)) → Nat → Prop
  | nil (v : Nat) : Chain c data v [] v
  | cons {v need skip vend : Nat} {e : Option (Key × Option Data)} {es : List (Option (Key × Option Data))} :
      (∀ n, need ≤ n → parseEntry c v (ringRead c data v n) = some (e, skip)) →
      0 < skip → need ≤ skip → skip ≤ c.bufSize → Chain c data (v + skip) es vend →
      Chain c data v (e :: es) vend

theorem Chain.le {c : LogCfg} {data : Mem} {v vend : Nat} {es} (h : Chain c data v es vend) : v ≤ vend := by
  induction h with
  | nil => exact Nat.le_refl _
  | cons _ _ _ _ _ ih => omega

theorem Chain.length_le {c : LogCfg} {data : Mem} {v vend : Nat} {es} (h : Chain c data v es vend) :
    v + es.length ≤ vend := by
  induction h with
  | nil => simp
  | cons _ _ _ _ _ ih => simp only [List.length_cons]; omega

theorem Chain.append {c : LogCfg} {data : Mem} {v mid vend : Nat} {e1 e2}
    (h : Chain c data v e1 mid) (h2 : Chain c data mid e2 vend) : Chain c data v (e1 ++ e2) vend := by
  induction h with
  | nil => exact h2
  | cons a b d e _ ih => exact .cons a b d e (ih h2)

/-- configurations of the log the theorems are about -/
structure LogCfg.Ok (c : LogCfg) : Prop where
  pos : 0 < c.dataLen
  dvd : 2 ^ c.spage ∣ c.dataLen
  bufPos : 0 < c.bufSize
  bufDvd : 2 ^ c.spage ∣ c.bufSize

theorem mod_dvd_of {a b n : Nat} (h1 : n ∣ a) (h2 : n ∣ b) : n ∣ a % b := (Nat.dvd_mod_iff h2).2 h1

theorem fillBuf_spec {c : LogCfg} (hc : c.Ok) (data : Mem) (vnext vend : Nat) (hv : 2 ^ c.spage ∣ vend) :
    ∀ (fuel L : Nat), vend - (vnext + L) < fuel → vnext + L ≤ vend → 2 ^ c.spage ∣ vnext + L →
      ∃ L', fillBuf c data vnext vend fuel (ringRead c data vnext L) = some (ringRead c data vnext L') ∧
        vnext + L' ≤ vend ∧ 2 ^ c.spage ∣ vnext + L' ∧ (c.bufSize ≤ L' ∨ vnext + L' = vend) := by
  intro fuel
  induction fuel with
  | zero => intro L h; omega
  | succ fuel ih =>
    intro L hf hle hd
    simp only [fillBuf, length_ringRead, modPow2_eq]
    rw [if_pos ⟨Nat.mod_eq_zero_of_dvd hd, hle⟩]
    split
    · rename_i h
      exact ⟨L, rfl, hle, hd, h⟩
    · rename_i h
      have hm := Nat.mod_lt (vnext + L) hc.pos
      generalize hR : min (min c.bufSize (vend - (vnext + L))) (c.dataLen - (vnext + L) % c.dataLen) = R
      have hbp := hc.bufPos
      have hR0 : 0 < R := by rw [← hR]; omega
      have hR1 : R ≤ vend - (vnext + L) := by rw [← hR]; omega
      have hR2 : R ≤ c.dataLen - (vnext + L) % c.dataLen := by rw [← hR]; omega
      have hRd : 2 ^ c.spage ∣ R := by
        rw [← hR]
        have d1 : 2 ^ c.spage ∣ vend - (vnext + L) := Nat.dvd_sub hv hd
        have d2 : 2 ^ c.spage ∣ c.dataLen - (vnext + L) % c.dataLen :=
          Nat.dvd_sub hc.dvd (mod_dvd_of hd hc.dvd)
        have dmin : ∀ a b, 2 ^ c.spage ∣ a → 2 ^ c.spage ∣ b → 2 ^ c.spage ∣ min a b := by
          intro a b ha hb
          rcases Nat.le_total a b with h | h
          · rwa [Nat.min_eq_left h]
          · rwa [Nat.min_eq_right h]
        exact dmin _ _ (dmin _ _ hc.bufDvd d1) d2
      rw [← ringRead_eq_read (v := vnext + L) (n := R) (by omega), ← ringRead_add]
      exact ih (L + R) (by omega) (by omega) (by rw [← Nat.add_assoc]; exact Nat.dvd_add hd hRd)

theorem replayLoop_spec {c : LogCfg} (hc : c.Ok) {data : Mem} {vend : Nat} (hv : 2 ^ c.spage ∣ vend)
    {v : Nat} {es} (h : Chain c data v es vend) :
    ∀ (fuel L : Nat), es.length < fuel → v + L ≤ vend → 2 ^ c.spage ∣ v + L →
      replayLoop c data vend fuel v (some (ringRead c data v L)) = some (es.filterMap id) := by
  induction h with
  | nil =>
    intro fuel L hf _ _
    cases fuel with
    | zero => omega
    | succ f => simp [replayLoop]
  | @cons v need skip vend e es hp hpos hns hsb k ih =>
    intro fuel L hf hle hd
    have hk := k.le
    cases fuel with
    | zero => omega
    | succ f =>
      obtain ⟨L', e1, hL1, hL2, hL3⟩ := fillBuf_spec hc data v vend hv (vend - v + 1) L (by omega) hle hd
      simp only [replayLoop]
      rw [if_neg (by omega), e1]
      simp only
      rw [hp L' (by omega)]
      simp only [length_ringRead]
      rw [if_pos (by omega), ringRead_drop _ _ _ _ _ (by omega)]
      simp only [List.length_cons] at hf
      rw [ih hv f (L' - skip) (by omega) (by omega)
        (by rw [show v + skip + (L' - skip) = v + L' by omega]; exact hL2)]
      simp only
      cases e <;> simp

theorem parse_task (c : LogCfg) (t : Task) (ht : TaskOk t) (v : Nat) {b : List Byte}
    (hb : encodeTask t = some b) (rest : List Byte) :
    parseEntry c v (b ++ rest) = some (some t.erase, b.length) := by
  obtain ⟨k, op, val⟩ := t
  obtain ⟨hk, hd⟩ := ht
  obtain ⟨a, ha, ra⟩ := key_roundtrip k hk
  cases op with
  | none =>
    simp only [encodeTask, ha, Option.some.injEq] at hb
    subst hb
    simp only [parseEntry, List.cons_append, ra]
    rw [if_neg (by decide), if_pos trivial]
    simp [Task.erase]
    omega
  | some d =>
    obtain ⟨s, hs, rs⟩ := data_roundtrip d (hd d rfl)
    simp only [encodeTask, ha, hs, Option.some.injEq] at hb
    subst hb
    simp only [parseEntry, List.cons_append, if_true, List.append_assoc, ra, rs]
    simp [Task.erase]
    omega

theorem encodeTask_pos {t : Task} {b : List Byte} (h : encodeTask t = some b) : 0 < b.length := by
  unfold encodeTask at h
  split at h
  · split at h
    · cases h; simp
    · cases h
  · split at h
    · cases h; simp
    · cases h

theorem ringRead_prefix {c : LogCfg} {data : Mem} {v : Nat} {b : List Byte}
    (h : ringRead c data v b.length = b) {n : Nat} (hn : b.length ≤ n) :
    ringRead c data v n = b ++ ringRead c data (v + b.length) (n - b.length) := by
  conv => lhs; rw [show n = b.length + (n - b.length) by omega]
  rw [ringRead_add, h]

theorem chain_tasks {c : LogCfg} {data : Mem} (ts : List Task) (hts : ∀ t ∈ ts, TaskOk t) :
    ∀ (v : Nat) (buf : List Byte), encodeTasks ts = some buf → ringRead c data v buf.length = buf →
      buf.length ≤ c.bufSize →
      Chain c data v (ts.map fun t => some t.erase) (v + buf.length) := by
  induction ts with
  | nil =>
    intro v buf h _ _
    simp [encodeTasks] at h; subst h
    exact .nil v
  | cons t ts ih =>
    intro v buf h hr hs
    simp only [encodeTasks] at h
    split at h
    · rename_i a b ha hb
      cases h
      rw [List.length_append, ringRead_add] at hr
      obtain ⟨r1, r2⟩ := List.append_inj hr (by simp)
      simp only [List.length_append] at hs
      have hpos := encodeTask_pos ha
      refine .cons (need := a.length) (skip := a.length) ?_ hpos (Nat.le_refl _) (by omega) ?_
      · intro n hn
        rw [ringRead_prefix r1 hn]
        exact parse_task c t (hts t (by simp)) v ha _
      · have := ih (fun t ht => hts t (by simp [ht])) (v + a.length) b hb r2 (by omega)
        simpa [Nat.add_assoc] using this
    · cases h

theorem chain_of_holds {c : LogCfg} {data : Mem} {v vend : Nat} {rs : List Rec}
    (h : Holds c data v rs vend) :
    ∃ es, Chain c data v es vend ∧ es.filterMap id = (recTasks rs).map Task.erase := by
  induction h with
  | nil v => exact ⟨[], .nil v, rfl⟩
  | @flush v ts buf rest vend a b d e f g i k ih =>
    obtain ⟨es, hc, he⟩ := ih
    have hcl := le_ceilPow2 buf.length c.spage
    have h2 := Nat.two_pow_pos c.spage
    have hring : ringRead c data v buf.length = buf := by
      rw [ringRead_eq_read (by omega)]; exact g
    have c1 := chain_tasks ts b v buf a hring (by omega)
    have hfm : ∀ l : List Task, (l.map fun t => some t.erase).filterMap id = l.map Task.erase := by
      intro l; induction l <;> simp_all
    by_cases hp : buf.length % 2 ^ c.spage > 0
    · have hclt := ceilPow2_lt buf.length c.spage
      have hcd := ceilPow2_dvd buf.length c.spage
      have hne : buf.length < ceilPow2 buf.length c.spage := by
        rcases Nat.lt_or_eq_of_le hcl with h | h
        · exact h
        · rw [← h] at hcd; have := Nat.mod_eq_zero_of_dvd hcd; omega
      have hmod : (v + buf.length) % 2 ^ c.spage = buf.length % 2 ^ c.spage := by
        rw [Nat.add_mod, Nat.mod_eq_zero_of_dvd d]; simp
      have hml := Nat.mod_lt buf.length h2
      have hgap : ceilPow2 buf.length c.spage - buf.length = 2 ^ c.spage - buf.length % 2 ^ c.spage := by
        rw [ceilPow2_eq, if_pos (by omega), Nat.add_mul, Nat.one_mul]
        have := Nat.div_add_mod buf.length (2 ^ c.spage)
        rw [Nat.mul_comm] at this
        omega
      refine ⟨_, c1.append (.cons (e := none) (need := 1)
        (skip := ceilPow2 buf.length c.spage - buf.length) (es := es) ?_ (by omega) (by omega) (by omega) ?_),
        ?_⟩
      · intro n hn
        obtain ⟨m, rfl⟩ : ∃ m, n = 1 + m := ⟨n - 1, by omega⟩
        rw [ringRead_add]
        have : ringRead c data (v + buf.length) 1 = [3] := by
          simp only [ringRead, List.range_one, List.map_cons, List.map_nil, Nat.add_zero]
          rw [mod_add_lt (by omega), i hp]
        rw [this]
        simp only [List.cons_append, List.nil_append, parseEntry, modPow2_eq, Nat.one_shiftLeft, hmod]
        rw [if_neg (by decide), if_neg (by decide), if_pos trivial, if_pos (by omega), hgap]
      · rw [show v + buf.length + (ceilPow2 buf.length c.spage - buf.length)
          = v + ceilPow2 buf.length c.spage by omega]
        exact hc
      · rw [List.filterMap_append, hfm]
        simp [recTasks, he]
    · have : ceilPow2 buf.length c.spage = buf.length :=
        ceilPow2_eq_self_of_dvd (Nat.dvd_of_mod_eq_zero (by omega))
      rw [this] at hc
      refine ⟨_, c1.append hc, ?_⟩
      rw [List.filterMap_append, hfm]
      simp [recTasks, he]
  | @wrap v rest vend a b d e k ih =>
    obtain ⟨es, hc, he⟩ := ih
    refine ⟨none :: es, .cons (need := 1) (skip := c.dataLen - v % c.dataLen) ?_ (by omega) (by omega) d hc, ?_⟩
    · intro n hn
      obtain ⟨m, rfl⟩ : ∃ m, n = 1 + m := ⟨n - 1, by omega⟩
      rw [ringRead_add]
      have : ringRead c data v 1 = [4] := by
        simp only [ringRead, List.range_one, List.map_cons, List.map_nil, Nat.add_zero, e]
      rw [this]
      simp only [List.cons_append, List.nil_append, parseEntry]
      rw [if_neg (by decide), if_neg (by decide), if_neg (by decide), if_pos trivial, if_pos (by omega)]
    · simpa [recTasks] using he

theorem replay_holds {c : LogCfg} (hc : c.Ok) {data : Mem} {v vend : Nat} {rs : List Rec}
    (hv : 2 ^ c.spage ∣ v) (hv2 : 2 ^ c.spage ∣ vend) (h : Holds c data v rs vend) :
    replay c data v vend = some ((recTasks rs).map Task.erase) := by
  obtain ⟨es, hch, he⟩ := chain_of_holds h
  have hl := hch.length_le
  unfold replay
  simp only [modPow2_eq]
  rw [if_pos ⟨Nat.mod_eq_zero_of_dvd hv, Nat.mod_eq_zero_of_dvd hv2, h.le⟩, ← he]
  exact replayLoop_spec hc hv2 hch (vend - v + 1) 0 (by omega) (by omega) (by simpa using hv)

end Kv
end Blobd
