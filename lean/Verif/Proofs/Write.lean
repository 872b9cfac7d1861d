import Mathlib.Tactic.Tauto
import Verif.Proofs.Read
/-! Writing object data. -/
namespace Blobd
namespace RW

def amtSum (ts : List (Nat × Nat)) : Nat := (ts.map Prod.fst).sum

@[simp] theorem amtSum_nil : amtSum [] = 0 := rfl
@[simp] theorem amtSum_cons (t : Nat × Nat) (ts : List (Nat × Nat)) : amtSum (t :: ts) = t.1 + amtSum ts := rfl
@[simp] theorem amtSum_append (a b : List (Nat × Nat)) : amtSum (a ++ b) = amtSum a + amtSum b := by simp [amtSum]

/-- the device writes that store `d` over the targets -/
def pieces (block : List Byte → List Byte) : List (Nat × Nat) → List Byte → List (Nat × List Byte)
  | [], _ => []
  | (amt, off) :: ts, d => (off, block (d.take amt)) :: pieces block ts (d.drop amt)

variable {block : List Byte → List Byte} {len : Nat} {targets : List (Nat × Nat)}

theorem drop_idx {targets : List (Nat × Nat)} {i : Nat} {t : Nat × Nat} {ts : List (Nat × Nat)}
    (h : targets.drop i = t :: ts) : targets[i]? = some t ∧ targets.drop (i + 1) = ts := by
  constructor
  · have := congrArg (fun l => l[0]?) h
    simpa using this
  · have := congrArg (List.drop 1) h
    simpa [Nat.add_comm] using this

/-- loop behaviour of `wproceed` when data remains -/
theorem wproceed_cases (s : WState) (hb : s.buf ≠ []) (hle : s.written + s.buf.length ≤ len)
    {t : Nat × Nat} {ts : List (Nat × Nat)} (hd : targets.drop s.idx = t :: ts) :
    wproceed block len targets s = if s.buf.length < t.1 then .cont s else .cont { s with
        dev := s.dev.write t.2 (block (s.buf.take t.1)),
        buf := s.buf.drop t.1, written := s.written + t.1, idx := s.idx + 1 } := by
  unfold wproceed
  rw [if_neg (by omega), (drop_idx hd).1]

theorem wrun_ok : ∀ (fuel : Nat) (cs : List (List Byte)) (s : WState), s.stream = cs.map .ok →
    cs.length + (targets.length - s.idx) < fuel → (∀ c ∈ cs, c ≠ []) → (∀ t ∈ targets, 0 < t.1) →
    s.written + amtSum (targets.drop s.idx) = len → s.written + s.buf.length + cs.flatten.length = len →
    wrun block len targets fuel s =
      .ret (.ok (), s.dev.writeAll (pieces block (targets.drop s.idx) (s.buf ++ cs.flatten))) := by
  intro fuel
  induction fuel with
  | zero => intro cs s _ h; omega
  | succ fuel ih =>
    intro cs s hst hf hne hpos hsum htot
    have hproc : ∀ (cs' : List (List Byte)) (s' : WState), s'.stream = cs'.map .ok → s'.buf ≠ [] →
        s'.idx = s.idx → s'.written = s.written → s'.dev = s.dev → s'.buf ++ cs'.flatten = s.buf ++ cs.flatten →
        (∀ c ∈ cs', c ≠ []) → cs'.length ≤ cs.length → (cs' = [] ∨ cs'.length < cs.length) →
        (match wproceed block len targets s' with
          | .cont s'' => wrun block len targets fuel s''
          | .done r dev => .ret (r, dev)
          | .panic => .panic) =
        .ret (.ok (), s.dev.writeAll (pieces block (targets.drop s.idx) (s.buf ++ cs.flatten))) := by
      intro cs' s' h1 h2 h3 h4 h5 h6 h7 h8 h9
      have hl : s'.buf.length + cs'.flatten.length = s.buf.length + cs.flatten.length := by
        have := congrArg List.length h6; simpa using this
      have hbl : 0 < s'.buf.length := List.length_pos_iff.2 h2
      cases hd : targets.drop s.idx with
      | nil => rw [hd] at hsum; simp at hsum; omega
      | cons t ts =>
        rw [hd] at hsum
        simp only [amtSum_cons] at hsum
        have hil : s.idx < targets.length := by
          apply Classical.byContradiction
          intro hc
          rw [List.drop_eq_nil_of_le (by omega)] at hd; cases hd
        rw [wproceed_cases s' h2 (by omega) (by rw [h3]; exact hd)]
        have htm : t ∈ targets := List.mem_of_mem_drop (by rw [hd]; simp)
        have htpos := hpos t htm
        by_cases hlt : s'.buf.length < t.1
        · simp only [hlt, if_true]
          have : cs' ≠ [] := by
            intro hc; rw [hc, List.flatten_nil, List.length_nil] at hl; omega
          have h10 : cs'.length < cs.length := by tauto
          rw [ih cs' s' h1 (by rw [h3]; omega) h7 hpos (by rw [h3, h4, hd]; simpa using hsum) (by omega)]
          rw [h3, h5, h6, hd]
        · simp only [hlt, if_false]
          rw [ih cs' { s' with
            dev := s'.dev.write t.2 (block (s'.buf.take t.1)), buf := s'.buf.drop t.1,
            written := s'.written + t.1, idx := s'.idx + 1 } h1 (by simp only; rw [h3]; omega) h7 hpos
            (by simp only; rw [h3, h4, (drop_idx hd).2]; omega)
            (by simp only [List.length_drop]; omega)]
          simp only
          rw [h3, (drop_idx hd).2, h5]
          simp only [pieces, Mem.writeAll_cons]
          have e1 : (s.buf ++ cs.flatten).take t.1 = s'.buf.take t.1 := by
            rw [← h6, List.take_append_of_le_length (by omega)]
          have e2 : (s.buf ++ cs.flatten).drop t.1 = s'.buf.drop t.1 ++ cs'.flatten := by
            rw [← h6, List.drop_append_of_le_length (by omega)]
          rw [e1, e2]
    unfold wrun wstep
    cases cs with
    | nil =>
      simp only [List.map_nil] at hst
      simp only [hst]
      cases hbuf : s.buf with
      | nil =>
        simp only [List.isEmpty_nil, if_true]
        rw [hbuf] at htot
        simp at htot
        have hz : amtSum (targets.drop s.idx) = 0 := by omega
        have hdn : targets.drop s.idx = [] := by
          cases hd : targets.drop s.idx with
          | nil => rfl
          | cons t ts =>
            rw [hd] at hz
            have := hpos t (List.mem_of_mem_drop (i := s.idx) (by rw [hd]; simp))
            simp at hz; omega
        rw [hdn]
        simp [htot, pieces, Mem.writeAll]
      | cons b bs =>
        simp only [List.isEmpty_cons]
        have := hproc [] s hst (by rw [hbuf]; simp) rfl rfl rfl rfl (by simp) (by simp) (.inl rfl)
        rw [hbuf] at this
        exact this
    | cons c cs =>
      simp only [List.map_cons] at hst
      simp only [hst]
      have hc := hne c (by simp)
      exact hproc cs { s with stream := cs.map .ok, buf := s.buf ++ c } rfl
        (by simp [hc]) rfl rfl rfl (by simp) (fun c hc => hne c (by simp [hc])) (by simp) (.inr (by simp))

theorem wrun_over : ∀ (fuel : Nat) (cs : List (List Byte)) (s : WState), s.stream = cs.map .ok →
    cs.length < fuel → (∀ c ∈ cs, c ≠ []) →
    s.written + amtSum (targets.drop s.idx) = len → s.written + s.buf.length ≤ len →
    len < s.written + s.buf.length + cs.flatten.length →
    ∃ dev, wrun block len targets fuel s = .ret (.error .dataStreamLengthMismatch, dev) := by
  intro fuel
  induction fuel with
  | zero => intro cs s _ h; omega
  | succ fuel ih =>
    intro cs s hst hf hne hsum hle htot
    cases cs with
    | nil => simp at htot; omega
    | cons c cs =>
      simp only [List.map_cons] at hst
      unfold wrun wstep
      simp only [hst]
      have hc := hne c (by simp)
      have hcl : 0 < c.length := List.length_pos_iff.2 hc
      by_cases hov : s.written + (s.buf ++ c).length > len
      · unfold wproceed
        simp only [hov, if_true]
        exact ⟨_, rfl⟩
      · cases hd : targets.drop s.idx with
        | nil => rw [hd] at hsum; simp at hsum hov; omega
        | cons t ts =>
          rw [wproceed_cases { s with stream := cs.map .ok, buf := s.buf ++ c } (by simp [hc]) (by simp only; omega) hd]
          simp only
          rw [hd] at hsum
          simp only [amtSum_cons] at hsum
          simp only [List.length_append, List.flatten_cons, List.length_cons] at *
          by_cases hlt : s.buf.length + c.length < t.1
          · simp only [hlt, if_true]
            exact ih cs _ rfl (by omega) (fun c hc => hne c (by simp [hc])) (by simp only; rw [hd]; simpa using hsum)
              (by simp only [List.length_append, List.length_drop]; omega) (by simp only [List.length_append, List.length_drop]; omega)
          · simp only [hlt, if_false]
            exact ih cs _ rfl (by omega) (fun c hc => hne c (by simp [hc]))
              (by simp only; rw [(drop_idx hd).2]; omega) (by simp only [List.length_append, List.length_drop]; omega) (by simp only [List.length_append, List.length_drop]; omega)

/-- `n` bytes fill exactly the first few targets -/
def Fills (ts : List (Nat × Nat)) (n : Nat) : Prop := ∃ p q, ts = p ++ q ∧ amtSum p = n

theorem fills_zero (ts : List (Nat × Nat)) : Fills ts 0 := ⟨[], ts, rfl, rfl⟩

theorem fills_cons {t : Nat × Nat} {ts : List (Nat × Nat)} {n : Nat} (h : t.1 ≤ n) :
    Fills ts (n - t.1) → Fills (t :: ts) n := by
  rintro ⟨p, q, rfl, h2⟩
  exact ⟨t :: p, q, rfl, by simp [h2]; omega⟩

theorem fills_tail {t : Nat × Nat} {ts : List (Nat × Nat)} {n : Nat} (hn : 0 < n) (h : Fills (t :: ts) n) :
    t.1 ≤ n ∧ Fills ts (n - t.1) := by
  obtain ⟨p, q, h1, h2⟩ := h
  cases p with
  | nil => simp at h2; omega
  | cons a p =>
    simp only [List.cons_append, List.cons.injEq] at h1
    obtain ⟨rfl, rfl⟩ := h1
    simp only [amtSum_cons] at h2
    exact ⟨by omega, p, q, rfl, by omega⟩

theorem wrun_diverges : ∀ (fuel : Nat) (cs : List (List Byte)) (s : WState), s.stream = cs.map .ok →
    (∀ c ∈ cs, c ≠ []) →
    s.written + amtSum (targets.drop s.idx) = len → s.written + s.buf.length + cs.flatten.length < len →
    ¬ Fills (targets.drop s.idx) (s.buf.length + cs.flatten.length) →
    wrun block len targets fuel s = .running := by
  intro fuel
  induction fuel with
  | zero => intro cs s _ _ _ _ _; rfl
  | succ fuel ih =>
    intro cs s hst hne hsum htot hnf
    have hproc : ∀ (cs' : List (List Byte)) (s' : WState), s'.stream = cs'.map .ok → s'.buf ≠ [] →
        s'.idx = s.idx → s'.written = s.written →
        s'.buf.length + cs'.flatten.length = s.buf.length + cs.flatten.length → (∀ c ∈ cs', c ≠ []) →
        (match wproceed block len targets s' with
          | .cont s'' => wrun block len targets fuel s''
          | .done r dev => .ret (r, dev)
          | .panic => .panic) = .running := by
      intro cs' s' h1 h2 h3 h4 h6 h7
      cases hd : targets.drop s.idx with
      | nil => rw [hd] at hsum; simp at hsum; omega
      | cons t ts =>
        rw [hd] at hsum hnf
        simp only [amtSum_cons] at hsum
        rw [wproceed_cases s' h2 (by omega) (by rw [h3]; exact hd)]
        by_cases hlt : s'.buf.length < t.1
        · simp only [hlt, if_true]
          exact ih cs' s' h1 h7 (by rw [h3, h4, hd]; simpa using hsum) (by omega) (by rw [h3, hd, h6]; exact hnf)
        · simp only [hlt, if_false]
          refine ih cs' _ h1 h7 (by simp only; rw [h3, (drop_idx hd).2]; omega)
            (by simp only [List.length_drop]; omega) ?_
          simp only
          rw [h3, (drop_idx hd).2]
          intro hfl
          apply hnf
          apply fills_cons (by omega)
          simp only [List.length_drop] at hfl
          rwa [show s'.buf.length - t.1 + cs'.flatten.length = s.buf.length + cs.flatten.length - t.1 by omega] at hfl
    unfold wrun wstep
    cases cs with
    | nil =>
      simp only [List.map_nil] at hst
      simp only [hst]
      cases hbuf : s.buf with
      | nil => rw [hbuf] at hnf; exact absurd (fills_zero _) hnf
      | cons b bs =>
        simp only [List.isEmpty_cons]
        have := hproc [] s hst (by rw [hbuf]; simp) rfl rfl rfl (by simp)
        exact this
    | cons c cs =>
      simp only [List.map_cons] at hst
      simp only [hst]
      have hc := hne c (by simp)
      exact hproc cs { s with stream := cs.map .ok, buf := s.buf ++ c } rfl
        (by simp [hc]) rfl rfl (by simp; omega) (fun c hc => hne c (by simp [hc]))

theorem wrun_short : ∀ (fuel : Nat) (cs : List (List Byte)) (s : WState), s.stream = cs.map .ok →
    cs.length + (targets.length - s.idx) < fuel → (∀ c ∈ cs, c ≠ []) →
    s.written + amtSum (targets.drop s.idx) = len → s.written + s.buf.length + cs.flatten.length < len →
    Fills (targets.drop s.idx) (s.buf.length + cs.flatten.length) →
    ∃ dev, wrun block len targets fuel s = .ret (.error .dataStreamLengthMismatch, dev) := by
  intro fuel
  induction fuel with
  | zero => intro cs s _ h; omega
  | succ fuel ih =>
    intro cs s hst hf hne hsum htot hfill
    have hproc : ∀ (cs' : List (List Byte)) (s' : WState), s'.stream = cs'.map .ok → s'.buf ≠ [] →
        s'.idx = s.idx → s'.written = s.written →
        s'.buf.length + cs'.flatten.length = s.buf.length + cs.flatten.length → (∀ c ∈ cs', c ≠ []) →
        cs'.length ≤ cs.length → (cs' = [] ∨ cs'.length < cs.length) →
        ∃ dev, (match wproceed block len targets s' with
          | .cont s'' => wrun block len targets fuel s''
          | .done r dev => .ret (r, dev)
          | .panic => .panic) = .ret (.error .dataStreamLengthMismatch, dev) := by
      intro cs' s' h1 h2 h3 h4 h6 h7 h8 h9
      have hbl : 0 < s'.buf.length := List.length_pos_iff.2 h2
      cases hd : targets.drop s.idx with
      | nil => rw [hd] at hsum; simp at hsum; omega
      | cons t ts =>
        rw [hd] at hsum hfill
        simp only [amtSum_cons] at hsum
        have hil : s.idx < targets.length := by
          apply Classical.byContradiction
          intro hc
          rw [List.drop_eq_nil_of_le (by omega)] at hd; cases hd
        obtain ⟨f1, f2⟩ := fills_tail (by omega) hfill
        rw [wproceed_cases s' h2 (by omega) (by rw [h3]; exact hd)]
        by_cases hlt : s'.buf.length < t.1
        · simp only [hlt, if_true]
          have : cs' ≠ [] := by
            intro hc; rw [hc, List.flatten_nil, List.length_nil] at h6; omega
          have h10 : cs'.length < cs.length := by tauto
          exact ih cs' s' h1 (by rw [h3]; omega) h7 (by rw [h3, h4, hd]; simpa using hsum) (by omega)
            (by rw [h3, hd, h6]; exact hfill)
        · simp only [hlt, if_false]
          refine ih cs' _ h1 (by simp only; rw [h3]; omega) h7 (by simp only; rw [h3, (drop_idx hd).2]; omega)
            (by simp only [List.length_drop]; omega) ?_
          simp only
          rw [h3, (drop_idx hd).2, List.length_drop,
            show s'.buf.length - t.1 + cs'.flatten.length = s.buf.length + cs.flatten.length - t.1 by omega]
          exact f2
    unfold wrun wstep
    cases cs with
    | nil =>
      simp only [List.map_nil] at hst
      simp only [hst]
      cases hbuf : s.buf with
      | nil =>
        simp only [List.isEmpty_nil, if_true]
        rw [hbuf] at htot
        simp at htot
        rw [if_pos (by omega)]
        exact ⟨_, rfl⟩
      | cons b bs =>
        simp only [List.isEmpty_cons]
        exact hproc [] s hst (by rw [hbuf]; simp) rfl rfl rfl (by simp) (by simp) (.inl rfl)
    | cons c cs =>
      simp only [List.map_cons] at hst
      simp only [hst]
      have hc := hne c (by simp)
      exact hproc cs { s with stream := cs.map .ok, buf := s.buf ++ c } rfl
        (by simp [hc]) rfl rfl (by simp; omega) (fun c hc => hne c (by simp [hc])) (by simp) (.inr (by simp))

/-! ### Device effects -/

/-- device after at most `n` iterations of the loop, however it ends -/
def devAfter (block : List Byte → List Byte) (len : Nat) (targets : List (Nat × Nat)) : Nat → WState → Mem
  | 0, s => s.dev
  | n + 1, s =>
    match wstep block len targets s with
    | .cont s' => devAfter block len targets n s'
    | .done _ dev => dev
    | .panic => s.dev

theorem wrun_devAfter {fuel : Nat} {s : WState} {r : Except OpError Unit} {dev : Mem}
    (h : wrun block len targets fuel s = .ret (r, dev)) : devAfter block len targets fuel s = dev := by
  induction fuel generalizing s with
  | zero => cases h
  | succ fuel ih =>
    unfold wrun at h
    unfold devAfter
    cases hs : wstep block len targets s with
    | cont s' => rw [hs] at h; exact ih h
    | done r' d => rw [hs] at h; simp at h; exact h.2
    | panic => rw [hs] at h; cases h

theorem wproceed_dev {s : WState} {x : Nat}
    (hx : ∀ t ∈ targets, ∀ d : List Byte, d.length = t.1 → x < t.2 ∨ t.2 + (block d).length ≤ x) :
    match wproceed block len targets s with
    | .cont s' => s'.dev x = s.dev x
    | .done _ d => d x = s.dev x
    | .panic => True := by
  unfold wproceed
  split
  · rename_i h
    split at h
    · cases h
    · cases ht : targets[s.idx]? with
      | none => rw [ht] at h; cases h
      | some t =>
        rw [ht] at h
        simp only at h
        split at h
        · injection h with h; rw [← h]
        · injection h with h
          rw [← h]
          apply Mem.write_out
          exact hx t (List.mem_of_getElem? ht) _ (by rw [List.length_take]; omega)
  · rename_i h
    split at h
    · injection h with _ h; rw [← h]
    · cases ht : targets[s.idx]? with
      | none => rw [ht] at h; cases h
      | some t =>
        rw [ht] at h
        simp only at h
        split at h <;> cases h
  · trivial

theorem wstep_dev {s : WState} {x : Nat}
    (hx : ∀ t ∈ targets, ∀ d : List Byte, d.length = t.1 → x < t.2 ∨ t.2 + (block d).length ≤ x) :
    match wstep block len targets s with
    | .cont s' => s'.dev x = s.dev x
    | .done _ d => d x = s.dev x
    | .panic => True := by
  unfold wstep
  match hst : s.stream with
  | .error _ :: _ => simp
  | .ok c :: rest =>
    simp only
    exact wproceed_dev (s := { s with stream := rest, buf := s.buf ++ c }) hx
  | [] =>
    simp only
    by_cases hb : s.buf.isEmpty = true
    · simp only [hb, if_true]
    · simp only [hb]
      exact wproceed_dev hx

theorem devAfter_frame (n : Nat) (s : WState) (x : Nat)
    (hx : ∀ t ∈ targets, ∀ d : List Byte, d.length = t.1 → x < t.2 ∨ t.2 + (block d).length ≤ x) :
    devAfter block len targets n s x = s.dev x := by
  induction n generalizing s with
  | zero => rfl
  | succ n ih =>
    have h := wstep_dev (block := block) (len := len) (targets := targets) (s := s) hx
    unfold devAfter
    cases hs : wstep block len targets s with
    | cont s' => rw [hs] at h; simp only at h ⊢; rw [ih, h]
    | done r d => rw [hs] at h; exact h
    | panic => rfl

end RW
end Blobd
