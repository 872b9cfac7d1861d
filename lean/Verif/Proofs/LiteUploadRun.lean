import Verif.Proofs.LiteUpload
import Verif.Proofs.LiteRun
set_option autoImplicit false
/-! # Lite store with bodies: running particular executions -/
namespace Blobd
namespace Lite
namespace Upload

inductive UCmd
  | c (x : Cmd)
  | start (i : Nat) (body : List (Except Unit (List Byte)))
  | chunk (i : Nat)
  | begin_ (i : Nat)
  | written (i : Nat)
  | ack (i : Nat)

def isOther : Act → Bool
  | .data .. => false
  | .writeEnd .. => false
  | .cancel .. => false
  | .drop .. => false
  | _ => true

def notWriting (s : LSt) (i : Nat) : Bool :=
  match s.thr i with
  | some ⟨_, .writing ..⟩ => false
  | _ => true

def byOk (s : LSt) (a : Act) : Bool :=
  match a.by with
  | some i => notWriting s i
  | none => true

/-- calls one at a time -/
def uexec (c : LCfg) (w : World) : UCmd → Option World
  | .c x => (execSeq c w.s x).bind (fun s' =>
      match x with
      | .a a => if isOther a && byOk s' a then some { w with s := s' } else none
      | _ => some { w with s := s' })
  | .start i body => (execSeq c w.s (.a (.inode i false))).bind (fun s' =>
      match s'.thr i with
      | some ⟨⟨.lookup (.write id off len) key, _⟩, .writing key' id' _⟩ =>
        if key' = key ∧ id' = id then some ⟨s', upd w.puts i (some ⟨id, off, len, body, body, [], 0, 0, none⟩), (id, off, body) :: w.sent⟩ else none
      | _ => none)
  | .chunk i =>
    match w.puts i with
    | some ⟨id, off, len, body, .ok c' :: rest, buf, wr, idx, none⟩ =>
      some { w with puts := upd w.puts i (some ⟨id, off, len, body, rest, buf ++ c', wr, idx, none⟩) }
    | _ => none
  | .begin_ i =>
    match w.puts i, w.s.thr i with
    | some ⟨id, off, len, body, stream, buf, wr, idx, none⟩, some ⟨_, .writing _ _ targets⟩ =>
      match targets[idx]? with
      | some (amt, _) => if amt ≤ buf.length then
          some { w with puts := upd w.puts i (some ⟨id, off, len, body, stream, buf, wr, idx, some (buf.take amt)⟩) } else none
      | none => none
    | _, _ => none
  | .written i =>
    match w.puts i with
    | some ⟨id, off, len, body, stream, buf, wr, idx, some d⟩ =>
      (execSeq c w.s (.a (.data i idx 0 d))).map (fun s' => { w with
        s := s'
        puts := upd w.puts i (some ⟨id, off, len, body, stream, buf.drop d.length, wr + d.length, idx + 1, none⟩) })
    | _ => none
  | .ack i =>
    match w.puts i with
    | some ⟨_, _, len, _, [], [], wr, _, none⟩ =>
      if wr = len then (execSeq c w.s (.a (.writeEnd i (.ok ())))).map (fun s' => { w with s := s', puts := upd w.puts i none }) else none
    | _ => none

def urun (c : LCfg) (w : World) (xs : List UCmd) : Option World := xs.foldlM (uexec c) w

theorem seq_one {c : LCfg} (hc : c.Ok) {s s' : LSt} {x : Cmd} (hs : SeqReach c s) (h : execSeq c s x = some s') : SeqReach c s' :=
  runSeq_reach hc hs (xs := [x]) (by simp [runSeq, h])

theorem execSeq_exec {c : LCfg} {s s' : LSt} {x : Cmd} (h : execSeq c s x = some s') : exec c s x = some s' := by
  unfold execSeq at h
  split at h
  · split at h
    · exact h
    · cases h
  · split at h
    · exact h
    · cases h
  · cases h
  · exact h

theorem isOther_ok {a : Act} (h : isOther a = true) : Act.other a := by cases a <;> first | trivial | cases h

theorem uexec_ok {c : LCfg} (hc : c.Ok) {w w' : World} {x : UCmd} (hr : Runs c w) (hs : SeqReach c w.s) (h : uexec c w x = some w') :
    Runs c w' ∧ SeqReach c w'.s := by
  cases x with
  | c x =>
    simp only [uexec, Option.bind_eq_some_iff] at h
    obtain ⟨s', h1, h2⟩ := h
    have hs' := seq_one hc hs h1
    have h3 := execSeq_exec h1
    cases x with
    | a a =>
      simp only at h2
      split at h2
      · rename_i hk
        cases h2
        simp only [Bool.and_eq_true] at hk
        have ha : act c w.s a = some s' := h3
        refine ⟨.step hr (.other (isOther_ok hk.1) ha ?_), hs'⟩
        intro i st key id targets ht
        have nw : ∀ i, a.by = some i → notWriting s' i = true := by
          intro i e
          have := hk.2
          unfold byOk at this
          rw [e] at this
          exact this
        have hno : a.by ≠ some i := by
          intro e
          have := nw i e
          unfold notWriting at this
          rw [ht] at this
          cases this
        cases act_eff ha with
        | silent e1 e2 e3 => rw [← e1]; exact ht
        | large b e1 e2 _ e3 => rw [← e1]; exact ht
        | start t0 e1 e2 e3 e4 e5 =>
          rw [e1] at ht
          simp only [upd] at ht
          split at ht
          · cases ht; exact absurd rfl (e5 _ _ _)
          · exact ht
        | move k t0 pc' e1 e2 e3 e4 e5 e6 e7 e8 =>
          rw [e3] at ht
          simp only [upd] at ht
          split at ht
          · rename_i e; subst e; exact absurd e1 hno
          · exact ht
        | answer k t0 b e1 e2 e3 e4 e5 e6 e7 =>
          rw [e3] at ht
          simp only [upd] at ht
          split at ht
          · cases ht
          · exact ht
      · cases h2
    | _ =>
      simp only [Option.some.injEq] at h2
      subst h2
      refine ⟨.step hr ?_, hs'⟩
      rcases exec_step h3 with ⟨a, e, _⟩ | ⟨j', g1, g2, g3⟩
      · cases e
      · have := WStep.journal (c := c) (w := w) g1 g2
        rw [← g3] at this
        exact this
  | start i body =>
    simp only [uexec, Option.bind_eq_some_iff] at h
    obtain ⟨s', h1, h2⟩ := h
    have hs' := seq_one hc hs h1
    have h3 : act c w.s (.inode i false) = some s' := execSeq_exec h1
    split at h2
    · rename_i id off len key at_ key' id' ts ht
      split at h2
      · rename_i e
        obtain ⟨rfl, rfl⟩ := e
        cases h2
        exact ⟨.step hr (.start body h3 ht rfl), hs'⟩
      · cases h2
    · cases h2
  | chunk i =>
    simp only [uexec] at h
    split at h
    · rename_i hp
      cases h
      exact ⟨.step hr (.chunk hp rfl rfl), hs⟩
    · cases h
  | begin_ i =>
    simp only [uexec] at h
    split at h
    · rename_i hp ht
      split at h
      · rename_i hn
        split at h
        · rename_i hle
          cases h
          exact ⟨.step hr (.begin_ hp rfl ht hn hle), hs⟩
        · cases h
      · cases h
    · cases h
  | written i =>
    simp only [uexec] at h
    split at h
    · rename_i hp
      obtain ⟨s', h1, rfl⟩ := Option.map_eq_some_iff.1 h
      exact ⟨.step hr (.written hp rfl (execSeq_exec h1)), seq_one hc hs h1⟩
    · cases h
  | ack i =>
    simp only [uexec] at h
    split at h
    · rename_i hp
      split at h
      · rename_i hl
        obtain ⟨s', h1, rfl⟩ := Option.map_eq_some_iff.1 h
        exact ⟨.step hr (.ack hp rfl rfl rfl hl (execSeq_exec h1)), seq_one hc hs h1⟩
      · cases h
    · cases h

theorem urun_ok {c : LCfg} (hc : c.Ok) {w w' : World} {xs : List UCmd} (hr : Runs c w) (hs : SeqReach c w.s) (h : urun c w xs = some w') :
    Runs c w' ∧ SeqReach c w'.s := by
  induction xs generalizing w with
  | nil => cases h; exact ⟨hr, hs⟩
  | cons x xs ih =>
    unfold urun at h
    rw [List.foldlM_cons] at h
    simp only [Option.bind_eq_bind, Option.bind_eq_some_iff] at h
    obtain ⟨w1, h1, h2⟩ := h
    obtain ⟨r1, r2⟩ := uexec_ok hc hr hs h1
    exact ih r1 r2 h2

def wup (xs : List UCmd) : Option World := w0.bind (fun s => urun wcfg ⟨s, fun _ => none, []⟩ xs)

theorem wup_ok {xs : List UCmd} {w : World} (h : wup xs = some w) : Runs wcfg w ∧ SeqReach wcfg w.s := by
  obtain ⟨s0, h1, h2⟩ := Option.bind_eq_some_iff.1 h
  exact urun_ok wcfg_ok (.fresh (w0_fresh.trans h1)) (.fresh (w0_fresh.trans h1)) h2

end Upload
end Lite
end Blobd
