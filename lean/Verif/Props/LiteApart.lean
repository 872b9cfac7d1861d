import Verif.Proofs.LiteApart
import Verif.Proofs.LiteCreates
import Verif.Proofs.LiteDeletes
import Verif.Props.LiteStore
import Verif.Props.LiteReopen
import Verif.Props.LiteSpace
import Verif.Props.LiteProgress
import Verif.Props.LiteMetrics
import Verif.Props.LiteUpload
import Verif.Props.LiteIo
import Verif.Props.Tokens
set_option autoImplicit false
/-!
# The lite store with calls of one bucket kept apart

C15, C16, C52, C65, C67, C70, C71, C75, C80 and C81 for executions that follow a rule the caller can follow
(Spec/LiteApart `ApartReach`): calls of different buckets overlap in any way, and so do inspects, reads and writes of one bucket, but
while a create, commit or delete runs no other call of its bucket does. Then none of the faults happens (the first theorem), and nothing
is excluded. Calls one at a time are a special case.
-/
namespace Blobd
namespace Props
open Lite

/-- **C15, C16, …** No fault happens when changes of a bucket do not overlap with other calls of that bucket. -/
theorem C15_disciplined_faultless {c : LCfg} (hc : c.Ok) {s : LSt} (h : ApartReach c s) : s.faults = [] := apart_faults hc h

/-- One call at a time is such an execution. -/
theorem C15_sequential_is_disciplined {c : LCfg} {s : LSt} (h : SeqReach c s) : ApartReach c s := h.apart

/-- **C15.** What happened is a run of the abstract store, each answer is the meaning of its one event, which happened during the call,
the history of each key explains itself, and without versioning a lookup finds exactly what was committed last. -/
theorem C15_disciplined {c : LCfg} (hc : c.Ok) {s : LSt} (h : ApartReach c s) :
    (∃ a, absRun c.versioning (s.lin.map (·.2)) = some a) ∧
    (∀ k ∈ s.acks, k.start.at_ ≤ k.stop ∧ k.stop ≤ s.lin.length ∧ Explained s.lin k) ∧
    (∀ k, ∃ a, absRun c.versioning ((s.lin.map (·.2)).filter (fun e => e.key = k)) = some a) ∧
    (c.versioning = false → ∀ pre post k,
      (∀ id size, s.lin.map (·.2) = pre ++ .found k none id size :: post → visMap pre k = some id) ∧
      (s.lin.map (·.2) = pre ++ .missing k none :: post → visMap pre k = none)) :=
  C15_concurrent_partial hc h.reach (apart_faults hc h)

/-- **C16.** Following the pointers of any bucket ends and visits exactly the versions of the abstract store. -/
theorem C16_lists_disciplined {c : LCfg} (hc : c.Ok) {s : LSt} (h : ApartReach c s) {b : Nat} (hb : b < 2 ^ c.bits) :
    ∃ l, Chain s (getHead c s b) l ∧ l.Nodup ∧ (∀ off ∈ l, c.bkt (rdKey s.j.dev off) = b) ∧
      ∀ a, absRun c.versioning (s.lin.map (·.2)) = some a → ∀ k, c.bkt k = b →
        (l.filter (fun off => rdKey s.j.dev off = k)).map (verAt s) = a k :=
  C16_lists_partial hc h.reach (apart_faults hc h) hb

/-- **C16.** A step changes bucket lists only by its event. -/
theorem C16_unlink_disciplined {c : LCfg} (hc : c.Ok) {s s' : LSt} (h : ApartReach c s) (hs : Step c s s') (h' : ApartReach c s') :
    ∃ (i : Nat) (e : Option Ev), s'.lin = s.lin ++ (e.map (fun e => (i, e))).toList ∧ ∀ b, b < 2 ^ c.bits → ∃ l l', Chain s (getHead c s b) l ∧
      Chain s' (getHead c s' b) l' ∧ ListEff c s s' b l l' e ∧ ∀ off ∈ l, off ∈ l' → InodeSame s s' off e :=
  C16_unlink_partial hc h.reach hs (apart_faults hc h')

/-- **C52.** No step changes a byte of a committed object, or of one being deleted or replaced; a byte of an incomplete object changes
only by a write to that object; listed objects share no page. -/
theorem C52_disciplined {c : LCfg} (hc : c.Ok) {s s' : LSt} (h : ApartReach c s) (hs : Step c s s') (h' : ApartReach c s') {off : Nat} :
    (InUse c s off → ∀ y, InPages (dataAt c s.j.dev off) y → s'.j.dev y = s.j.dev y) ∧
    (Listed c s off → ∀ y, InPages (dataAt c s.j.dev off) y → s'.j.dev y ≠ s.j.dev y →
      stateOf s off = stIncomplete ∧ ∃ i st key targets, s.thr i = some ⟨st, .writing key (rdId s.j.dev off) targets⟩ ∧
        ∃ t ∈ targets, t.2 ≤ y ∧ y < t.2 + t.1) ∧
    (Listed c s off → ∀ off', Listed c s off' → off ≠ off' →
      ∀ p ∈ dataAt c s.j.dev off ++ [(off, rdMetaPow2 s.j.dev off)], ∀ p' ∈ dataAt c s.j.dev off' ++ [(off', rdMetaPow2 s.j.dev off')],
        Spec.PageDisj p p') :=
  ⟨fun hu _ hy => C52_visible_unchanged_partial hc h.reach hs (apart_faults hc h') hu hy,
   fun hl _ hy hne => C52_incomplete_isolated_partial hc h.reach hs (apart_faults hc h') hl hy hne,
   fun hl _ hl' hne => C52_no_shared_page_partial hc h.reach (apart_faults hc h) hl hl' hne⟩

/-- **C65.** A crash at any moment: an inspect, after the restart, of a key of a bucket of which every change was answered finds what the
answers say. -/
theorem C65_disciplined_lookup {c : LCfg} (hc : c.Ok) {s : LSt} (h : ApartReach c s) {b : Nat} (hb : b < 2 ^ c.bits)
    (hq : Answered c s b) (a : Buddy) {key : List Byte} (hk : c.bkt key = b) (want : Option Nat) :
    ∃ x s1, absRun c.versioning (s.lin.map (·.2)) = some x ∧ act c (reopened c s a) (.lookup (.look want) key) = some s1 ∧
      (∃ N, ∀ n s2, Looking c s.nextCall n s1 s2 → n ≤ N) ∧
      ∀ n s2, Looking c s.nextCall n s1 s2 →
        (∀ r ∈ s2.acks, r ∈ s.acks ∨ (r.id = s.nextCall ∧ AnswersAs x key want r.resp)) ∧
        ∃ n' s3 r, Looking c s.nextCall n' s2 s3 ∧ s3.acks = s.acks ++ [r] ∧ r.id = s.nextCall ∧ AnswersAs x key want r.resp :=
  C65_quiet_lookup_partial hc h.reach (apart_faults hc h) hb hq a hk want

/-- … and when the only unanswered change of the bucket is a commit that replaced nothing, a crash at any moment leaves the bucket either
with or without that commit, and with everything else. -/
theorem C65_disciplined_commit {c : LCfg} (hc : c.Ok) {s : LSt} (h : ApartReach c s) {b : Nat} (hb : b < 2 ^ c.bits) (hq : OnlyCommits c s b) :
    ∃ x, absRun c.versioning (s.lin.map (·.2)) = some x ∧
      (BucketShows c (Journal.recover c.jc s.j.dev) x b ∨
        ∃ i key id, (i, .committed key id) ∈ s.lin ∧ c.bkt key = b ∧ (∀ a ∈ s.acks, a.id ≠ i) ∧
          BucketShows c (Journal.recover c.jc s.j.dev) (x.without [id]) b) := by
  have hf := apart_faults hc h
  have hd := (apart_inv hc h).1
  obtain ⟨x, D, h1, h2, h3⟩ := commits_bucket hc h.reach hf hb hq
  refine ⟨x, h1, ?_⟩
  match D, h2, h3 with
  | [], _, h3 =>
    left
    have e : x.without [] = x := by
      funext k
      simp [Abs.without]
    rw [e] at h3
    exact h3
  | id :: D, h2, h3 =>
    right
    have bk : ∀ {i : Nat} {t : Thread} {tk : Overlay.Ticket Cell} {id : Nat}, s.thr i = some t → tk ∈ t.pc.tks → tk.key = .state id →
        (∃ base v leak r, LInv c s base v leak ∧ r ∈ v.ch b ∧ r.o.id = id) → c.bkt (callKey t.start.call) = b := by
      rintro i t tk id k1 k2 k3 ⟨base, v, leak, r, hi, hrm, rfl⟩
      obtain ⟨q1, n1, g1, g2⟩ := (hd.tk i t k1 _ k2).made _ (.inl k3)
      obtain ⟨q2, n2, g3, g4⟩ := made_of hc h.reach hf hi hrm
      rw [← g2, ← g4, created_unique hc h.reach hf g1 g3]
    obtain ⟨i, key, g1, g2, g3, ⟨t, tk, g4, g5, g6⟩, g7⟩ := h2 id (by simp)
    have hb1 := bk g4 g5 g6 g7
    refine ⟨i, key, id, g1, g2, g3, ?_⟩
    have all : ∀ id' ∈ id :: D, id' = id := by
      intro id' hid
      obtain ⟨i', key', k1, k2, k3, ⟨t', tk', k4, k5, k6⟩, k7⟩ := h2 id' hid
      have hb2 := bk k4 k5 k6 k7
      have hii : i' = i := by
        apply Classical.byContradiction
        intro hne
        have := hd.one i' i t' t k4 g4 (tks_live (List.ne_nil_of_mem k5)) (tks_live (List.ne_nil_of_mem g5)) hne (hb2.trans hb1.symm)
        rw [(hd.tk i' t' k4 _ k5).chg] at this
        cases this
      subst hii
      have := (reach_single h.reach i' t g4).2 _ _ k1 g1 trivial trivial
      cases this
      rfl
    have e : x.without (id :: D) = x.without [id] := by
      funext k
      unfold Abs.without
      apply List.map_congr_left
      intro v _
      have : v.id ∈ id :: D ↔ v.id ∈ [id] := by
        constructor
        · intro hv; simp [all _ hv]
        · intro hv; simp only [List.mem_singleton] at hv; simp [hv]
      simp only [this]
    rw [e] at h3
    exact h3

/-- Hypotheses met: the journal is writing the commit of an object of bucket 0, and the create of another one in another bucket, to
their places. -/
example : ∃ s, ApartReach qcfg s ∧ qcfg.Ok ∧ OnlyCommits qcfg s 0 ∧ ¬ Answered qcfg s 0 ∧ Applying s ∧
    s.lin.map (·.2) = [.created [2] 6 3, .committed [2] 6, .created [1] 5 3] := by
  have h : (qapart (doCreate 0 [2] 3 6 ++ commitTo 1 [2] 6 1 ++ createTo 2 [1] 3 5 ++ [.timer, .recv, .journalDone])).map (fun s =>
      (match s.j.phase with | .entries _ (_ :: _) => true | _ => false) && (decide (s.lin.map (·.2) = [.created [2] 6 3, .committed [2] 6, .created [1] 5 3]) &&
        (decide (s.lin.map (·.1) = [0, 1, 2]) && (decide (s.acks.map (·.id) = [0]))))) = some true := by decide +kernel
  obtain ⟨s, h1, h2⟩ := Option.map_eq_some_iff.1 h
  simp only [Bool.and_eq_true, decide_eq_true_eq] at h2
  obtain ⟨e1, e2, e3, e4⟩ := h2
  have hlin : s.lin = [(0, .created [2] 6 3), (1, .committed [2] 6), (2, .created [1] 5 3)] := by
    have : s.lin = (s.lin.map (·.1)).zip (s.lin.map (·.2)) := by rw [List.zip_map']; simp
    rw [this, e2, e3]
    rfl
  have hack : ∀ n, (∃ a ∈ s.acks, a.id = n) ↔ n ∈ [0] := by intro n; rw [← e4, List.mem_map]
  refine ⟨s, qapart_reach h1, qcfg_ok, ?_, ?_, ?_, e2⟩
  · intro i e he hb hcase
    rw [hack]
    rw [hlin] at he
    simp only [List.mem_cons, Prod.mk.injEq, List.not_mem_nil, or_false] at he
    rcases he with ⟨rfl, rfl⟩ | ⟨rfl, rfl⟩ | ⟨rfl, rfl⟩
    · simp
    · exfalso
      rcases hcase with ⟨_, _, _, h⟩ | ⟨_, pre, post, k, id, x, q1, q2, q3, q4⟩ | ⟨_, _, _, h⟩
      · cases h
      · rw [hlin] at q1
        match pre, q1, q3 with
        | [], q1, _ => simp at q1
        | [p], q1, q3 =>
          simp only [List.cons_append, List.nil_append, List.cons.injEq, Prod.mk.injEq] at q1
          obtain ⟨rfl, _⟩ := q1
          cases q2
          cases q3
          revert q4; decide
        | [p, p'], q1, _ => simp at q1
        | p :: p' :: p2 :: l, q1, _ => simp at q1
      · cases h
    · exfalso; revert hb; decide +kernel
  · intro hq
    have := (hack 1).1 (hq 1 (.committed [2] 6) (by rw [hlin]; simp) (by decide +kernel) (.inr (.inl ⟨_, _, rfl⟩)))
    revert this; decide
  · split at e1
    · rename_i hp; exact ⟨_, _, hp, by simp⟩
    · cases e1

/-- … and when the only unanswered change of the bucket is a create, a crash at any moment at which the journal is not in the middle of
writing to places leaves the bucket either with or without the new object, and with everything else. (In the middle of writing to places
it need not: `C65_violated_create_half_applied`.) -/
theorem C65_disciplined_create_partial {c : LCfg} (hc : c.Ok) {s : LSt} (h : ApartReach c s) (hna : ¬ Applying s) {b : Nat}
    (hb : b < 2 ^ c.bits) (hq : OnlyCreates c s b) :
    ∃ x, absRun c.versioning (s.lin.map (·.2)) = some x ∧
      (BucketShows c (Journal.recover c.jc s.j.dev) x b ∨
        ∃ i key id n, (i, .created key id n) ∈ s.lin ∧ c.bkt key = b ∧ (∀ a ∈ s.acks, a.id ≠ i) ∧
          BucketShows c (Journal.recover c.jc s.j.dev) (x.omit id) b) :=
  creates_bucket hc h hna hb hq

/-- … and that is what an inspect finds after the restart. -/
theorem C65_disciplined_create_lookup_partial {c : LCfg} (hc : c.Ok) {s : LSt} (h : ApartReach c s) (hna : ¬ Applying s) {b : Nat}
    (hb : b < 2 ^ c.bits) (hq : OnlyCreates c s b) (a : Buddy) :
    ∃ x y, absRun c.versioning (s.lin.map (·.2)) = some x ∧
      (y = x ∨ ∃ i key id n, (i, .created key id n) ∈ s.lin ∧ c.bkt key = b ∧ (∀ a ∈ s.acks, a.id ≠ i) ∧ y = x.omit id) ∧
      ∀ key want, c.bkt key = b → ∃ s1, act c (reopened c s a) (.lookup (.look want) key) = some s1 ∧
        (∃ N, ∀ n s2, Looking c s.nextCall n s1 s2 → n ≤ N) ∧
        ∀ n s2, Looking c s.nextCall n s1 s2 →
          (∀ r ∈ s2.acks, r ∈ s.acks ∨ (r.id = s.nextCall ∧ AnswersAs y key want r.resp)) ∧
          ∃ n' s3 r, Looking c s.nextCall n' s2 s3 ∧ s3.acks = s.acks ++ [r] ∧ r.id = s.nextCall ∧ AnswersAs y key want r.resp := by
  obtain ⟨x, h1, h2⟩ := creates_bucket hc h hna hb hq
  rcases h2 with h2 | ⟨i, key, id, n, g1, g2, g3, h2⟩
  · exact ⟨x, x, h1, .inl rfl, fun _ want hk => look_answers h2 (s := reopened c s a) rfl rfl rfl hk want⟩
  · exact ⟨x, x.omit id, h1, .inr ⟨i, key, id, n, g1, g2, g3, rfl⟩, fun _ want hk => look_answers h2 (s := reopened c s a) rfl rfl rfl hk want⟩

/-- Hypotheses met: the journal has the create of a second object of bucket 0, and of one of another bucket, and has not begun to write
them to their places. -/
example : ∃ s, ApartReach qcfg s ∧ qcfg.Ok ∧ OnlyCreates qcfg s 0 ∧ ¬ Answered qcfg s 0 ∧ ¬ Applying s ∧
    s.lin.map (·.2) = [.created [2] 6 3, .created [3] 7 3, .created [1] 5 3] := by
  have h : (qapart (doCreate 0 [2] 3 6 ++ createTo 1 [3] 3 7 ++ createTo 2 [1] 3 5 ++ [.timer, .recv])).map (fun s =>
      (match s.j.phase with | .entries _ _ => false | _ => true) && (decide (s.lin.map (·.2) = [.created [2] 6 3, .created [3] 7 3, .created [1] 5 3]) &&
        (decide (s.lin.map (·.1) = [0, 1, 2]) && (decide (s.acks.map (·.id) = [0]))))) = some true := by decide +kernel
  obtain ⟨s, h1, h2⟩ := Option.map_eq_some_iff.1 h
  simp only [Bool.and_eq_true, decide_eq_true_eq] at h2
  obtain ⟨e1, e2, e3, e4⟩ := h2
  have hlin : s.lin = [(0, .created [2] 6 3), (1, .created [3] 7 3), (2, .created [1] 5 3)] := by
    have : s.lin = (s.lin.map (·.1)).zip (s.lin.map (·.2)) := by rw [List.zip_map']; simp
    rw [this, e2, e3]
    rfl
  have hack : ∀ n, (∃ a ∈ s.acks, a.id = n) ↔ n ∈ [0] := by intro n; rw [← e4, List.mem_map]
  refine ⟨s, qapart_reach h1, qcfg_ok, ?_, ?_, ?_, e2⟩
  · intro i e he _ hcase
    exfalso
    rw [hlin] at he
    simp only [List.mem_cons, Prod.mk.injEq, List.not_mem_nil, or_false] at he
    rcases he with ⟨rfl, rfl⟩ | ⟨rfl, rfl⟩ | ⟨rfl, rfl⟩ <;> rcases hcase with ⟨_, _, h⟩ | ⟨_, _, _, h⟩ <;> cases h
  · intro hq
    have := (hack 1).1 (hq 1 (.created [3] 7 3) (by rw [hlin]; simp) (by decide +kernel) (.inl ⟨_, _, _, rfl⟩))
    revert this; decide
  · rintro ⟨_, _, hp, _⟩
    rw [hp] at e1
    cases e1

/-- … and when the only unanswered change of the bucket is a delete, a crash at any moment at which the journal is not in the middle of
writing to places leaves the bucket either with or without the deleted object, and with everything else. -/
theorem C65_disciplined_delete_partial {c : LCfg} (hc : c.Ok) {s : LSt} (h : ApartReach c s) (hna : ¬ Applying s) {b : Nat}
    (hb : b < 2 ^ c.bits) (hq : OnlyDeletes c s b) :
    ∃ x, absRun c.versioning (s.lin.map (·.2)) = some x ∧
      (BucketShows c (Journal.recover c.jc s.j.dev) x b ∨
        ∃ i key want id n, (i, .removed key want id) ∈ s.lin ∧ c.bkt key = b ∧ (∀ a ∈ s.acks, a.id ≠ i) ∧ .created key id n ∈ s.lin.map (·.2) ∧
          BucketShows c (Journal.recover c.jc s.j.dev) (x.set key (⟨id, n, true⟩ :: x key)) b) := by
  obtain ⟨x, h1, h2⟩ := deletes_bucket hc h hna hb hq
  rcases h2 with h2 | ⟨i, key, w, id, n, g1, g2, g3, g4, h2⟩
  · exact ⟨x, h1, .inl h2⟩
  · exact ⟨x, h1, .inr ⟨i, key, w, id, n, g1, g2, g3, g4.1, h2⟩⟩

/-- … and that is what an inspect finds after the restart. -/
theorem C65_disciplined_delete_lookup_partial {c : LCfg} (hc : c.Ok) {s : LSt} (h : ApartReach c s) (hna : ¬ Applying s) {b : Nat}
    (hb : b < 2 ^ c.bits) (hq : OnlyDeletes c s b) (a : Buddy) :
    ∃ x y, absRun c.versioning (s.lin.map (·.2)) = some x ∧
      (y = x ∨ ∃ i key want id n, (i, .removed key want id) ∈ s.lin ∧ c.bkt key = b ∧ (∀ a ∈ s.acks, a.id ≠ i) ∧
        .created key id n ∈ s.lin.map (·.2) ∧ y = x.set key (⟨id, n, true⟩ :: x key)) ∧
      ∀ key want, c.bkt key = b → ∃ s1, act c (reopened c s a) (.lookup (.look want) key) = some s1 ∧
        (∃ N, ∀ n s2, Looking c s.nextCall n s1 s2 → n ≤ N) ∧
        ∀ n s2, Looking c s.nextCall n s1 s2 →
          (∀ r ∈ s2.acks, r ∈ s.acks ∨ (r.id = s.nextCall ∧ AnswersAs y key want r.resp)) ∧
          ∃ n' s3 r, Looking c s.nextCall n' s2 s3 ∧ s3.acks = s.acks ++ [r] ∧ r.id = s.nextCall ∧ AnswersAs y key want r.resp := by
  obtain ⟨x, h1, h2⟩ := deletes_bucket hc h hna hb hq
  rcases h2 with h2 | ⟨i, key, w, id, n, g1, g2, g3, g4, h2⟩
  · exact ⟨x, x, h1, .inl rfl, fun _ want hk => look_answers h2 (s := reopened c s a) rfl rfl rfl hk want⟩
  · exact ⟨x, _, h1, .inr ⟨i, key, w, id, n, g1, g2, g3, g4.1, rfl⟩, fun _ want hk => look_answers h2 (s := reopened c s a) rfl rfl rfl hk want⟩

/-- Hypotheses met: the journal has the delete of one of the two objects of bucket 0 and has not begun to write it to its place. -/
example : ∃ s, ApartReach qcfg s ∧ qcfg.Ok ∧ OnlyDeletes qcfg s 0 ∧ ¬ Answered qcfg s 0 ∧ ¬ Applying s ∧
    s.lin.map (·.2) = [.created [2] 6 3, .created [3] 7 3, .committed [3] 7, .removed [3] none 7] := by
  have h : (qapart (doCreate 0 [2] 3 6 ++ doCreate 1 [3] 3 7 ++ doCommit 2 [3] 7 2 ++ [.a (.lookup (.delete none) [3])] ++ visit 3 1 ++ [.timer, .recv])).map (fun s =>
      (match s.j.phase with | .entries _ _ => false | _ => true) &&
        (decide (s.lin.map (·.2) = [.created [2] 6 3, .created [3] 7 3, .committed [3] 7, .removed [3] none 7]) &&
        (decide (s.lin.map (·.1) = [0, 1, 2, 3]) && (decide (s.acks.map (·.id) = [0, 1, 2]))))) = some true := by decide +kernel
  obtain ⟨s, h1, h2⟩ := Option.map_eq_some_iff.1 h
  simp only [Bool.and_eq_true, decide_eq_true_eq] at h2
  obtain ⟨e1, e2, e3, e4⟩ := h2
  have hlin : s.lin = [(0, .created [2] 6 3), (1, .created [3] 7 3), (2, .committed [3] 7), (3, .removed [3] none 7)] := by
    have : s.lin = (s.lin.map (·.1)).zip (s.lin.map (·.2)) := by rw [List.zip_map']; simp
    rw [this, e2, e3]
    rfl
  have hack : ∀ n, (∃ a ∈ s.acks, a.id = n) ↔ n ∈ [0, 1, 2] := by intro n; rw [← e4, List.mem_map]
  refine ⟨s, qapart_reach h1, qcfg_ok, ?_, ?_, ?_, e2⟩
  · intro i e he _ hcase
    rw [hlin] at he
    simp only [List.mem_cons, Prod.mk.injEq, List.not_mem_nil, or_false] at he
    rcases he with ⟨rfl, rfl⟩ | ⟨rfl, rfl⟩ | ⟨rfl, rfl⟩ | ⟨rfl, rfl⟩
    · exact (hack 0).2 (by decide)
    · exact (hack 1).2 (by decide)
    · exact (hack 2).2 (by decide)
    · exfalso; rcases hcase with ⟨_, _, _, h⟩ | ⟨_, _, h⟩ <;> cases h
  · intro hq
    have := (hack 3).1 (hq 3 (.removed [3] none 7) (by rw [hlin]; simp) (by decide +kernel) (.inr (.inr ⟨_, _, _, rfl⟩)))
    revert this; decide
  · rintro ⟨_, _, hp, _⟩
    rw [hp] at e1
    cases e1

/-- **C67.** With no call running, exactly the pages of the listed objects are taken, unless some create found no room (finding: it keeps
the pages it had taken). -/
theorem C67_disciplined_partial {c : LCfg} (hc : c.Ok) {s : LSt} (h : ApartReach c s) (hn : ¬ CreateFailed s) (hq : Idle s) :
    SpaceExact c s :=
  C67_space_exact_partial hc h.reach (apart_faults hc h) hn hq

/-- **C70.** Device writes in flight lie inside their regions and share no byte, unless they are parts of the same upload. -/
theorem C70_lite_disciplined {c : LCfg} (hc : c.Ok) {s : LSt} (h : ApartReach c s) {src src' : Src} {off len off' len' : Nat}
    (h1 : InFlight c s src off len) (h2 : InFlight c s src' off' len') :
    (∀ y, off ≤ y → y < off + len → src.Region c y) ∧
    ((src = src' ∧ off = off' ∧ len = len') ∨ src.SameUpload src' ∨ off + len ≤ off' ∨ off' + len' ≤ off) :=
  ⟨C70_lite_writes_partial hc h.reach (apart_faults hc h) h1, C70_lite_apart_partial hc h.reach (apart_faults hc h) h1 h2⟩

/-- **C71.** In a fair execution every call that its caller does not drop is answered, and every call ends. -/
theorem C71_disciplined {c : LCfg} (hc : c.Ok) {σ : Nat → LSt} (h : FairRun c σ) (hd : ∀ m, ApartReach c (σ m)) {i n : Nat} {pc : PC}
    (hi : at? (σ n) i = some pc) (hl : pc ≠ .dead) :
    (∃ m, n ≤ m ∧ (at? (σ m) i = none ∨ at? (σ m) i = some .dead)) ∧
    ((∀ m, n ≤ m → act c (σ m) (.drop i) ≠ some (σ (m + 1))) → ∃ m, n ≤ m ∧ Answers (σ m) i) :=
  ⟨C71_every_call_ends_partial hc h (fun m => apart_faults hc (hd m)) (by rw [hi]; simp),
   C71_answered_partial hc h (fun m => apart_faults hc (hd m)) hi hl⟩

/-- **C75.** With no call running the counters of objects and bytes are those of the stored objects. -/
theorem C75_lite_disciplined {c : LCfg} (hc : c.Ok) {s : LSt} {m : Lite.Metrics} (h : Lite.MReach c s m) (hs : ApartReach c s) (hi : Idle s) :
    ∃ a l, absRun c.versioning (s.lin.map (·.2)) = some a ∧ a.Listing l ∧ m.objects = l.length ∧
      m.data = (l.map (fun x => (x.2.size : Int))).sum :=
  C75_lite_objects_partial hc h (apart_faults hc hs) hi

/-- **C80.** An object all of whose parts were answered with success is read back exactly as it was sent. -/
theorem C80_disciplined (c : LCfg) (hc : c.Ok) (w : Upload.World) (h : Upload.Runs c w) (hs : ApartReach c w.s) (off : Nat) (hl : Listed c w.s off)
    (ha : ∀ k, k * 2 ^ c.pages.lpage < rdSize w.s.j.dev off → Upload.PartAcked w.s (rdId w.s.j.dev off) (k * 2 ^ c.pages.lpage))
    (D : List Byte) (hD : D.length = rdSize w.s.j.dev off)
    (hsent : ∀ part body, (rdId w.s.j.dev off, part, body) ∈ w.sent → ∀ k b, (Upload.received body)[k]? = some b → part + k < D.length →
      D[part + k]? = some b)
    (start stop : Nat) (stop? : Option Nat) (hst : stop = stop?.getD D.length) (h1 : start < stop) (h2 : stop ≤ D.length)
    (fuel : Nat) (hfu : stop - start < fuel) :
    ∃ chunks, RW.opReadLite c.pages (rwObj c.pages w.s.j.dev off) w.s.j.dev start stop? fuel = .ret (.ok chunks) ∧
      chunks.flatten = (D.drop start).take (stop - start) :=
  C80_read_partial c hc w h (apart_faults hc hs) off hl ha D hD hsent start stop stop? hst h1 h2 fuel hfu

/-- **C81.** An upload whose creation was answered is refused only once it was committed, and is committed at most once. -/
theorem C81_lite_disciplined {c : LCfg} (hc : c.Ok) {s : LSt} (h : ApartReach c s) :
    (∀ a ∈ s.acks, ∀ b ∈ s.acks, ∀ key size id req, a.start.call = .create key size → a.resp = .created id → b.start.call = .lookup req key →
      (req = .commit id ∨ ∃ off len, req = .write id off len) → b.resp = .notFound → a.stop ≤ b.start.at_ →
        ∃ i, (i, Ev.committed key id) ∈ s.lin.take b.stop) ∧
    ∀ a ∈ s.acks, ∀ b ∈ s.acks, ∀ id k k', a.start.call = .lookup (.commit id) k → a.resp = .committed → b.start.call = .lookup (.commit id) k' →
      b.resp = .committed → a.id = b.id :=
  ⟨fun _ ha _ hb _ _ _ _ h1 h2 h3 h4 h5 h6 => C81_lite_valid_partial hc h.reach (apart_faults hc h) ha hb h1 h2 h3 h4 h5 h6,
   fun a ha b hb _ k k' => (C81_lite_once_partial hc h.reach (apart_faults hc h)).1 a ha b hb k k'⟩

/-- two creates, two commits, then an inspect and a delete overlap, in buckets 102 and 0; and a write and an inspect in bucket 102 -/
def apartMixed : List Cmd :=
  createTo 0 [1] 3 5 ++ createTo 1 [2] 3 6 ++ flush 4 ++ finish 0 2 ++ finish 1 2 ++
  [.a (.lookup (.write 5 0 3) [1]), .a (.lookup (.look none) [1])] ++ visit 2 1 ++ visit 3 1 ++
  [.a (.atEnd 3 false), .a (.data 2 0 0 [9, 9, 9]), .a (.writeEnd 2 (.ok ()))] ++
  [.a (.lookup (.commit 5) [1]), .a (.lookup (.commit 6) [2])] ++ visit 4 1 ++ visit 5 1 ++ [.a (.atEnd 5 false), .a (.atEnd 4 false)] ++
  flush 2 ++ finish 4 1 ++ finish 5 1 ++
  [.a (.lookup (.look none) [1]), .a (.lookup (.delete none) [2])] ++ visit 7 1 ++ visit 6 1 ++ flush 1 ++ finish 7 1

/-- Hypotheses met, with calls overlapping: the moment when two creates wait for the journal … -/
example : ∃ s, ApartReach qcfg s ∧ qcfg.Ok ∧ (s.thr 0).isSome ∧ (s.thr 1).isSome ∧ ¬ SeqReach qcfg s := by
  have h : (qapart (apartMixed.take 6)).map (fun s => decide (s.nextCall = 2) && ((match s.thr 0 with | some ⟨_, .wait ..⟩ => true | _ => false) &&
      (match s.thr 1 with | some ⟨_, .wait ..⟩ => true | _ => false))) = some true := by decide +kernel
  obtain ⟨s, h1, h2⟩ := Option.map_eq_some_iff.1 h
  simp only [Bool.and_eq_true, decide_eq_true_eq] at h2
  obtain ⟨_, e1, e2⟩ := h2
  refine ⟨s, qapart_reach h1, qcfg_ok, ?_, ?_, ?_⟩
  · cases h : s.thr 0 with
    | none => rw [h] at e1; cases e1
    | some t => rfl
  · cases h : s.thr 1 with
    | none => rw [h] at e2; cases e2
    | some t => rfl
  · intro hs
    have one := (seq_faults qcfg_ok hs).1.one 0 1
    split at e1
    · rename_i t0
      split at e2
      · rename_i t1
        exact absurd (one _ _ t0 t1 (by simp) (by simp)) (by decide)
      · cases e2
    · cases e1

/-- … and the whole: everything is answered, in the order of the events, and the object of key 1 is left. -/
example : ∃ s, ApartReach qcfg s ∧ qcfg.Ok ∧ Idle s ∧
    s.lin.map (·.2) = [.created [1] 5 3, .created [2] 6 3, .opened [1] 5 3, .missing [1] none, .committed [2] 6, .committed [1] 5,
      .removed [2] none 6, .found [1] none 5 3] ∧
    s.acks.map (fun a => (a.id, a.resp)) = [(0, .created 5), (1, .created 6), (3, .notFound), (2, .written (.ok ())), (4, .committed), (5, .committed),
      (6, .found 5 3 33620224), (7, .deleted)] := by
  have h : (qapart apartMixed).map (fun s => idleB s && (decide (s.lin.map (·.2) = [.created [1] 5 3, .created [2] 6 3, .opened [1] 5 3, .missing [1] none,
      .committed [2] 6, .committed [1] 5, .removed [2] none 6, .found [1] none 5 3]) &&
      decide (s.acks.map (fun a => (a.id, a.resp)) = [(0, .created 5), (1, .created 6), (3, .notFound), (2, .written (.ok ())), (4, .committed), (5, .committed),
      (6, .found 5 3 33620224), (7, .deleted)]))) = some true := by decide +kernel
  obtain ⟨s, h1, h2⟩ := Option.map_eq_some_iff.1 h
  simp only [Bool.and_eq_true, decide_eq_true_eq] at h2
  obtain ⟨e1, e2, e3⟩ := h2
  have hr := qapart_reach h1
  exact ⟨s, hr, qcfg_ok, idleB_ok e1 (fun i t ht => ((reach_ai hr.reach).thr i t ht).1), e2, e3⟩

theorem execApart_exec {c : LCfg} {s s' : LSt} {x : Cmd} (h : execApart c s x = some s') : exec c s x = some s' := by
  cases x with
  | a y =>
    cases y <;> simp only [execApart] at h <;> first
      | exact h
      | (split at h
         · exact h
         · cases h)
      | cases h
  | _ => exact h

theorem runApart_run {c : LCfg} : ∀ {xs : List Cmd} {s s' : LSt}, runApart c s xs = some s' → Lite.run c s xs = some s'
  | [], _, _, h => h
  | x :: xs, s, s', h => by
    simp only [runApart, List.foldlM_cons, Option.bind_eq_bind, Option.bind_eq_some_iff] at h
    obtain ⟨s1, h1, h2⟩ := h
    simp only [Lite.run, List.foldlM_cons, Option.bind_eq_bind, Option.bind_eq_some_iff]
    exact ⟨s1, execApart_exec h1, runApart_run h2⟩

theorem runApart_take {c : LCfg} : ∀ {xs : List Cmd} {s s' : LSt} (m : Nat), runApart c s xs = some s' → ∃ s1, runApart c s (xs.take m) = some s1
  | [], s, _, m, _ => ⟨s, by simp [runApart]⟩
  | x :: xs, s, s', 0, _ => ⟨s, rfl⟩
  | x :: xs, s, s', m + 1, h => by
    simp only [runApart, List.foldlM_cons, Option.bind_eq_bind, Option.bind_eq_some_iff] at h
    obtain ⟨s1, h1, h2⟩ := h
    obtain ⟨s2, h3⟩ := runApart_take m h2
    refine ⟨s2, ?_⟩
    simp only [List.take_succ_cons, runApart, List.foldlM_cons, Option.bind_eq_bind, Option.bind_eq_some_iff]
    exact ⟨s1, h1, h3⟩

/-- Hypotheses of `C71_disciplined` met: a fair execution of `apartMixed`, in which two creates of different buckets wait for the journal
at the same time, and are answered. -/
example : ∃ σ, FairRun qcfg σ ∧ qcfg.Ok ∧ (∀ m, ApartReach qcfg (σ m)) ∧ (∃ t f ts r, at? (σ 6) 0 = some (.wait t f ts r)) ∧
    (∃ t f ts r, at? (σ 6) 1 = some (.wait t f ts r)) ∧ Answers (σ 100) 0 ∧ Answers (σ 100) 1 := by
  obtain ⟨s0, h0⟩ : ∃ s0, r0 0 = some s0 := Option.isSome_iff_exists.1 (by decide +kernel)
  have hall : (qapart apartMixed).map (fun s => decide ((List.range s.nextCall).all (fun i => (s.thr i).isNone) ∧ s.j.pending.txns = [] ∧
      s.j.queue.length = 0 ∧ isIdle s.j.phase = true ∧ 0 ∈ s.acks.map (·.id) ∧ 1 ∈ s.acks.map (·.id))) = some true := by decide +kernel
  have hmid : (qapart (apartMixed.take 6)).map (fun s => (match s.thr 0, s.thr 1 with
      | some ⟨_, .wait _ _ _ _⟩, some ⟨_, .wait _ _ _ _⟩ => true
      | _, _ => false)) = some true := by decide +kernel
  have e : ∀ l, qapart l = runApart qcfg s0 l := fun l => by simp [qapart, h0]
  rw [e] at hall hmid
  obtain ⟨s1, h1, hend⟩ := Option.map_eq_some_iff.1 hall
  obtain ⟨s2, h2, hm⟩ := Option.map_eq_some_iff.1 hmid
  simp only [decide_eq_true_eq] at hend
  obtain ⟨g2, g3, g4, g5, g6, g7⟩ := hend
  have ha0 : ApartReach qcfg s0 := qapart_reach (xs := []) (by rw [e]; rfl)
  obtain ⟨σ, r1, r2⟩ := lite_run_of_cmds ha0.reach (runApart_run h1)
  have hlen : apartMixed.length ≤ 100 := by decide
  have hN : ∀ m, 100 ≤ m → σ m = s1 := by
    intro m hm
    have := r2 m
    rw [List.take_of_length_le (by omega), runApart_run h1] at this
    exact (Option.some.inj this).symm
  have hA : ∀ m, ApartReach qcfg (σ m) := by
    intro m
    obtain ⟨t, ht⟩ := runApart_take m h1
    have := r2 m
    rw [runApart_run ht] at this
    rw [← Option.some.inj this]
    exact runApart_reach ha0 ht
  have e6 : σ 6 = s2 := by
    have := r2 6
    rw [runApart_run h2] at this
    exact (Option.some.inj this).symm
  have hb := reach_bound (runApart_reach ha0 h1).reach
  refine ⟨σ, lite_fair_at_end r1 hN ?_ g3 (List.eq_nil_of_length_eq_zero g4) (isIdle_ok g5), qcfg_ok, hA, ?_⟩
  · intro i
    unfold at?
    cases ht : s1.thr i with
    | none => rfl
    | some t =>
      have := List.all_eq_true.1 g2 i (List.mem_range.2 (hb i t ht))
      rw [ht] at this
      cases this
  · rw [e6, hN 100 (Nat.le_refl _)]
    split at hm
    · rename_i t0 t1
      obtain ⟨a, a1, a2⟩ := List.mem_map.1 g6
      obtain ⟨b, b1, b2⟩ := List.mem_map.1 g7
      exact ⟨⟨_, _, _, _, at_some.2 ⟨_, t0⟩⟩, ⟨_, _, _, _, at_some.2 ⟨_, t1⟩⟩, ⟨a, a1, a2⟩, ⟨b, b1, b2⟩⟩
    · cases hm

end Props
end Blobd
