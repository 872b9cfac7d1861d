import Verif.Proofs.BenchmarkEnds
set_option autoImplicit false
/-! # Benchmark runner: what it does not notice -/
namespace Blobd
namespace Bench
open Stress (Bytes Call Ans about Ideal)
variable {c : Cfg} {s s' : St} {st st' : Ideal}

theorem void_passes {j : Job} {call : Call} (h : j.call c = some call) : ∃ j', j.next c (voidAns call) = some j' := by
  cases j with
  | write i tok off => simp only [Job.call] at h; split at h <;> cases h; exact ⟨_, rfl⟩
  | read i off => simp only [Job.call] at h; split at h <;> cases h; exact ⟨_, rfl⟩
  | over => cases h
  | _ => cases h; exact ⟨_, rfl⟩

def Void (s : St) : Prop := (∀ e ∈ s.log, e.2 = voidAns e.1) ∧ ∀ d ∈ s.past, ∀ e ∈ d.log, e.2 = voidAns e.1

theorem void_reported (hp : c.pool.length = c.size) (ho : c.objects ≤ 2 ^ 64) (hk : c.chunk ≠ 0) (hr : c.readSize ≠ 0) :
    ∀ (n : Nat) (s : St), cost c s ≤ n → Reach c s → s.panicked = false → (s.phases = [] → s.running = []) → Void s →
      ∃ s', Reach c s' ∧ Reported s' ∧ Void s' := by
  intro n
  induction n with
  | zero =>
    intro s hn h ha hi hv
    cases hph : s.phases with
    | nil => exact ⟨s, h, ⟨hph, ha⟩, hv⟩
    | cons p ps => unfold cost at hn; rw [hph] at hn; simp only [List.length_cons] at hn; omega
  | succ n ih =>
    intro s hn h ha hi hv
    cases hph : s.phases with
    | nil => exact ⟨s, h, ⟨hph, ha⟩, hv⟩
    | cons p ps =>
      have hinv := reach_inv hp ho h
      have go : ∀ {lb : Lbl} {s' : St}, Step c s lb s' → s'.panicked = false → (s'.phases = [] → s'.running = []) → Void s' →
          ∃ s', Reach c s' ∧ Reported s' ∧ Void s' := by
        intro lb s' hs hp' hi' hv'
        have := cost_step hinv hs hp'
        exact ih s' (by omega) (.step h hs) hp' hi' hv'
      cases hrun : s.running with
      | cons j b =>
        rcases call_or_finished (c := c) hk hr j with ⟨call, hcall⟩ | hf
        · obtain ⟨j', hj'⟩ := void_passes hcall
          refine go (.answer (a := []) ha hrun hcall hj') ha (fun e => absurd (e.symm.trans hph) (by simp)) ⟨?_, hv.2⟩
          intro e he
          rcases List.mem_append.1 he with he | he
          · exact hv.1 e he
          · cases List.mem_singleton.1 he; rfl
        · exact go (.finish (a := []) ha hph hrun hf) ha (fun e => absurd (e.symm.trans hph) (by simp)) hv
      | nil =>
        cases htodo : s.todo with
        | cons x r =>
          have hoff : RandomOk c 0 := by unfold RandomOk; split <;> omega
          exact go (.start 0 ha hph htodo (by rw [hrun]; simp only [List.length_nil]; omega) hoff) ha
            (fun e => absurd (e.symm.trans hph) (by simp)) hv
        | nil =>
          have hv' : Void { s with past := s.past ++ [⟨p, s.latencies, s.log⟩], log := [] } := by
            refine ⟨by simp, ?_⟩
            intro d hd
            rcases List.mem_append.1 hd with hd | hd
            · exact hv.2 d hd
            · cases List.mem_singleton.1 hd; exact hv.1
          cases ps with
          | nil => exact go (.results ha hph htodo hrun) ha (fun _ => hrun) hv'
          | cons p' ps => exact go (.phase ha hph htodo hrun (.refl _)) ha (fun e => by cases e) hv'

/-! ### Objects of an earlier run -/

/-- reads are answered with `d` -/
def FullRead (k d : Bytes) (e : Call × Ans) : Prop :=
  ∀ v a b ch, e = (.read k v a b, .read ch) → ch.flatten = (d.drop a).take (b - a)

structure Kept (c : Cfg) (k d : Bytes) (id : Option Nat) (x : St × Ideal) : Prop where
  inv : Inv c x.1
  idle : x.1.phases = [] → x.1.running = []
  objs : (∃ p ps, x.1.phases = p :: ps ∧ p ≠ .delete) → x.2.objs k = some (id, d)
  log : ∀ e ∈ x.1.log, FullRead k d e
  past : ∀ q ∈ x.1.past, ∀ e ∈ q.log, FullRead k d e

theorem phase_order (hsk : c.skipCreation = true) {a ps : List Phase} {p p' : Phase} (h : a ++ p :: p' :: ps = phases c) : p ≠ .delete := by
  rcases next_phase h with h | h | h | h | h | h <;> rw [h.1] <;> simp

theorem phase_skip (hsk : c.skipCreation = true) {p : Phase} (h : p ∈ phases c) : p = .inspect ∨ p = .randomRead ∨ p = .read ∨ p = .delete := by
  unfold phases at h
  rw [hsk] at h
  cases hd : c.skipDeletion <;> rw [hd] at h <;> revert h <;> cases p <;> decide

theorem skip_call {p : Phase} (hp : p = .inspect ∨ p = .randomRead ∨ p = .read ∨ p = .delete) {x : Nat × Nat} {off : Nat} {l : List (Call × Ans)} {j : Job}
    (hs : Shape c p x off l j) {call : Call} (h : j.call c = some call) :
    (p ≠ .delete ∧ ((∃ k, call = .inspect k none) ∨ ∃ k a b, call = .read k none a b)) ∨ (p = .delete ∧ ∃ k, call = .delete k none) := by
  rcases hp with rfl | rfl | rfl | rfl
  · rcases hs with ⟨rfl, _⟩ | ⟨_, _, rfl, _⟩ <;> cases h
    exact .inl ⟨by simp, .inl ⟨_, rfl⟩⟩
  · rcases hs with ⟨rfl, _⟩ | ⟨_, rfl, _⟩ <;> cases h
    exact .inl ⟨by simp, .inr ⟨_, _, _, rfl⟩⟩
  · obtain ⟨o, rfl, _⟩ := hs
    simp only [Job.call] at h
    split at h <;> cases h
    exact .inl ⟨by simp, .inr ⟨_, _, _, rfl⟩⟩
  · rcases hs with ⟨rfl, _⟩ | ⟨rfl, _⟩ <;> cases h
    exact .inr ⟨rfl, _, rfl⟩

/-- what an answered call does -/
theorem kept_call (hsk : c.skipCreation = true) {k d : Bytes} {id : Option Nat} (h : Kept c k d id (s, st)) (h1 : s.panicked = false) {j : Job}
    (hj : j ∈ s.running) {call : Call} {ans : Ans} (hc : j.call c = some call) (ha : Answers st call ans st') :
    ((∃ p ps, s.phases = p :: ps ∧ p ≠ .delete) → st'.objs k = some (id, d)) ∧ FullRead k d (call, ans) := by
  cases hph : s.phases with
  | nil => exact absurd (h.idle hph) (by rintro (e : s.running = []); rw [e] at hj; cases hj)
  | cons p ps =>
    obtain ⟨fin, hcur, _⟩ := h.inv.cur h1 p ps hph
    obtain ⟨x, off, l, _, hsh, _⟩ := cur_shape hcur hj
    have hm : p ∈ phases c := by
      have := h.inv.split
      rw [← this]
      simp only [hph]
      simp
    rcases skip_call (phase_skip hsk hm) hsh hc with ⟨hne, ⟨k', rfl⟩ | ⟨k', a, b, rfl⟩⟩ | ⟨rfl, k', rfl⟩
    · cases ha
      exact ⟨fun _ => h.objs ⟨p, ps, hph, hne⟩, fun v a b ch e => by cases e⟩
    · have ho := h.objs ⟨p, ps, hph, hne⟩
      cases ha with
      | read g1 g2 g3 g4 =>
        refine ⟨fun _ => ho, ?_⟩
        intro v a b ch e
        cases e
        have e := g1.symm.trans ho
        cases e
        exact g4
    · refine ⟨?_, fun v a b ch e => by cases e⟩
      rintro ⟨p, ps, e, hne⟩
      cases e
      exact absurd rfl hne

theorem kept_step (hp : c.pool.length = c.size) (ho : c.objects ≤ 2 ^ 64) (hsk : c.skipCreation = true) {k d : Bytes} {id : Option Nat}
    {x y : St × Ideal} (h : Kept c k d id x) (hs : GStep c x y) : Kept c k d id y := by
  cases hs with
  | @quiet s s' st hs hpan =>
    have hinv' := inv_step hp ho h.inv hs
    generalize hlb : Lbl.quiet = lb at hs
    cases hs with
    | start _ h1 h2 => exact ⟨hinv', fun e => absurd (h2.symm.trans e) (by simp), h.objs, h.log, h.past⟩
    | answer => cases hlb
    | wrong => cases hpan
    | finish h1 h2 => exact ⟨hinv', fun e => absurd (h2.symm.trans e) (by simp), h.objs, h.log, h.past⟩
    | @phase p p' ps l h1 h2 h3 h4 h5 =>
      have hsp := h.inv.split
      simp only [h2] at hsp
      refine ⟨hinv', fun e => (by cases e), fun _ => h.objs ⟨p, _, h2, phase_order hsk hsp⟩, by simp, ?_⟩
      intro q hq
      rcases List.mem_append.1 hq with hq | hq
      · exact h.past q hq
      · cases List.mem_singleton.1 hq; exact h.log
    | @results p h1 h2 h3 h4 =>
      refine ⟨hinv', fun _ => h4, ?_, by simp, ?_⟩
      · rintro ⟨_, _, e, _⟩; cases e
      · intro q hq
        rcases List.mem_append.1 hq with hq | hq
        · exact h.past q hq
        · cases List.mem_singleton.1 hq; exact h.log
    | crash => cases hpan
  | @call s s' st st' call ans hs ha =>
    have hinv' := inv_step hp ho h.inv hs
    generalize hlb : Lbl.answered call ans = lb at hs
    cases hs with
    | @answer a b j j' call' ans' h1 h2 h3 h4 =>
      cases hlb
      obtain ⟨q1, q2⟩ := kept_call hsk h h1 (by rw [h2]; simp) h3 ha
      refine ⟨hinv', fun e => absurd (h.idle e) (by rw [h2]; simp), q1, ?_, h.past⟩
      intro e he
      rcases List.mem_append.1 he with he | he
      · exact h.log e he
      · cases List.mem_singleton.1 he; exact q2
    | @wrong a b j call' ans' h1 h2 h3 h4 =>
      cases hlb
      obtain ⟨q1, q2⟩ := kept_call hsk h h1 (by rw [h2]; simp) h3 ha
      refine ⟨hinv', h.idle, q1, ?_, h.past⟩
      intro e he
      rcases List.mem_append.1 he with he | he
      · exact h.log e he
      · cases List.mem_singleton.1 he; exact q2
    | _ => cases hlb

theorem kept_reach (hp : c.pool.length = c.size) (ho : c.objects ≤ 2 ^ 64) (hsk : c.skipCreation = true) {k d : Bytes} {id : Option Nat} {i0 : Ideal}
    (hi : i0.objs k = some (id, d)) {x : St × Ideal} (h : GReach c i0 x) : Kept c k d id x := by
  induction h with
  | @start s h =>
    have hinv := inv_start h
    cases h with
    | @mk p ps l h1 h2 =>
      exact ⟨hinv, fun e => (by cases e), fun _ => hi, by simp, by simp⟩
  | step _ hs ih => exact kept_step hp ho hsk ih hs

theorem reads_same {k d p : Bytes} {len off : Nat} {l : List (Call × Ans)} (h : Reads k len p off l) (hl : d.length = p.length)
    (hf : ∀ e ∈ l, FullRead k d e) : d.drop off = p.drop off := by
  induction h with
  | @done off h => rw [List.drop_of_length_le (by omega), List.drop_of_length_le (by omega)]
  | @more off chunks l h1 h2 h3 ih =>
    have e := hf _ (by simp) none off (min p.length (off + len)) chunks rfl
    have ih := ih (fun e he => hf e (by simp [he]))
    rw [List.prefix_iff_eq_take] at h2
    have hlen : chunks.flatten.length = min p.length (off + len) - off := by
      rw [e, List.length_take, List.length_drop]; omega
    rw [e, ← e, hlen] at h2
    have h4 : (d.drop off).take (min p.length (off + len) - off) = (p.drop off).take (min p.length (off + len) - off) := e.symm.trans h2
    rw [← List.take_append_drop (min p.length (off + len) - off) (d.drop off), h4]
    conv_rhs => rw [← List.take_append_drop (min p.length (off + len) - off) (p.drop off)]
    congr 1
    rw [List.drop_drop, List.drop_drop]
    by_cases hc : off + len ≤ p.length
    · have : off + (min p.length (off + len) - off) = off + len := by omega
      rw [this]; exact ih
    · rw [List.drop_of_length_le (by omega), List.drop_of_length_le (by omega)]

theorem mem_about {k : Bytes} {l : List (Call × Ans)} {e : Call × Ans} (h : e ∈ about k l) : e ∈ l := (List.mem_filter.1 h).1

end Bench
end Blobd
