import Verif.Proofs.LiteProgress
set_option autoImplicit false
/-! # Lite store: walks end, locks are released, calls end -/
namespace Blobd
namespace Lite
open Spec

variable {c : LCfg} {σ : Nat → LSt}

theorem Chain.suffix {s : LSt} {a l : List Nat} : ∀ {h : Nat}, Chain s h (a ++ l) → Chain s (l.headD 0) l := by
  induction a with
  | nil =>
    intro h hc
    cases hc with
    | nil => exact .nil
    | cons h1 h2 => exact .cons h1 h2
  | cons x a ih =>
    intro h hc
    cases hc with
    | cons h1 h2 => exact ih h2

theorem headOff_eq (l : List Rec) : headOff l = (l.map Rec.off).headD 0 := by
  cases l <;> rfl

theorem split_at {α : Type} (f : α → Nat) {a b a' b' : List α} {x y : α} (e : a ++ x :: b = a' ++ y :: b')
    (hn : ((a ++ x :: b).map f).Nodup) (hf : f x = f y) : a = a' ∧ b = b' := by
  induction a generalizing a' with
  | nil =>
    cases a' with
    | nil => simp only [List.nil_append, List.cons.injEq] at e; exact ⟨rfl, e.2⟩
    | cons z a' =>
      exfalso
      simp only [List.nil_append, List.cons_append, List.cons.injEq] at e
      rw [List.nil_append, List.map_cons, List.nodup_cons] at hn
      apply hn.1
      rw [e.2, hf]
      simp
  | cons z a ih =>
    cases a' with
    | nil =>
      exfalso
      simp only [List.nil_append, List.cons_append, List.cons.injEq] at e
      rw [List.cons_append, List.map_cons, List.nodup_cons] at hn
      apply hn.1
      rw [e.1, ← hf]
      simp
    | cons z' a' =>
      simp only [List.cons_append, List.cons.injEq] at e
      rw [List.cons_append, List.map_cons, List.nodup_cons] at hn
      obtain ⟨h1, h2⟩ := ih e.2 hn.2
      exact ⟨by rw [e.1, h1], h2⟩

section
variable (hc : c.Ok) {s : LSt} {base : Mem} {v : V} {leak : List (Nat × Nat)} (h : LInv c s base v leak)
include hc h

theorem rest_chain {b : Nat} (hb : b < 2 ^ c.bits) {vis rest : List Rec} (he : v.ch b = vis ++ rest) :
    Chain s (headOff rest) (rest.map Rec.off) := by
  have := chain_of hc h hb
  rw [he, List.map_append] at this
  rw [headOff_eq]
  exact this.suffix

/-- the place in the list determines what is left of it -/
theorem same_rest {b : Nat} {vis rest vis' rest' : List Rec} (he : v.ch b = vis ++ rest) (he' : v.ch b = vis' ++ rest')
    (ho : headOff rest = headOff rest') : rest = rest' := by
  have hn := h.good.chn b
  have hpos : ∀ r ∈ v.ch b, r.off ≠ 0 := fun r hr => off_pos hc h (linked_of hc h hr)
  cases rest with
  | nil =>
    cases rest' with
    | nil => rfl
    | cons r' l' => exact absurd ho.symm (hpos r' (by rw [he']; simp))
  | cons r l =>
    cases rest' with
    | nil => exact absurd ho (hpos r (by rw [he]; simp))
    | cons r' l' =>
      rw [he] at hn
      have ho : r.off = r'.off := ho
      obtain ⟨h1, h2⟩ := split_at Rec.off (he.symm.trans he') hn ho
      subst h1 h2
      have := he.symm.trans he'
      rw [List.append_cancel_left_eq, List.cons.injEq] at this
      rw [this.1]

end

theorem chEff_quiet {v v' : V} {e : Ev} (h : ChEff c v v' e) (he : ¬ e.alters) : v'.ch = v.ch := by
  cases e <;> first | exact h | exact absurd trivial he

theorem chEff_other {v v' : V} {e : Ev} (h : ChEff c v v' e) {b : Nat} (hb : c.bkt e.key ≠ b) : v'.ch b = v.ch b := by
  have hb' : ∀ {x : List Rec}, upd v.ch (c.bkt e.key) x b = v.ch b := by
    intro x; simp [upd, Ne.symm hb]
  cases e with
  | created k id size => obtain ⟨r, _, _, _, e⟩ := h; rw [e]; exact hb'
  | removed k want id => obtain ⟨pre, r, post, _, _, _, e⟩ := h; rw [e]; exact hb'
  | committed k id =>
    rcases h with e | ⟨pre, r, post, _, _, _, _, e⟩
    · rw [e]
    · rw [e]; exact hb'
  | _ => exact congrFun h b

/-- the list of a bucket does not change while a call holds its lock, except by that call -/
theorem ch_kept {s s' : LSt} {base : Mem} {v v' : V} {leak : List (Nat × Nat)} (h : LInv c s base v leak)
    (hr : ChRel c v v' s.lin s'.lin) (hd : Did c s s') {i : Nat} {t : Thread} (ht : s.thr i = some t) {b : Nat} {e : Bool}
    (hl : t.pc.lock c = some (b, e)) (hq : ∀ ev, s'.lin = s.lin ++ [(i, ev)] → ¬ ev.alters) : v'.ch b = v.ch b := by
  rcases hr with ⟨_, hr⟩ | ⟨j, ev, hlin, hr⟩
  · rw [hr]
  · cases hd with
    | silent h1 h2 h3 => rw [h2] at hlin; exact absurd (congrArg List.length hlin) (by simp)
    | start t h1 h2 => rw [h2] at hlin; exact absurd (congrArg List.length hlin) (by simp)
    | answer j' t' evs a h1 h2 h3 h4 h5 h6 h7 =>
      rw [h3, List.append_cancel_left_eq] at hlin
      rw [chEff_quiet hr]
      apply h4
      have : (j, ev) ∈ evs.map (fun e => (j', e)) := by rw [hlin]; simp
      obtain ⟨x, hx, hxe⟩ := List.mem_map.1 this
      cases hxe
      exact hx
    | move j' t' pc' evs h1 h2 h3 h4 =>
      have hlin0 := hlin
      rw [h3, List.append_cancel_left_eq] at hlin
      have hm : (j, ev) ∈ evs.map (fun e => (j', e)) := by rw [hlin]; simp
      obtain ⟨x, hx, hxe⟩ := List.mem_map.1 hm
      cases hxe
      by_cases hji : j = i
      · subst hji
        rw [chEff_quiet hr (hq _ hlin0)]
      · by_cases hb : c.bkt ev.key = b
        · have hbb : ∀ i t, s.thr i = some t → i < s.nextCall := fun i t ht => (h.thr i t ht).1
          generalize hpc : t'.pc = pc at h4
          cases h4 with
          | link hk hn =>
            simp only [List.mem_singleton] at hx
            subst hx
            simp only [Ev.key] at hb
            subst hb
            have := canLock_free hk hbb i t e ht hl
            cases this.1
          | change hx1 hx2 hx3 hx4 =>
            simp only [List.mem_singleton] at hx
            subst hx
            rw [hx3] at hb
            subst hb
            have := h.lock j t' i t hji h1 ht _ _ _ (by rw [hpc]; rfl) hl
            rw [hx1] at this
            cases this.1
          | opens =>
            simp only [List.mem_singleton] at hx
            subst hx
            rw [chEff_quiet hr (by simp [Ev.alters])]
          | dies h5 h6 => rw [chEff_quiet hr (h6 ev hx)]
          | _ => cases hx
        · exact chEff_other hr hb

/-- how far a call is from its end -/
def RankIs (s : LSt) : PC → Nat → Prop
  | .createWrite _ _, r => r = 11
  | .createLink _ _, r => r = 10
  | .walk _ _ cur _ raw _ _, r => ∃ l, Chain s cur l ∧ r = 10 + 2 * l.length + (if raw.isNone then 1 else 0)
  | .writing _ _ _, r => r = 1
  | .wait _ _ ts _, r => r = 3 + ts.length
  | .evict ts _, r => r = 2 + ts.length
  | .dead, r => r = 0

theorem rank_exists (hc : c.Ok) {s : LSt} {base : Mem} {v : V} {leak : List (Nat × Nat)} (h : LInv c s base v leak) {i : Nat} {t : Thread}
    (ht : s.thr i = some t) : ∃ r, RankIs s t.pc r := by
  have hp := (h.thr i t ht).2
  generalize t.pc = pc at hp
  cases pc with
  | walk req key cur prev raw inc ex =>
    obtain ⟨vis, rest, h1, h2, _⟩ := hp
    have := rest_chain hc h (bkt_lt hc key) h1
    rw [← h2] at this
    exact ⟨_, _, this, rfl⟩
  | _ => exact ⟨_, rfl⟩

theorem at_some {s : LSt} {i : Nat} {pc : PC} : at? s i = some pc ↔ ∃ st, s.thr i = some ⟨st, pc⟩ := by
  unfold at?
  rw [Option.map_eq_some_iff]
  constructor
  · rintro ⟨⟨st, pc'⟩, h, rfl⟩; exact ⟨st, h⟩
  · rintro ⟨st, h⟩; exact ⟨_, h, rfl⟩

theorem step_at {s s' : LSt} (h : Step c s s') (hb : ∀ i t, s.thr i = some t → i < s.nextCall) {i : Nat} {pc : PC} (ha : at? s i = some pc) :
    (at? s' i = some pc ∧ ∀ ev, s'.lin = s.lin ++ [(i, ev)] → ¬ ev.alters) ∨
    (∃ pc' evs, at? s' i = some pc' ∧ Moves c s s' pc pc' evs ∧ s'.lin = s.lin ++ evs.map (fun e => (i, e))) ∨
    (at? s' i = none ∧ Answers s' i ∧ pc ≠ .dead) := by
  obtain ⟨st, ht⟩ := at_some.1 ha
  cases step_did h with
  | silent h1 h2 h3 =>
    left
    refine ⟨by unfold at? at ha ⊢; rw [h1]; exact ha, fun ev he => ?_⟩
    rw [h2] at he; exact absurd (congrArg List.length he) (by simp)
  | start t h1 h2 =>
    left
    refine ⟨?_, fun ev he => ?_⟩
    · unfold at? at ha ⊢
      rw [h1]
      have := hb i _ ht
      simp only [upd, if_neg (show i ≠ s.nextCall by omega)]
      exact ha
    · rw [h2] at he; exact absurd (congrArg List.length he) (by simp)
  | move j t pc' evs h1 h2 h3 h4 =>
    by_cases hj : i = j
    · subst hj
      rw [ht, Option.some.injEq] at h1
      subst h1
      right; left
      exact ⟨pc', evs, at_some.2 ⟨st, by rw [h2]; simp [upd]⟩, h4, h3⟩
    · left
      refine ⟨by unfold at? at ha ⊢; rw [h2]; simp only [upd, if_neg hj]; exact ha, fun ev he => ?_⟩
      rw [h3, List.append_cancel_left_eq] at he
      have : (i, ev) ∈ evs.map (fun e => (j, e)) := by rw [he]; simp
      obtain ⟨x, _, hx⟩ := List.mem_map.1 this
      cases hx
      exact absurd rfl hj
  | answer j t evs a h1 h2 h3 h4 h5 h6 h7 =>
    by_cases hj : i = j
    · subst hj
      rw [ht, Option.some.injEq] at h1
      subst h1
      right; right
      exact ⟨by unfold at?; rw [h2]; simp [upd], ⟨a, by rw [h6]; simp, h7⟩, h5⟩
    · left
      refine ⟨by unfold at? at ha ⊢; rw [h2]; simp only [upd, if_neg hj]; exact ha, fun ev he => ?_⟩
      rw [h3, List.append_cancel_left_eq] at he
      have : (i, ev) ∈ evs.map (fun e => (j, e)) := by rw [he]; simp
      obtain ⟨x, _, hx⟩ := List.mem_map.1 this
      cases hx
      exact absurd rfl hj

theorem rank_keep (hc : c.Ok) {s s' : LSt} (hr : Reach c s) (hs : Step c s s') (hf : s'.faults = []) {i : Nat} {pc : PC} (ha : at? s i = some pc)
    (ha' : at? s' i = some pc) (hq : ∀ ev, s'.lin = s.lin ++ [(i, ev)] → ¬ ev.alters) {r : Nat} (hk : RankIs s pc r) : RankIs s' pc r := by
  obtain ⟨base, v, leak, base', v', leak', h, h', hrel⟩ := step_rel hc hr hs hf
  obtain ⟨st, ht⟩ := at_some.1 ha
  obtain ⟨st', ht'⟩ := at_some.1 ha'
  cases pc with
  | walk req key cur prev raw inc ex =>
    obtain ⟨l, hl, rfl⟩ := hk
    obtain ⟨vis, rest, h1, h2, _⟩ := (h.thr i _ ht).2
    obtain ⟨vis', rest', h1', h2', _⟩ := (h'.thr i _ ht').2
    have c2 := rest_chain hc h' (bkt_lt hc key) h1'
    rw [ch_kept h hrel (step_did hs) ht rfl hq] at h1'
    have he : rest = rest' := same_rest hc h h1 h1' (h2.symm.trans h2')
    have c1 := rest_chain hc h (bkt_lt hc key) h1
    rw [← h2] at c1
    rw [← h2'] at c2
    have := hl.unique c1
    subst this
    exact ⟨_, c2, by rw [he]⟩
  | _ => exact hk

theorem rank_drop (hc : c.Ok) {s s' : LSt} (hr : Reach c s) (hs : Step c s s') (hf : s'.faults = []) {i : Nat} {pc pc' : PC} {evs : List Ev}
    (ha : at? s i = some pc) (ha' : at? s' i = some pc') (hm : Moves c s s' pc pc' evs) (hlin : s'.lin = s.lin ++ evs.map (fun e => (i, e)))
    {r : Nat} (hk : RankIs s pc r) : ∃ r', RankIs s' pc' r' ∧ r' < r := by
  obtain ⟨base, v, leak, base', v', leak', h, h', hrel⟩ := step_rel hc hr hs hf
  obtain ⟨st, ht⟩ := at_some.1 ha
  obtain ⟨st', ht'⟩ := at_some.1 ha'
  cases hm with
  | written => subst hk; exact ⟨_, rfl, by omega⟩
  | link h1 h2 => subst hk; exact ⟨_, rfl, by simp⟩
  | @read req key cur prev inc ex raw =>
    obtain ⟨l, hl, rfl⟩ := hk
    obtain ⟨vis, rest, h1, h2, _⟩ := (h.thr i _ ht).2
    obtain ⟨vis', rest', h1', h2', _⟩ := (h'.thr i _ ht').2
    have hch := ch_kept h hrel (step_did hs) ht rfl (fun ev he => by
      rw [hlin] at he; exact absurd (congrArg List.length he) (by simp))
    have c2 := rest_chain hc h' (bkt_lt hc key) h1'
    rw [hch] at h1'
    have he : rest = rest' := same_rest hc h h1 h1' (h2.symm.trans h2')
    have c1 := rest_chain hc h (bkt_lt hc key) h1
    rw [← h2] at c1
    rw [← h2'] at c2
    have := hl.unique c1
    subst this
    exact ⟨_, ⟨_, c2, rfl⟩, by rw [he]; simp⟩
  | @next req key cur prev raw inc ex inc' ex' =>
    obtain ⟨l, hl, rfl⟩ := hk
    obtain ⟨vis, rest, h1, h2, _, h4, _⟩ := (h.thr i _ ht).2
    obtain ⟨vis', rest', h1', h2', h3', _⟩ := (h'.thr i _ ht').2
    have hch := ch_kept h hrel (step_did hs) ht rfl (fun ev he => by
      rw [hlin] at he; exact absurd (congrArg List.length he) (by simp))
    have c2 := rest_chain hc h' (bkt_lt hc key) h1'
    rw [hch] at h1'
    have c1 := rest_chain hc h (bkt_lt hc key) h1
    rw [← h2] at c1
    rw [← h2'] at c2
    have := hl.unique c1
    subst this
    obtain ⟨x, rest0, e1, _⟩ := h4 raw rfl
    subst e1
    have hx : cur = x.off := h2
    unfold prevOff at h3'
    cases hg : vis'.getLast? with
    | none => rw [hg] at h3'; cases h3'
    | some y =>
      rw [hg] at h3'
      simp only [Option.map_some, Option.some.injEq] at h3'
      obtain ⟨pre, hpre⟩ := List.getLast?_eq_some_iff.1 hg
      rw [hpre, List.append_assoc] at h1'
      have hn := h.good.chn (c.bkt key)
      rw [h1] at hn
      obtain ⟨_, e2⟩ := split_at Rec.off (h1.symm.trans h1') hn (hx.symm.trans h3')
      refine ⟨_, ⟨_, c2, rfl⟩, ?_⟩
      rw [e2]
      simp only [List.map_cons, List.length_cons, Option.isNone_none, Option.isNone_some, if_true, List.length_map, List.append_eq, List.nil_append]
      omega
  | opens => obtain ⟨l, hl, rfl⟩ := hk; exact ⟨_, rfl, by omega⟩
  | change h1 h2 h3 h4 => obtain ⟨l, hl, rfl⟩ := hk; exact ⟨_, rfl, by omega⟩
  | signalled => subst hk; exact ⟨_, rfl, by omega⟩
  | evict => subst hk; exact ⟨_, rfl, by simp⟩
  | dies h1 h2 =>
    refine ⟨0, rfl, ?_⟩
    cases pc <;> simp only [RankIs] at hk <;> first | omega | (obtain ⟨l, _, rfl⟩ := hk; omega) | exact absurd rfl h1

end Lite
end Blobd
