import Verif.Proofs.LiteDeletes
import Verif.Proofs.LiteUpload
set_option autoImplicit false
/-! # Lite store: the one unanswered change of a bucket, with calls of a bucket kept apart -/
namespace Blobd
namespace Lite

section
variable {c : LCfg}

/-- the call has made its change and waits for it to be safe -/
def PC.late : PC → Prop
  | .wait .. => True
  | .evict .. => True
  | _ => False

/-- such a call stays one until it is answered -/
theorem late_keeps {s s' : LSt} {a : Act} (ha : act c s a = some s') (hb : ∀ i t, s.thr i = some t → i < s.nextCall)
    (hrel : ∀ i st txn free tks r, s.thr i = some ⟨st, .wait txn free tks r⟩ → ∃ a, s.alloc.releaseAll free = some a)
    {i : Nat} {t : Thread} (ht : s.thr i = some t) (hl : t.pc.late) :
    (∃ t', s'.thr i = some t' ∧ t'.start = t.start ∧ t'.pc.late) ∨ (∃ a ∈ s'.acks, a.id = i) := by
  by_cases hby : a.by = some i
  · obtain ⟨st, pc⟩ := t
    cases pc with
    | wait txn free tks r =>
      obtain ⟨al, hal⟩ := hrel i st txn free tks r ht
      cases a <;> simp only [Act.by, Option.some.injEq, reduceCtorEq] at hby <;> subst hby <;> simp only [act, ht, reduceCtorEq] at ha
      case signalled =>
        rw [hal] at ha
        split at ha
        · cases ha
          left
          exact ⟨⟨st, .evict tks r⟩, by simp [setPc, upd], rfl, trivial⟩
        · cases ha
    | evict tks r =>
      cases a <;> simp only [Act.by, Option.some.injEq, reduceCtorEq] at hby <;> subst hby <;> simp only [act, ht, reduceCtorEq] at ha
      case evict =>
        cases tks with
        | nil => cases ha
        | cons k ks =>
          cases ha
          left
          exact ⟨⟨st, .evict ks r⟩, by simp [setPc, upd], rfl, trivial⟩
      case respond =>
        cases tks with
        | cons k ks => cases ha
        | nil =>
          cases ha
          right
          exact ⟨_, by simp only [respond]; exact List.mem_append_right _ (List.mem_singleton.2 rfl), rfl⟩
    | _ => exact hl.elim
  · left
    exact ⟨t, by rw [Upload.thr_keep ha hb ht hby]; exact ht, rfl, hl⟩

/-- the change `e` of call `i` is unanswered: the call waits -/
def Waits (s : LSt) (i : Nat) (e : Ev) : Prop :=
  ∃ t, s.thr i = some t ∧ t.pc.late ∧ callKey t.start.call = e.key ∧ callChanges t.start.call = true

def OnePending (c : LCfg) (s : LSt) : Prop :=
  ∀ pre i e post, s.lin = pre ++ (i, e) :: post → e.alters → (∃ a ∈ s.acks, a.id = i) ∨
    (Waits s i e ∧ ∀ p ∈ post, c.bkt p.2.key = c.bkt e.key → ¬ p.2.alters)

theorem acks_keep {s s' : LSt} {a : Act} (ha : act c s a = some s') : ∀ r ∈ s.acks, r ∈ s'.acks := by
  intro r hr
  cases act_eff ha with
  | silent e1 e2 e3 => rw [e2]; exact hr
  | large b e1 e2 _ e3 => rw [e2]; exact List.mem_append_left _ hr
  | start t0 e1 e2 e3 e4 e5 => rw [e2]; exact hr
  | move i t0 pc' e1 e2 e3 e4 e5 e6 e7 e8 => rw [e4]; exact hr
  | answer i t0 b e1 e2 e3 e4 e5 e6 e7 => rw [e4]; exact List.mem_append_left _ hr

theorem changes_of {req : Req} (h : req.exclusive = true) (key : List Byte) : callChanges (.lookup req key) = true := by
  cases req <;> first | rfl | cases h

/-- one more event at the end -/
theorem split_snoc {α : Type} {l pre post : List α} {x y : α} (h : l ++ [y] = pre ++ x :: post) :
    (post = [] ∧ pre = l ∧ x = y) ∨ ∃ post', post = post' ++ [y] ∧ l = pre ++ x :: post' := by
  rcases List.eq_nil_or_concat post with rfl | ⟨p, z, rfl⟩
  · left
    have := List.append_inj' h rfl
    exact ⟨rfl, this.1.symm, (List.cons.inj this.2).1.symm⟩
  · right
    have h' : l ++ [y] = (pre ++ x :: p) ++ [z] := by rw [h]; simp
    have := List.append_inj' h' rfl
    exact ⟨p, by rw [(List.cons.inj this.2).1]; simp, this.1⟩

/-- the events at the end change nothing -/
theorem split_calm {l pre post q : List (Nat × Ev)} {x : Nat × Ev} (h : l ++ q = pre ++ x :: post) (hx : x.2.alters) (hq : ∀ p ∈ q, ¬ p.2.alters) :
    ∃ post', post = post' ++ q ∧ l = pre ++ x :: post' := by
  induction q using List.reverseRecOn generalizing post with
  | nil => exact ⟨post, by simp, by simpa using h⟩
  | append_singleton q z ih =>
    rw [← List.append_assoc] at h
    rcases split_snoc h with ⟨_, _, rfl⟩ | ⟨p, rfl, h'⟩
    · exact absurd hx (hq _ (by simp))
    · obtain ⟨p', rfl, e⟩ := ih h' (fun p hp => hq p (by simp [hp]))
      exact ⟨p', by simp, e⟩

theorem apart_pending (hc : c.Ok) {s : LSt} (h : ApartReach c s) : OnePending c s := by
  induction h with
  | @fresh _ s h =>
    intro pre i e post hl
    have : s.lin = [] := by
      unfold fresh at h
      split at h
      · cases h; rfl
      · cases h
    rw [this] at hl
    exact absurd hl (by simp)
  | journal _ _ _ ih => exact ih
  | @act s s' a hr ha hst hnc ih =>
    obtain ⟨hd, hf⟩ := apart_inv hc hr
    obtain ⟨base, v, leak, hi, _⟩ := reach_qb hc hr.reach hf
    have hb : ∀ i t, s.thr i = some t → i < s.nextCall := fun i t ht => (hi.thr i t ht).1
    have hrel : ∀ i st txn free tks r, s.thr i = some ⟨st, .wait txn free tks r⟩ → ∃ a, s.alloc.releaseAll free = some a :=
      fun i st txn free tks r ht => release_ok hi ht rfl
    have ai := reach_ai hr.reach
    obtain ⟨did, _⟩ := act_did ha
    have keep := acks_keep ha
    -- an old change
    have old : ∀ {pre : List (Nat × Ev)} {i : Nat} {e : Ev} {post q : List (Nat × Ev)}, s.lin = pre ++ (i, e) :: post → e.alters →
        (∀ p ∈ q, p.2.alters → ∃ t, s.thr p.1 = some t ∧ ¬ t.pc.late ∧ t.pc ≠ .dead ∧ callKey t.start.call = p.2.key ∧ callChanges t.start.call = true) →
        (∃ a ∈ s'.acks, a.id = i) ∨ (Waits s' i e ∧ ∀ p ∈ post ++ q, c.bkt p.2.key = c.bkt e.key → ¬ p.2.alters) := by
      intro pre i e post q hl he hq
      rcases ih pre i e post hl he with ⟨r, hr1, hr2⟩ | ⟨⟨t, t1, t2, t3, t4⟩, h2⟩
      · exact .inl ⟨r, keep r hr1, hr2⟩
      · rcases late_keeps ha hb hrel t1 t2 with ⟨t', w1, w2, w3⟩ | w
        · refine .inr ⟨⟨t', w1, w3, by rw [w2]; exact t3, by rw [w2]; exact t4⟩, ?_⟩
          intro p hp hbk hal
          rcases List.mem_append.1 hp with hp | hp
          · exact h2 p hp hbk hal
          · obtain ⟨u, u1, u2, u3, u4, u5⟩ := hq p hp hal
            have hne : i ≠ p.1 := by
              rintro rfl
              rw [t1] at u1
              cases u1
              exact u2 t2
            have hlive : t.pc ≠ .dead := by
              intro e
              rw [e] at t2
              exact t2
            have := hd.one i p.1 t u t1 u1 hlive u3 hne (by rw [t3, u4, hbk])
            rw [t4] at this
            cases this
        · exact .inl w
    have calm : ∀ {q : List (Nat × Ev)}, s'.lin = s.lin ++ q → (∀ p ∈ q, ¬ p.2.alters) → OnePending c s' := by
      intro q hl hq pre i e post hl' he
      rw [hl] at hl'
      obtain ⟨p', rfl, e'⟩ := split_calm hl' he hq
      exact old e' he (fun p hp hal => absurd hal (hq p hp))
    have evcalm : ∀ {j : Nat} {evs : List Ev}, (∀ e ∈ evs, ¬ e.alters) → ∀ p ∈ evs.map (fun e => (j, e)), ¬ p.2.alters := by
      intro j evs he p hp
      obtain ⟨e, h1, rfl⟩ := List.mem_map.1 hp
      exact he e h1
    -- a new change
    have new : ∀ {j : Nat} {t t' : Thread} {e0 : Ev}, s.thr j = some t → s'.thr j = some t' → t'.start = t.start → t'.pc.late → ¬ t.pc.late →
        t.pc ≠ .dead → callKey t.start.call = e0.key → callChanges t.start.call = true → s'.lin = s.lin ++ [(j, e0)] → OnePending c s' := by
      intro j t t' e0 g1 g2 g3 g4 g5 g6 g7 g8 hl pre i e post hl' he
      rw [hl] at hl'
      rcases split_snoc hl' with ⟨rfl, _, hx⟩ | ⟨p', rfl, e'⟩
      · cases hx
        exact .inr ⟨⟨t', g2, g4, by rw [g3]; exact g7, by rw [g3]; exact g8⟩, fun p hp => by cases hp⟩
      · refine old e' he ?_
        intro p hp hal
        rw [List.mem_singleton] at hp
        subst hp
        exact ⟨t, g1, g5, g6, g7, g8⟩
    cases did with
    | silent e1 e2 _ => exact calm (q := []) (by rw [e2]; simp) (fun p hp => by cases hp)
    | start t0 e1 e2 e3 => exact calm (q := []) (by rw [e2]; simp) (fun p hp => by cases hp)
    | answer j tj evs ak e1 e2 e3 e4 _ _ _ _ => exact calm e3 (evcalm e4)
    | move j tj pc' evs e1 e2 e3 e4 =>
      have hti : s'.thr j = some ⟨tj.start, pc'⟩ := by rw [e2]; simp [upd]
      have hai := (ai.thr j _ e1).2.2
      obtain ⟨st, pcj⟩ := tj
      simp only at e4 hai
      cases e4 with
      | link _ _ => exact new e1 hti rfl trivial (fun h => h) (by simp) (by simp only [hai.2]; rfl) (by simp only [hai.2]; rfl) e3
      | change hx _ hkey _ =>
        rename_i req key cur prev raw inc ex txn free tickets r e
        refine new e1 hti rfl trivial (fun h => h) (by simp) (by simp only [hai.2]; exact hkey.symm) ?_ e3
        simp only [hai.2]
        exact changes_of hx _
      | dies hx he => exact calm e3 (evcalm he)
      | opens => exact calm e3 (evcalm (by intro e he; simp only [List.mem_singleton] at he; subst he; exact fun x => x))
      | _ => exact calm e3 (evcalm (by simp))

/-- no two versions of a key have the same id -/
theorem abs_ids_nodup {vs : Bool} {evs : List Ev} : ∀ {a : Abs}, (evs.flatMap Ev.new).Nodup → absRun vs evs = some a → ∀ k, ((a k).map (·.id)).Nodup := by
  induction evs using List.reverseRecOn with
  | nil =>
    intro a _ h k
    cases h
    simp
  | append_singleton evs e ih =>
    intro a hn h k
    obtain ⟨a0, h0, h1⟩ := absRun_snoc' h
    rw [List.flatMap_append] at hn
    have hn0 := (List.nodup_append.1 hn).1
    have ih := ih hn0 h0
    have sub : ∀ {l l' : List Ver}, l.Sublist l' → (l'.map (·.id)).Nodup → (l.map (·.id)).Nodup := fun hs h => List.Nodup.sublist (hs.map _) h
    cases e with
    | created k' id n =>
      cases h1
      unfold Abs.set
      by_cases hk : k = k'
      · subst hk
        rw [if_pos rfl, List.map_cons, List.nodup_cons]
        refine ⟨?_, ih k⟩
        intro hm
        obtain ⟨v, hv, he⟩ := List.mem_map.1 hm
        have h2 := abs_made h0 k v hv
        simp only at he
        have := (List.nodup_append.1 hn).2.2 id (List.mem_flatMap.2 ⟨_, h2, by rw [he]; simp [Ev.new]⟩) id (by simp [Ev.new])
        exact this rfl
      · rw [if_neg hk]; exact ih k
    | committed k' id =>
      simp only [absStep] at h1
      split at h1
      · cases h1
        unfold Abs.set
        by_cases hk : k = k'
        · subst hk
          rw [if_pos rfl, List.map_map]
          have : ((fun v : Ver => v.id) ∘ fun v : Ver => if v.id = id then { v with committed := true } else v) = (fun v => v.id) := by
            funext v
            simp only [Function.comp]
            split <;> rfl
          rw [this]
          exact sub List.filter_sublist (ih k)
        · rw [if_neg hk]; exact ih k
      · cases h1
    | removed k' want id =>
      simp only [absStep] at h1
      split at h1
      · split at h1
        · cases h1
          unfold Abs.set
          by_cases hk : k = k'
          · subst hk
            rw [if_pos rfl]
            exact sub List.filter_sublist (ih k)
          · rw [if_neg hk]; exact ih k
        · cases h1
      · cases h1
    | found k' want id size =>
      simp only [absStep] at h1
      split at h1
      · split at h1
        · cases h1; exact ih k
        · cases h1
      · cases h1
    | missing k' want =>
      simp only [absStep] at h1
      split at h1
      · cases h1; exact ih k
      · cases h1
    | opened k' id size =>
      simp only [absStep] at h1
      split at h1
      · split at h1
        · cases h1; exact ih k
        · cases h1
      · cases h1
    | refused k' id =>
      simp only [absStep] at h1
      split at h1
      · cases h1; exact ih k
      · cases h1

theorem absStep_calm {vs : Bool} {a a' : Abs} {e : Ev} (h : absStep vs a e = some a') (he : ¬ e.alters) : a' = a := by
  cases e with
  | created | committed | removed => exact absurd trivial he
  | found k' want id size =>
    simp only [absStep] at h
    split at h
    · split at h
      · cases h; rfl
      · cases h
    · cases h
  | missing k' want =>
    simp only [absStep] at h
    split at h
    · cases h; rfl
    · cases h
  | opened k' id size =>
    simp only [absStep] at h
    split at h
    · split at h
      · cases h; rfl
      · cases h
    · cases h
  | refused k' id =>
    simp only [absStep] at h
    split at h
    · cases h; rfl
    · cases h

/-- what comes after the last change of a bucket leaves its versions alone -/
theorem absRun_tail {vs : Bool} {b : Nat} {pre post : List Ev} {e : Ev} {y z x : Abs} (hp : absRun vs pre = some y) (hz : absStep vs y e = some z)
    (hx : absRun vs (pre ++ e :: post) = some x) (hq : ∀ p ∈ post, c.bkt p.key = b → ¬ p.alters) : ∀ k, c.bkt k = b → x k = z k := by
  induction post using List.reverseRecOn generalizing x with
  | nil =>
    rw [absRun_snoc hp] at hx
    rw [hz] at hx
    cases hx
    exact fun _ _ => rfl
  | append_singleton post p ih =>
    have hx' : absRun vs ((pre ++ e :: post) ++ [p]) = some x := by simpa using hx
    obtain ⟨w, w1, w2⟩ := absRun_snoc' hx'
    intro k hk
    rw [← ih w1 (fun p hp => hq p (by simp [hp])) k hk]
    by_cases hkk : k = p.key
    · subst hkk
      rw [absStep_calm w2 (hq p (by simp) hk)]
    · exact (absStep_key w2).1 k hkk

end
end Lite
end Blobd
