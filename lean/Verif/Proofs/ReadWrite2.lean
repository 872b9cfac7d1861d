import Verif.Proofs.WriteRead
/-! Whole-operation facts used by `Props/ReadWrite.lean`. -/
namespace Blobd
namespace RW
open List

theorem layoutDirect_eq {pages : Pages} {size : Nat} (h : size / 2 ^ pages.lpage < 2 ^ 32) :
    calcObjectLayoutDirect pages size = calcObjectLayout pages size := by
  have : (divModPow2 size pages.lpage).1 < 2 ^ 32 := by
    simp only [divModPow2, Nat.shiftRight_eq_div_pow]; exact h
  simp only [calcObjectLayoutDirect, if_pos this]

theorem layInfo_of {pages : Pages} (hp : PagesOk pages) {size : Nat} {lay : ObjectLayout}
    (h : calcObjectLayout pages size = some lay) : ∃ es, LayInfo pages size lay es := by
  obtain ⟨lay', es, hi⟩ := layInfo hp size
  have : lay' = lay := Option.some.inj (hi.eq.symm.trans h)
  subst this
  exact ⟨es, hi⟩

theorem contents_length {pages : Pages} {o : Obj} {lay : ObjectLayout} {es : List Nat}
    (h : LayInfo pages o.size lay es) (m : Mem) : (contents pages lay m o).length = o.size := by
  have := h.size_le o
  simp only [contents, List.length_take, length_allBytes]; omega

theorem slice_contents {pages : Pages} {o : Obj} {lay : ObjectLayout} (m : Mem) {start stop : Nat} (hs : start ≤ stop)
    (h : stop ≤ o.size) :
    ((contents pages lay m o).drop start).take (stop - start) =
      ((allBytes m (objPages pages lay o)).drop start).take (stop - start) := by
  simp only [contents, List.drop_take, List.take_take]
  congr 1; omega

theorem contents_congr {pages : Pages} {lay : ObjectLayout} {o : Obj} {m m' : Mem}
    (h : ∀ p ∈ objPages pages lay o, ∀ x, InPage p x → m x = m' x) :
    contents pages lay m o = contents pages lay m' o := by
  simp only [contents, allBytes_congr h]

theorem getElem?_splice {α : Type} (l d : List α) (off i : Nat) (h : off + d.length ≤ l.length) :
    (l.take off ++ d ++ l.drop (off + d.length))[i]? =
      if off ≤ i ∧ i < off + d.length then d[i - off]? else l[i]? := by
  have hl : (l.take off).length = off := by simp only [List.length_take]; omega
  split
  · rename_i hc
    rw [List.append_assoc, List.getElem?_append_right (by omega), List.getElem?_append_left (by omega), hl]
  · rename_i hc
    rcases Nat.lt_or_ge i off with h1 | h1
    · rw [List.append_assoc, List.getElem?_append_left (by omega), List.getElem?_take_of_lt h1]
    · rw [List.getElem?_append_right (by simp only [List.length_append, hl]; omega), List.getElem?_drop]
      congr 1; simp only [List.length_append, hl]; omega

theorem writeCheck_none {pages : Pages} {size offset len : Nat} :
    writeCheck pages size offset len = none ↔
      2 ^ pages.lpage ∣ offset ∧ offset + len = min (offset + 2 ^ pages.lpage) size := by
  have hm : isMultipleOfPow2 offset pages.lpage = true ↔ 2 ^ pages.lpage ∣ offset := by
    have h2 := modPow2_eq offset pages.lpage
    simp only [isMultipleOfPow2, beq_iff_eq]
    unfold modPow2 at h2
    rw [h2]
    exact (Nat.dvd_iff_mod_eq_zero).symm
  unfold writeCheck
  split
  · rename_i h; simp only [reduceCtorEq, false_iff, ← hm]; tauto
  · rename_i h
    have h' := hm.1 (by simpa using h)
    split
    · simp only [reduceCtorEq, false_iff]; omega
    · split
      · simp only [reduceCtorEq, false_iff]; omega
      · split
        · simp only [reduceCtorEq, false_iff]; omega
        · simp only [true_iff]; exact ⟨h', by omega⟩

end RW
end Blobd

namespace Blobd
namespace RW
open List

section
variable {block : List Byte → List Byte} {len : Nat} {targets : List (Nat × Nat)}

theorem wrun_err : ∀ (fuel : Nat) (cs : List (List Byte)) (rest : List (Except Unit (List Byte))) (s : WState),
    s.stream = cs.map .ok ++ .error () :: rest →
    cs.length < fuel → (∀ c ∈ cs, c ≠ []) →
    s.written + amtSum (targets.drop s.idx) = len →
    s.written + s.buf.length + cs.flatten.length ≤ len →
    ∃ dev, wrun block len targets fuel s = .ret (.error .dataStreamError, dev) := by
  intro fuel
  induction fuel with
  | zero => intro cs rest s _ h; omega
  | succ fuel ih =>
    intro cs rest s hst hf hne hsum htot
    cases cs with
    | nil => unfold wrun wstep; simp only [List.map_nil, List.nil_append] at hst; simp only [hst]; exact ⟨_, rfl⟩
    | cons c cs =>
      simp only [List.map_cons, List.cons_append] at hst
      unfold wrun wstep
      simp only [hst]
      have hc := hne c (by simp)
      have hcl : 0 < c.length := List.length_pos_iff.2 hc
      simp only [List.length_append, List.flatten_cons, List.length_cons] at htot hf
      cases hd : targets.drop s.idx with
      | nil => rw [hd] at hsum; simp only [amtSum, List.map_nil, List.sum_nil] at hsum; omega
      | cons t ts =>
        rw [wproceed_cases { s with stream := cs.map .ok ++ .error () :: rest, buf := s.buf ++ c } (by simp [hc])
          (by simp only [List.length_append]; omega) hd]
        simp only
        rw [hd] at hsum
        simp only [amtSum_cons] at hsum
        simp only [List.length_append]
        by_cases hlt : s.buf.length + c.length < t.1
        · simp only [hlt, if_true]
          exact ih cs rest _ rfl (by omega) (fun c hc => hne c (by simp [hc])) (by simp only; rw [hd]; simpa using hsum)
            (by simp only [List.length_append, List.length_drop]; omega)
        · simp only [hlt, if_false]
          exact ih cs rest _ rfl (by omega) (fun c hc => hne c (by simp [hc]))
            (by simp only; rw [(drop_idx hd).2]; omega) (by simp only [List.length_append, List.length_drop]; omega)

/-- `s` and `s'` are the same writer on devices that agree wherever `A` holds -/
def Sim (A : Nat → Prop) (s s' : WState) : Prop :=
  s.stream = s'.stream ∧ s.written = s'.written ∧ s.idx = s'.idx ∧ s.buf = s'.buf ∧ ∀ x, A x → s.dev x = s'.dev x

/-- simulation of one iteration by the same iteration on another device -/
def SimStep (A : Nat → Prop) : WStep → WStep → Prop
  | .cont s, .cont s' => Sim A s s'
  | .done r d, .done r' d' => r = r' ∧ ∀ x, A x → d x = d' x
  | .panic, .panic => True
  | _, _ => False

theorem write_congr {m m' : Mem} {A : Nat → Prop} (h : ∀ x, A x → m x = m' x) (off : Nat) (d : List Byte) :
    ∀ x, A x → (m.write off d) x = (m'.write off d) x := by
  intro x hx
  simp only [Mem.write]
  rw [h x hx]

theorem wproceed_sim {A : Nat → Prop} {s s' : WState} (h : Sim A s s') :
    SimStep A (wproceed block len targets s) (wproceed block len targets s') := by
  obtain ⟨h1, h2, h3, h4, h5⟩ := h
  obtain ⟨st, w, i, b, d⟩ := s
  obtain ⟨st', w', i', b', d'⟩ := s'
  simp only at h1 h2 h3 h4 h5
  subst h1; subst h2; subst h3; subst h4
  unfold wproceed
  simp only
  split
  · exact ⟨rfl, h5⟩
  · cases targets[i]? with
    | none => trivial
    | some t =>
      simp only
      split
      · exact ⟨rfl, rfl, rfl, rfl, h5⟩
      · exact ⟨rfl, rfl, rfl, rfl, write_congr h5 _ _⟩

theorem wstep_sim {A : Nat → Prop} {s s' : WState} (h : Sim A s s') :
    SimStep A (wstep block len targets s) (wstep block len targets s') := by
  have hh := h
  obtain ⟨h1, h2, h3, h4, h5⟩ := h
  obtain ⟨st, w, i, b, d⟩ := s
  obtain ⟨st', w', i', b', d'⟩ := s'
  simp only at h1 h2 h3 h4 h5
  subst h1; subst h2; subst h3; subst h4
  unfold wstep
  simp only
  match st with
  | .error _ :: _ => exact ⟨rfl, h5⟩
  | .ok c :: rest => exact wproceed_sim ⟨rfl, rfl, rfl, rfl, h5⟩
  | [] =>
    simp only
    split
    · exact ⟨rfl, h5⟩
    · exact wproceed_sim hh

end
end RW
end Blobd
