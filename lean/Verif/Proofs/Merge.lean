import Mathlib.Tactic.Tauto
import Verif.Model.Merge
/-! The write merger keeps disjoint entries with last-write-wins contents. -/
namespace Blobd
namespace Merge

def stopOf (e : Nat × List Byte) : Nat := e.1 + e.2.length

structure Good (w : Writes) : Prop where
  sorted : w.Pairwise (fun a b => a.1 < b.1)
  nonempty : ∀ e ∈ w, 0 < e.2.length
  disj : ∀ a ∈ w, ∀ b ∈ w, a.1 < b.1 → stopOf a ≤ b.1

theorem sorted_key {w : Writes} (h : w.Pairwise (fun a b => a.1 < b.1)) {a b : Nat × List Byte}
    (ha : a ∈ w) (hb : b ∈ w) (hk : a.1 = b.1) : a = b := by
  induction w with
  | nil => cases ha
  | cons c w ih =>
    have hp := List.pairwise_cons.1 h
    simp only [List.mem_cons] at ha hb
    rcases ha with rfl | ha <;> rcases hb with rfl | hb
    · rfl
    · have := hp.1 b hb; omega
    · have := hp.1 a ha; omega
    · exact ih hp.2 ha hb

theorem mem_btInsert {k : Nat} {v : List Byte} {w : Writes}
    (h : w.Pairwise (fun a b => a.1 < b.1)) (e : Nat × List Byte) :
    e ∈ btInsert k v w ↔ e = (k, v) ∨ (e ∈ w ∧ e.1 ≠ k) := by
  induction w with
  | nil => simp [btInsert]
  | cons c w ih =>
    obtain ⟨k', v'⟩ := c
    have hp := List.pairwise_cons.1 h
    unfold btInsert
    split
    · rename_i hlt
      constructor
      · intro he
        simp only [List.mem_cons] at he
        rcases he with rfl | rfl | he
        · exact .inl rfl
        · right; exact ⟨by simp, by simp only; omega⟩
        · right; refine ⟨by simp [he], ?_⟩
          have := hp.1 e he; simp only at this; omega
      · rintro (rfl | ⟨he, _⟩)
        · simp
        · simp only [List.mem_cons] at he ⊢; tauto
    · split
      · rename_i heq
        subst heq
        constructor
        · intro he
          simp only [List.mem_cons] at he
          rcases he with rfl | he
          · exact .inl rfl
          · right; refine ⟨by simp [he], ?_⟩
            have := hp.1 e he; simp only at this; omega
        · rintro (rfl | ⟨he, hne⟩)
          · simp
          · simp only [List.mem_cons] at he ⊢
            rcases he with rfl | he
            · exact absurd rfl hne
            · exact .inr he
      · rename_i h1 h2
        simp only [List.mem_cons]
        rw [ih hp.2]
        constructor
        · rintro (rfl | rfl | ⟨he, hne⟩)
          · right; exact ⟨by simp, by simp only; omega⟩
          · exact .inl rfl
          · exact .inr ⟨.inr he, hne⟩
        · rintro (rfl | ⟨rfl | he, hne⟩)
          · exact .inr (.inl rfl)
          · exact .inl rfl
          · exact .inr (.inr ⟨he, hne⟩)

theorem btInsert_sorted {k : Nat} {v : List Byte} {w : Writes}
    (h : w.Pairwise (fun a b => a.1 < b.1)) : (btInsert k v w).Pairwise (fun a b => a.1 < b.1) := by
  induction w with
  | nil => simp [btInsert]
  | cons c w ih =>
    obtain ⟨k', v'⟩ := c
    have hp := List.pairwise_cons.1 h
    unfold btInsert
    split
    · rename_i hlt
      refine List.pairwise_cons.2 ⟨?_, h⟩
      intro e he
      simp only [List.mem_cons] at he
      rcases he with rfl | he
      · exact hlt
      · have := hp.1 e he; simp only at this ⊢; omega
    · split
      · rename_i heq; subst heq
        exact List.pairwise_cons.2 ⟨hp.1, hp.2⟩
      · rename_i h1 h2
        refine List.pairwise_cons.2 ⟨?_, ih hp.2⟩
        intro e he
        rw [mem_btInsert hp.2] at he
        rcases he with rfl | ⟨he, _⟩
        · simp only; omega
        · exact hp.1 e he

theorem foldl_remove (ks : List Nat) (w : Writes) (h : w.Pairwise (fun a b => a.1 < b.1)) :
    (ks.foldl (fun w k => btRemove k w) w).Pairwise (fun a b => a.1 < b.1) ∧
    ∀ e, e ∈ ks.foldl (fun w k => btRemove k w) w ↔ e ∈ w ∧ e.1 ∉ ks := by
  induction ks generalizing w with
  | nil => simp [h]
  | cons k ks ih =>
    simp only [List.foldl_cons]
    obtain ⟨h1, h2⟩ := ih (btRemove k w) (h.filter _)
    refine ⟨h1, fun e => ?_⟩
    rw [h2]
    simp only [btRemove, List.mem_filter, List.mem_cons, decide_eq_true_eq, not_or]
    tauto

theorem foldl_insert (ps : List (Nat × List Byte)) (w : Writes)
    (h : w.Pairwise (fun a b => a.1 < b.1))
    (hc : ∀ p ∈ ps, ∀ e ∈ w, e.1 ≠ p.1)
    (hp : ∀ p ∈ ps, ∀ q ∈ ps, p.1 = q.1 → p = q) :
    (ps.foldl (fun w e => btInsert e.1 e.2 w) w).Pairwise (fun a b => a.1 < b.1) ∧
    ∀ e, e ∈ ps.foldl (fun w e => btInsert e.1 e.2 w) w ↔ e ∈ w ∨ e ∈ ps := by
  have gen : ∀ (ps : List (Nat × List Byte)) (w : Writes), w.Pairwise (fun a b => a.1 < b.1) →
      (∀ p ∈ ps, ∀ e ∈ w, e.1 = p.1 → e = p) → (∀ p ∈ ps, ∀ q ∈ ps, p.1 = q.1 → p = q) →
      (ps.foldl (fun w e => btInsert e.1 e.2 w) w).Pairwise (fun a b => a.1 < b.1) ∧
      ∀ e, e ∈ ps.foldl (fun w e => btInsert e.1 e.2 w) w ↔ e ∈ w ∨ e ∈ ps := by
    intro ps
    induction ps with
    | nil => intro w h _ _; simp [h]
    | cons p ps ih =>
      intro w h hc hp
      simp only [List.foldl_cons]
      have hm := mem_btInsert (k := p.1) (v := p.2) h
      obtain ⟨h1, h2⟩ := ih (btInsert p.1 p.2 w) (btInsert_sorted h) (by
          intro q hq e he hk
          rw [hm] at he
          rcases he with rfl | ⟨he, _⟩
          · exact hp p (by simp) q (by simp [hq]) hk
          · exact hc q (by simp [hq]) e he hk)
        (fun a ha b hb => hp a (by simp [ha]) b (by simp [hb]))
      refine ⟨h1, fun e => ?_⟩
      rw [h2, hm]
      simp only [List.mem_cons]
      constructor
      · rintro ((rfl | ⟨h, _⟩) | h)
        · exact .inr (.inl rfl)
        · exact .inl h
        · exact .inr (.inr h)
      · rintro (h | rfl | h)
        · by_cases hk : e.1 = p.1
          · left; left; exact hc p (by simp) e h hk
          · exact .inl (.inr ⟨h, hk⟩)
        · exact .inl (.inl rfl)
        · exact .inr h
  exact gen ps w h (fun p hps e he hk => absurd hk (hc p hps e he)) hp

/-- entry overlaps the new write -/
def Ov (offset stop : Nat) (e : Nat × List Byte) : Prop := offset < stopOf e ∧ e.1 < stop

/-- `p` is the part of `e` kept before / after the new write -/
def Piece (offset stop : Nat) (e p : Nat × List Byte) : Prop :=
  (e.1 < offset ∧ p = (e.1, e.2.take (offset - e.1))) ∨
  (stop < stopOf e ∧ p = (stop, e.2.drop (stop - e.1)))

theorem scan_spec (offset stop : Nat) (w : Writes) (h : w.Pairwise (fun a b => a.1 < b.1)) :
    (∀ k, k ∈ (scan offset stop w).2 ↔ ∃ e ∈ w, Ov offset stop e ∧ e.1 = k) ∧
    (∀ p, p ∈ (scan offset stop w).1 ↔ ∃ e ∈ w, Ov offset stop e ∧ Piece offset stop e p) := by
  induction w with
  | nil => simp [scan]
  | cons c w ih =>
    obtain ⟨eo, ed⟩ := c
    have hp := List.pairwise_cons.1 h
    obtain ⟨i1, i2⟩ := ih hp.2
    unfold scan
    by_cases hc : eo + ed.length ≤ offset
    · have hno : ¬ Ov offset stop (eo, ed) := by unfold Ov stopOf; simp only; omega
      simp only [hc, if_true]
      constructor
      · intro k
        rw [i1]
        constructor
        · rintro ⟨e, he, h⟩; exact ⟨e, by simp [he], h⟩
        · rintro ⟨e, he, h⟩
          simp only [List.mem_cons] at he
          rcases he with rfl | he
          · exact absurd h.1 hno
          · exact ⟨e, he, h⟩
      · intro p
        rw [i2]
        constructor
        · rintro ⟨e, he, h⟩; exact ⟨e, by simp [he], h⟩
        · rintro ⟨e, he, h⟩
          simp only [List.mem_cons] at he
          rcases he with rfl | he
          · exact absurd h.1 hno
          · exact ⟨e, he, h⟩
    · simp only [hc, if_false]
      by_cases hb : eo ≥ stop
      · simp only [hb, if_true]
        have hno : ∀ e ∈ (eo, ed) :: w, ¬ Ov offset stop e := by
          intro e he
          simp only [List.mem_cons] at he
          unfold Ov
          rcases he with rfl | he
          · simp only; omega
          · have := hp.1 e he; simp only at this; omega
        constructor
        · intro k
          constructor
          · intro h; cases h
          · rintro ⟨e, he, h⟩; exact absurd h.1 (hno e he)
        · intro k
          constructor
          · intro h; cases h
          · rintro ⟨e, he, h⟩; exact absurd h.1 (hno e he)
      · simp only [hb, if_false]
        have hov : Ov offset stop (eo, ed) := by unfold Ov stopOf; simp only; omega
        constructor
        · intro k
          simp only [List.mem_cons]
          rw [i1]
          constructor
          · rintro (hk | ⟨e, he, h⟩)
            · exact ⟨(eo, ed), by simp, hov, hk.symm⟩
            · exact ⟨e, by simp [he], h⟩
          · rintro ⟨e, rfl | he, h⟩
            · exact .inl h.2.symm
            · exact .inr ⟨e, he, h⟩
        · intro p
          have hpre : p ∈ ((if eo < offset then [(eo, ed.take (offset - eo))] else []) ++
              (if eo + ed.length > stop then [(stop, ed.drop (stop - eo))] else []) :
                List (Nat × List Byte)) ↔ Piece offset stop (eo, ed) p := by
            unfold Piece stopOf
            by_cases h1 : eo < offset <;> by_cases h2 : eo + ed.length > stop <;> simp [h1, h2]
          rw [List.mem_append, hpre, i2]
          constructor
          · rintro (h | ⟨e, he, h⟩)
            · exact ⟨(eo, ed), by simp, hov, h⟩
            · exact ⟨e, by simp [he], h⟩
          · rintro ⟨e, he, h⟩
            simp only [List.mem_cons] at he
            rcases he with rfl | he
            · exact .inl h.2
            · exact .inr ⟨e, he, h⟩

/-- two distinct entries of a good list are apart -/
theorem Good.apart {w : Writes} (h : Good w) {a b : Nat × List Byte} (ha : a ∈ w) (hb : b ∈ w)
    (hne : a ≠ b) : stopOf a ≤ b.1 ∨ stopOf b ≤ a.1 := by
  rcases Nat.lt_trichotomy a.1 b.1 with h1 | h1 | h1
  · exact .inl (h.disj a ha b hb h1)
  · exact absurd (sorted_key h.sorted ha hb h1) hne
  · exact .inr (h.disj b hb a ha h1)

/-- exact membership of the map after an insert -/
theorem mem_insert {w : Writes} (h : Good w) (offset : Nat) (data : List Byte)
    (hd : data ≠ []) :
    (insert w offset data).Pairwise (fun a b => a.1 < b.1) ∧
    ∀ e, e ∈ insert w offset data ↔ e = (offset, data) ∨
      (e ∈ w ∧ ¬ Ov offset (offset + data.length) e) ∨
      (∃ o ∈ w, Ov offset (offset + data.length) o ∧ Piece offset (offset + data.length) o e) := by
  have hlen : 0 < data.length := List.length_pos_iff.2 hd
  obtain ⟨s1, s2⟩ := scan_spec offset (offset + data.length) w h.sorted
  obtain ⟨r1, r2⟩ := foldl_remove (scan offset (offset + data.length) w).2 w h.sorted
  have hrem : ∀ e, e ∈ (scan offset (offset + data.length) w).2.foldl (fun w k => btRemove k w) w ↔
      e ∈ w ∧ ¬ Ov offset (offset + data.length) e := by
    intro e
    rw [r2, s1]
    constructor
    · rintro ⟨he, hn⟩
      exact ⟨he, fun ho => hn ⟨e, he, ho, rfl⟩⟩
    · rintro ⟨he, hn⟩
      refine ⟨he, ?_⟩
      rintro ⟨e', he', ho, hk⟩
      exact hn (sorted_key h.sorted he' he hk ▸ ho)
  obtain ⟨p1, p2⟩ := foldl_insert (scan offset (offset + data.length) w).1 _ r1 (by
      intro p hp e he hk
      rw [hrem] at he
      rw [s2] at hp
      obtain ⟨o, ho, hov, hpc⟩ := hp
      unfold Piece at hpc
      rcases hpc with ⟨h1, rfl⟩ | ⟨h1, rfl⟩
      · simp only at hk
        exact he.2 (sorted_key h.sorted ho he.1 hk.symm ▸ hov)
      · simp only at hk
        by_cases heo : e = o
        · exact he.2 (heo ▸ hov)
        · have := h.apart he.1 ho heo
          have hne := h.nonempty e he.1
          unfold Ov at hov
          unfold stopOf at *
          omega) (by
      intro p hp q hq hk
      rw [s2] at hp hq
      obtain ⟨o, ho, hov, hpc⟩ := hp
      obtain ⟨o', ho', hov', hpc'⟩ := hq
      unfold Piece at hpc hpc'
      unfold Ov at hov hov'
      rcases hpc with ⟨h1, rfl⟩ | ⟨h1, rfl⟩ <;> rcases hpc' with ⟨h1', rfl⟩ | ⟨h1', rfl⟩ <;>
        simp only at hk
      · rw [sorted_key h.sorted ho ho' hk]
      · omega
      · omega
      · by_cases heo : o = o'
        · rw [heo]
        · have := h.apart ho ho' heo
          unfold stopOf at *
          omega)
  unfold insert
  have hemp : data.isEmpty = false := by cases data <;> simp_all
  simp only [hemp, Bool.false_eq_true, if_false]
  refine ⟨btInsert_sorted p1, fun e => ?_⟩
  rw [mem_btInsert p1, p2, hrem, s2]
  constructor
  · rintro (h1 | ⟨h1 | h1, _⟩)
    · exact .inl h1
    · exact .inr (.inl h1)
    · exact .inr (.inr h1)
  · rintro (h1 | h1 | h1)
    · exact .inl h1
    · right
      refine ⟨.inl h1, ?_⟩
      intro hk
      have := h.nonempty e h1.1
      apply h1.2
      unfold Ov stopOf; omega
    · right
      refine ⟨.inr h1, ?_⟩
      obtain ⟨o, ho, hov, hpc⟩ := h1
      unfold Piece at hpc
      rcases hpc with ⟨h1, rfl⟩ | ⟨h1, rfl⟩
      · simp only; omega
      · simp only; omega

/-- every surviving entry lies inside an old entry and outside the new write -/
theorem survivor {w : Writes} (h : Good w) {offset stop : Nat} (hlt : offset < stop)
    {e : Nat × List Byte}
    (he : (e ∈ w ∧ ¬ Ov offset stop e) ∨ (∃ o ∈ w, Ov offset stop o ∧ Piece offset stop o e)) :
    ∃ o ∈ w, o.1 ≤ e.1 ∧ stopOf e ≤ stopOf o ∧ 0 < e.2.length ∧
      (stopOf e ≤ offset ∨ stop ≤ e.1) ∧
      (∀ i, i < e.2.length → e.2[i]? = o.2[e.1 + i - o.1]?) := by
  rcases he with ⟨he, hn⟩ | ⟨o, ho, hov, hpc⟩
  · refine ⟨e, he, Nat.le_refl _, Nat.le_refl _, h.nonempty e he, ?_, ?_⟩
    · unfold Ov at hn; omega
    · intro i hi; rw [Nat.add_sub_cancel_left]
  · unfold Piece at hpc
    unfold Ov stopOf at hov
    rcases hpc with ⟨h1, rfl⟩ | ⟨h1, rfl⟩
    · refine ⟨o, ho, Nat.le_refl _, ?_, ?_, ?_, ?_⟩
      · simp only [stopOf, List.length_take]; omega
      · simp only [List.length_take]; omega
      · left; simp only [stopOf, List.length_take]; omega
      · intro i hi
        simp only [List.length_take] at hi
        simp only [Nat.add_sub_cancel_left]
        rw [List.getElem?_take_of_lt (by omega)]
    · unfold stopOf at h1
      refine ⟨o, ho, ?_, ?_, ?_, ?_, ?_⟩
      · simp only; omega
      · simp only [stopOf, List.length_drop]; omega
      · simp only [List.length_drop]; omega
      · right; simp only; omega
      · intro i hi
        simp only
        rw [List.getElem?_drop]
        congr 1; omega

theorem insert_good {w : Writes} (h : Good w) (offset : Nat) (data : List Byte) :
    Good (insert w offset data) := by
  by_cases hd : data = []
  · subst hd; simpa [insert] using h
  have hlen : 0 < data.length := List.length_pos_iff.2 hd
  obtain ⟨m1, m2⟩ := mem_insert h offset data hd
  refine ⟨m1, ?_, ?_⟩
  · intro e he
    rcases (m2 e).1 he with rfl | hs
    · exact hlen
    · obtain ⟨o, _, _, _, h3, _⟩ := survivor h (by omega) hs
      exact h3
  · intro a ha b hb hlt
    rcases (m2 a).1 ha with rfl | hsa <;> rcases (m2 b).1 hb with rfl | hsb
    · omega
    · obtain ⟨o, _, _, _, h3, h4, _⟩ := survivor h (by omega) hsb
      simp only [stopOf] at *; omega
    · obtain ⟨o, _, _, _, h3, h4, _⟩ := survivor h (by omega) hsa
      simp only [stopOf] at *; omega
    · obtain ⟨o, ho, a1, a2, a3, a4, _⟩ := survivor h (by omega) hsa
      obtain ⟨o', ho', b1, b2, b3, b4, _⟩ := survivor h (by omega) hsb
      by_cases heq : o = o'
      · subst heq
        -- same origin: compare with the gap left by the new write
        rcases hsa with ⟨ha', hna⟩ | ⟨oa, hoa, hova, hpa⟩
        · have hao : a = o := by
            apply Classical.byContradiction
            intro hne
            have := h.apart ha' ho hne
            unfold stopOf at *
            omega
          subst hao
          rcases hsb with ⟨hb', _⟩ | ⟨ob, hob, hovb, hpb⟩
          · exact h.disj a ha' b hb' hlt
          · have : ob = a := by
              apply Classical.byContradiction
              intro hne
              have := h.apart hob ho hne
              unfold Ov Piece stopOf at *
              rcases hpb with ⟨q1, rfl⟩ | ⟨q1, rfl⟩ <;> simp only [List.length_take, List.length_drop] at * <;> omega
            subst this
            exact absurd hovb hna
        · rcases hsb with ⟨hb', hnb⟩ | ⟨ob, hob, hovb, hpb⟩
          · have hbo : b = o := by
              apply Classical.byContradiction
              intro hne
              have := h.apart hb' ho hne
              unfold stopOf at *
              omega
            subst hbo
            have : oa = b := by
              apply Classical.byContradiction
              intro hne
              have := h.apart hoa ho hne
              unfold Ov Piece stopOf at *
              rcases hpa with ⟨q1, rfl⟩ | ⟨q1, rfl⟩ <;> simp only [List.length_take, List.length_drop] at * <;> omega
            subst this
            exact absurd hova hnb
          · unfold Ov Piece stopOf at *
            rcases hpa with ⟨q1, rfl⟩ | ⟨q1, rfl⟩ <;> rcases hpb with ⟨q2, rfl⟩ | ⟨q2, rfl⟩ <;>
              simp only [List.length_take, List.length_drop] at * <;> try omega
            -- both prefixes: same origin, so equal keys
            have : oa = ob := by
              apply Classical.byContradiction
              intro hne
              have := h.apart hoa hob hne
              unfold stopOf at this
              omega
            subst this
            omega
      · have := h.apart ho ho' heq
        unfold stopOf at *; omega

/-- byte `x` has value `v` in the merged map -/
def Covers (w : Writes) (x : Nat) (v : Byte) : Prop := ∃ e ∈ w, e.1 ≤ x ∧ e.2[x - e.1]? = some v

theorem writeAll_covered (m : Mem) (seq w : Writes) (hg : Good w) (hs : ∀ e ∈ seq, e ∈ w) (x : Nat)
    (v : Byte) (e : Nat × List Byte) (he : e ∈ seq) (h1 : e.1 ≤ x) (h2 : e.2[x - e.1]? = some v) :
    m.writeAll seq x = v := by
  induction seq generalizing m with
  | nil => cases he
  | cons c seq ih =>
    rw [Mem.writeAll_cons]
    by_cases hin : e ∈ seq
    · exact ih _ (fun e he => hs e (by simp [he])) hin
    · have hec : e = c := by simpa [hin] using he
      subst hec
      have hlt : x - e.1 < e.2.length := by
        rw [List.getElem?_eq_some_iff] at h2; exact h2.1
      rw [Mem.writeAll_out, Mem.write_in h1 (by omega)]
      · rw [List.getElem?_eq_some_iff] at h2; exact h2.2
      · intro c' hc'
        have hne : c' ≠ e := fun h => hin (h ▸ hc')
        have := hg.apart (hs c' (by simp [hc'])) (hs e (by simp)) hne
        unfold stopOf at this
        omega

theorem writeAll_uncovered (m : Mem) (seq : Writes) (x : Nat)
    (h : ∀ e ∈ seq, x < e.1 ∨ stopOf e ≤ x) : m.writeAll seq x = m x :=
  Mem.writeAll_out (fun w hw => h w hw)

/-- any order, with repetition, of exactly the entries of a good map -/
theorem writeAll_good_eq (m : Mem) (seq w : Writes) (hg : Good w) (hs : ∀ e, e ∈ seq ↔ e ∈ w) :
    m.writeAll seq = m.writeAll w := by
  funext x
  by_cases hc : ∃ e ∈ w, e.1 ≤ x ∧ x < stopOf e
  · obtain ⟨e, he, h1, h2⟩ := hc
    have hlt : x - e.1 < e.2.length := by unfold stopOf at h2; omega
    rw [writeAll_covered m seq w hg (fun e he => (hs e).1 he) x (e.2[x - e.1]) e ((hs e).2 he) h1
        (by simp [hlt]),
      writeAll_covered m w w hg (fun e he => he) x (e.2[x - e.1]) e he h1 (by simp [hlt])]
  · have : ∀ e ∈ w, x < e.1 ∨ stopOf e ≤ x := by
      intro e he
      apply Classical.byContradiction
      intro hcc
      exact hc ⟨e, he, by omega, by omega⟩
    rw [writeAll_uncovered m w x this, writeAll_uncovered m seq x (fun e he => this e ((hs e).1 he))]

theorem insert_semantics (m : Mem) {w : Writes} (h : Good w) (offset : Nat) (data : List Byte) :
    m.writeAll (insert w offset data) = (m.writeAll w).write offset data := by
  by_cases hd : data = []
  · subst hd; simp [insert]
  have hlen : 0 < data.length := List.length_pos_iff.2 hd
  have hg := insert_good h offset data
  obtain ⟨m1, m2⟩ := mem_insert h offset data hd
  funext x
  by_cases hx : offset ≤ x ∧ x < offset + data.length
  · rw [Mem.write_in hx.1 hx.2]
    exact writeAll_covered m _ _ hg (fun e he => he) x _ (offset, data) ((m2 _).2 (.inl rfl)) hx.1
      (by simp [show x - offset < data.length by omega])
  · rw [Mem.write_out (by omega)]
    by_cases hc : ∃ e ∈ insert w offset data, e.1 ≤ x ∧ x < stopOf e
    · obtain ⟨e, he, h1, h2⟩ := hc
      have hlt : x - e.1 < e.2.length := by unfold stopOf at h2; omega
      rcases (m2 e).1 he with rfl | hs
      · unfold stopOf at h2; simp only at h1 h2; omega
      · obtain ⟨o, ho, o1, o2, _, _, o5⟩ := survivor h (by omega) hs
        have hb := o5 (x - e.1) hlt
        rw [show e.1 + (x - e.1) - o.1 = x - o.1 by omega] at hb
        rw [writeAll_covered m _ _ hg (fun e he => he) x (e.2[x - e.1]) e he h1 (by simp [hlt]),
          writeAll_covered m _ _ h (fun e he => he) x (e.2[x - e.1]) o ho (by omega) (by
            rw [← hb]; simp [hlt])]
    · rw [writeAll_uncovered m _ x (fun e he => by
        apply Classical.byContradiction
        intro hcc
        exact hc ⟨e, he, by omega, by omega⟩)]
      rw [writeAll_uncovered m _ x]
      intro e he
      apply Classical.byContradiction
      intro hcc
      have hin : e.1 ≤ x ∧ x < e.1 + e.2.length := by unfold stopOf at hcc; omega
      by_cases hov : Ov offset (offset + data.length) e
      · by_cases hxo : x < offset
        · refine hc ⟨(e.1, e.2.take (offset - e.1)), (m2 _).2 (.inr (.inr ⟨e, he, hov, .inl ⟨by omega, rfl⟩⟩)), hin.1, ?_⟩
          simp only [stopOf, List.length_take]; omega
        · refine hc ⟨(offset + data.length, e.2.drop (offset + data.length - e.1)),
            (m2 _).2 (.inr (.inr ⟨e, he, hov, .inr ⟨by unfold stopOf; omega, rfl⟩⟩)), by simp only; omega, ?_⟩
          unfold Ov at hov
          simp only [stopOf, List.length_drop]; omega
      · exact hc ⟨e, (m2 e).2 (.inr (.inl ⟨he, hov⟩)), by omega, by unfold stopOf; omega⟩

theorem good_nil : Good [] := ⟨by simp, by simp, by simp⟩

theorem mergeAll_spec (ws : List (Nat × List Byte)) :
    Good (mergeAll ws) ∧ ∀ m : Mem, m.writeAll (mergeAll ws) = m.writeAll ws := by
  have key : ∀ (ws done : List (Nat × List Byte)) (w : Writes), Good w →
      (∀ m : Mem, m.writeAll w = m.writeAll done) →
      Good (ws.foldl (fun w e => insert w e.1 e.2) w) ∧
      ∀ m : Mem, m.writeAll (ws.foldl (fun w e => insert w e.1 e.2) w) = m.writeAll (done ++ ws) := by
    intro ws
    induction ws with
    | nil => intro done w hg hm; simpa using ⟨hg, hm⟩
    | cons e ws ih =>
      intro done w hg hm
      have := ih (done ++ [e]) (insert w e.1 e.2) (insert_good hg _ _) (by
        intro m
        rw [insert_semantics m hg, hm, Mem.writeAll_append]
        rfl)
      simpa using this
  simpa [mergeAll] using key ws [] [] good_nil (fun m => rfl)

end Merge
end Blobd
