import Verif.Spec.DirectTuples
import Mathlib.Tactic.Tauto
import Mathlib.Tactic.ByContra
import Mathlib.Data.List.Nodup
namespace Blobd
namespace Direct
open List TS

variable {max n : Nat}

theorem bmMin_some {s : Nat → Bool} {b : Nat} (h : bmMin n s = some b) : b < n ∧ s b = true := by
  unfold bmMin at h
  exact ⟨by simpa using mem_of_find?_eq_some h, find?_some h⟩

theorem bmMin_none {s : Nat → Bool} (h : bmMin n s = none) {b : Nat} (hb : b < n) : s b = false := by
  unfold bmMin at h
  have := find?_eq_none.1 h b (by simpa using hb)
  simpa using this

/-- invariant of the in-memory index -/
structure TInv (max n : Nat) (s : TS) : Prop where
  idx : ∀ x b, s.toBundle x = some b ↔ b < n ∧ ∃ t ∈ s.bundles b, t.id = x
  nodup : ∀ b, b < n → ((s.bundles b).map (·.id)).Nodup
  cap : ∀ b, b < n → (s.bundles b).length ≤ max
  out : ∀ b, n ≤ b → s.bundles b = [] ∧ s.disk b = []
  free : ∀ b, s.free b = true → b < n ∧ (s.bundles b).length < max
  fd : ∀ b, s.freeDirty b = true → b < n ∧ (s.bundles b).length < max ∧ s.dirty b = true
  dirtyLt : ∀ b, s.dirty b = true → b < n
  wait : s.waiting ≠ [] → ∃ b, s.dirty b = true
  batchNodup : ∀ ws sig, s.batch = some (ws, sig) → (ws.map Prod.fst).Nodup ∧ ∀ w ∈ ws, w.1 < n
  clean : ∀ b, b < n → s.dirty b = false →
    (∀ ws sig, s.batch = some (ws, sig) → (∀ ts, (b, ts) ∈ ws → ts = s.bundles b) ∧
      ((∀ ts, (b, ts) ∉ ws) → s.disk b = s.bundles b)) ∧
    (s.batch = none → s.disk b = s.bundles b)

theorem upd_same {β : Type} (f : Nat → β) (i : Nat) (v : β) : upd f i v i = v := by simp [upd]
theorem upd_ne {β : Type} {f : Nat → β} {i j : Nat} {v : β} (h : j ≠ i) : upd f i v j = f j := by simp [upd, h]

theorem TInv.uniq {s : TS} (h : TInv max n s) {b c : Nat} (hb : b < n) (hc : c < n) {t u : Tuple} (ht : t ∈ s.bundles b)
    (hu : u ∈ s.bundles c) (he : t.id = u.id) : b = c ∧ t = u := by
  have h1 := (h.idx t.id b).2 ⟨hb, t, ht, rfl⟩
  have h2 := (h.idx t.id c).2 ⟨hc, u, hu, he.symm⟩
  have hbc : b = c := Option.some.inj (h1.symm.trans h2)
  subst hbc
  refine ⟨rfl, ?_⟩
  exact inj_on_of_nodup_map (h.nodup b hb) ht hu he

theorem new_inv {init : Nat → List Tuple} (h : newOk max n init) : TInv max n (TS.new max n init) := by
  obtain ⟨h1, h2, h3, h4⟩ := h
  have huniq : ∀ b c t u, b < n → c < n → t ∈ init b → u ∈ init c → t.id = u.id → b = c := by
    intro b c t u hb hc ht hu he
    by_contra hne
    exact h4 b c hb hc hne t ht u hu he
  refine ⟨?_, h3, h1, fun b hb => ⟨h2 b hb, h2 b hb⟩, ?_, ?_, ?_, ?_, ?_, ?_⟩
  · intro x b
    simp only [TS.new]
    constructor
    · intro hf
      have := find?_some hf
      have hm := mem_of_find?_eq_some hf
      simp only [any_eq_true, beq_iff_eq] at this
      exact ⟨by simpa using hm, this⟩
    · rintro ⟨hb, t, ht, rfl⟩
      cases hf : (range n).find? (fun b => (init b).any (fun u => u.id == t.id)) with
      | none =>
        have := find?_eq_none.1 hf b (by simpa using hb)
        simp only [any_eq_true, beq_iff_eq, not_exists, not_and] at this
        exact absurd rfl (this t ht)
      | some c =>
        have h5 := find?_some hf
        have hm := mem_of_find?_eq_some hf
        simp only [any_eq_true, beq_iff_eq] at h5
        obtain ⟨u, hu, he⟩ := h5
        rw [huniq c b u t (by simpa using hm) hb hu ht he]
  · intro b hb
    simpa [TS.new] using hb
  · intro b hb; simp [TS.new] at hb
  · intro b hb; simp [TS.new] at hb
  · intro hb; simp [TS.new] at hb
  · intro ws sig hb; simp [TS.new] at hb
  · intro b hb hd
    exact ⟨fun ws sig hb => by simp [TS.new] at hb, fun _ => rfl⟩

/-- a memory operation on bundle `b` -/
theorem TInv.memOp {s s' : TS} (h : TInv max n s) {b : Nat} (hb : b < n) {l : List Tuple}
    (hbun : s'.bundles = upd s.bundles b l) (hidx : ∀ x c, s'.toBundle x = some c ↔ c < n ∧ ∃ t ∈ s'.bundles c, t.id = x)
    (hnd : (l.map (·.id)).Nodup) (hcap : l.length ≤ max)
    (hfree : ∀ c, s'.free c = true → c < n ∧ (s'.bundles c).length < max)
    (hfd : ∀ c, s'.freeDirty c = true → c < n ∧ (s'.bundles c).length < max ∧ s'.dirty c = true)
    (hdirty : s'.dirty = upd s.dirty b true) (hbatch : s'.batch = s.batch) (hdisk : s'.disk = s.disk) : TInv max n s' := by
  refine ⟨hidx, ?_, ?_, ?_, hfree, hfd, ?_, ?_, ?_, ?_⟩
  · intro c hc
    rw [hbun]
    by_cases hcb : c = b
    · subst hcb; rw [upd_same]; exact hnd
    · rw [upd_ne hcb]; exact h.nodup c hc
  · intro c hc
    rw [hbun]
    by_cases hcb : c = b
    · subst hcb; rw [upd_same]; exact hcap
    · rw [upd_ne hcb]; exact h.cap c hc
  · intro c hc
    rw [hbun, hdisk, upd_ne (by omega)]
    exact h.out c hc
  · intro c hc
    rw [hdirty] at hc
    by_cases hcb : c = b
    · subst hcb; exact hb
    · rw [upd_ne hcb] at hc; exact h.dirtyLt c hc
  · intro _; exact ⟨b, by rw [hdirty, upd_same]⟩
  · rw [hbatch]; exact h.batchNodup
  · intro c hc hd
    rw [hdirty] at hd
    have hcb : c ≠ b := by
      intro he; subst he; rw [upd_same] at hd; simp at hd
    rw [upd_ne hcb] at hd
    rw [hbatch, hdisk, hbun, upd_ne hcb]
    exact h.clean c hc hd

theorem insert_eq {s s' : TS} {o : Tuple} (hs : s.insertObject max n o = some s') :
    ∃ b, (bmMin n s.freeDirty).or (bmMin n s.free) = some b ∧ s.toBundle o.id = none ∧
      (∀ t ∈ s.bundles b, t.id ≠ o.id) ∧ (s.bundles b).length + 1 ≤ max ∧
      s' = { s with
        toBundle := upd s.toBundle o.id (some b),
        bundles := upd s.bundles b (s.bundles b ++ [o]),
        freeDirty := upd s.freeDirty b (decide ((s.bundles b ++ [o]).length ≠ max)),
        free := if (s.bundles b ++ [o]).length = max then upd s.free b false else s.free,
        dirty := upd s.dirty b true,
        waiting := s.waiting ++ [s.next],
        next := s.next + 1 } := by
  unfold insertObject at hs
  cases hm : (bmMin n s.freeDirty).or (bmMin n s.free) with
  | none => rw [hm] at hs; simp at hs
  | some b =>
    rw [hm] at hs
    simp only [Option.bind_eq_bind, Option.bind_some] at hs
    split at hs
    · simp at hs
    · rename_i h1
      split at hs
      · simp at hs
      · rename_i h2
        split at hs
        · simp at hs
        · rename_i h3
          refine ⟨b, rfl, by simpa using h1, ?_, ?_, ?_⟩
          · intro t ht he
            exact h2 (any_eq_true.2 ⟨t, ht, by simpa using he⟩)
          · simp only [length_append, length_cons, length_nil] at h3; omega
          · exact (Option.some.inj hs).symm

theorem choose_lt {s : TS} (h : TInv max n s) {b : Nat} (hm : (bmMin n s.freeDirty).or (bmMin n s.free) = some b) :
    b < n ∧ (s.bundles b).length < max ∧ (s.freeDirty b = true ∨ s.free b = true) := by
  cases h1 : bmMin n s.freeDirty with
  | some c =>
    rw [h1] at hm
    simp only [Option.some_or, Option.some.injEq] at hm
    subst hm
    have := bmMin_some h1
    exact ⟨this.1, (h.fd c this.2).2.1, Or.inl this.2⟩
  | none =>
    rw [h1] at hm
    simp only [Option.none_or] at hm
    have := bmMin_some hm
    exact ⟨this.1, (h.free b this.2).2, Or.inr this.2⟩

theorem insert_inv {s s' : TS} {o : Tuple} (h : TInv max n s) (hs : s.insertObject max n o = some s') : TInv max n s' := by
  obtain ⟨b, hm, htb, hne, hlen, rfl⟩ := insert_eq hs
  obtain ⟨hb, hlt, _⟩ := choose_lt h hm
  have hnew : ∀ c t, c < n → t ∈ s.bundles c → t.id ≠ o.id := by
    intro c t hc ht he
    have := (h.idx o.id c).2 ⟨hc, t, ht, he⟩
    rw [htb] at this; simp at this
  refine h.memOp hb (l := s.bundles b ++ [o]) rfl ?_ ?_ ?_ ?_ ?_ rfl rfl rfl
  · intro x c
    simp only
    by_cases hx : x = o.id
    · subst hx
      rw [upd_same]
      constructor
      · intro he
        have : b = c := Option.some.inj he
        subst this
        exact ⟨hb, o, by rw [upd_same]; simp, rfl⟩
      · rintro ⟨hc, t, ht, he⟩
        by_cases hcb : c = b
        · rw [hcb]
        · rw [upd_ne hcb] at ht
          exact absurd he (hnew c t hc ht)
    · rw [upd_ne hx, h.idx]
      by_cases hcb : c = b
      · subst hcb
        rw [upd_same]
        simp only [mem_append, mem_singleton]
        constructor
        · rintro ⟨hc, t, ht, he⟩; exact ⟨hc, t, Or.inl ht, he⟩
        · rintro ⟨hc, t, ht | rfl, he⟩
          · exact ⟨hc, t, ht, he⟩
          · exact absurd he.symm hx
      · rw [upd_ne hcb]
  · rw [map_append, nodup_append]
    refine ⟨h.nodup b hb, by simp, ?_⟩
    intro x hx y hy
    obtain ⟨t, ht, rfl⟩ := mem_map.1 hx
    simp only [map_cons, map_nil, mem_singleton] at hy
    subst hy
    exact hne t ht
  · simp only [length_append, length_cons, length_nil]; omega
  · intro c hc
    simp only at hc ⊢
    have hfc : s.free c = true ∧ ((s.bundles b ++ [o]).length = max → c ≠ b) := by
      split at hc
      · by_cases hcb : c = b
        · subst hcb; rw [upd_same] at hc; simp at hc
        · rw [upd_ne hcb] at hc; exact ⟨hc, fun _ => hcb⟩
      · rename_i hl; exact ⟨hc, fun hh => absurd hh hl⟩
    obtain ⟨hc1, hc2⟩ := h.free c hfc.1
    refine ⟨hc1, ?_⟩
    by_cases hcb : c = b
    · subst hcb
      rw [upd_same]
      have : (s.bundles c ++ [o]).length ≠ max := fun hh => hfc.2 hh rfl
      simp only [length_append, length_cons, length_nil] at this ⊢; omega
    · rw [upd_ne hcb]; exact hc2
  · intro c hc
    simp only at hc ⊢
    by_cases hcb : c = b
    · subst hcb
      rw [upd_same] at hc ⊢
      rw [upd_same]
      have : (s.bundles c ++ [o]).length ≠ max := by simpa using hc
      simp only [length_append, length_cons, length_nil] at this ⊢
      exact ⟨hb, by omega, trivial⟩
    · rw [upd_ne hcb] at hc ⊢
      rw [upd_ne hcb]; exact h.fd c hc

theorem update_eq {s s' : TS} {cur new : Nat} {st : ObjState} (hs : s.updateObject max cur new st = some s') :
    ∃ b t, s.toBundle cur = some b ∧ t ∈ s.bundles b ∧ t.id = cur ∧
      (∀ u ∈ s.bundles b, u.id ≠ cur → u.id ≠ new) ∧ (upd s.toBundle cur none) new = none ∧
      s' = { s with
        toBundle := upd (upd s.toBundle cur none) new (some b),
        bundles := upd s.bundles b ((s.bundles b).filter (fun t : Tuple => t.id != cur) ++ [{ t with id := new, state := st }]),
        freeDirty := if (s.bundles b).length < max then upd s.freeDirty b true else s.freeDirty,
        dirty := upd s.dirty b true,
        waiting := s.waiting ++ [s.next],
        next := s.next + 1 } := by
  unfold updateObject at hs
  cases hm : s.toBundle cur with
  | none => rw [hm] at hs; simp at hs
  | some b =>
    rw [hm] at hs
    simp only [Option.bind_eq_bind, Option.bind_some] at hs
    cases hf : (s.bundles b).find? (fun t => t.id == cur) with
    | none => rw [hf] at hs; simp at hs
    | some t =>
      rw [hf] at hs
      simp only [Option.bind_some] at hs
      split at hs
      · simp at hs
      · rename_i h1
        split at hs
        · simp at hs
        · rename_i h2
          refine ⟨b, t, rfl, mem_of_find?_eq_some hf, by simpa using find?_some hf, ?_, by simpa using h2,
            (Option.some.inj hs).symm⟩
          intro u hu hne he
          exact h1 (any_eq_true.2 ⟨u, mem_filter.2 ⟨hu, by simpa using hne⟩, by simpa using he⟩)

theorem length_filter_id {l : List Tuple} {t : Tuple} (hnd : (l.map (·.id)).Nodup) (ht : t ∈ l) :
    (l.filter (fun u => u.id != t.id)).length + 1 = l.length := by
  induction l with
  | nil => simp at ht
  | cons a l ih =>
    simp only [map_cons, nodup_cons] at hnd
    by_cases ha : a.id = t.id
    · have hrest : l.filter (fun u => u.id != t.id) = l := by
        apply filter_eq_self.2
        intro u hu
        simp only [bne_iff_ne, ne_eq]
        intro he
        exact hnd.1 (mem_map.2 ⟨u, hu, he.trans ha.symm⟩)
      rw [filter_cons_of_neg (by simp [ha]), hrest]; rfl
    · have htl : t ∈ l := by
        rcases mem_cons.1 ht with rfl | h
        · exact absurd rfl ha
        · exact h
      rw [filter_cons_of_pos (by simpa using ha), length_cons, length_cons, ih hnd.2 htl]

theorem nodup_filter_ids {l : List Tuple} (p : Tuple → Bool) (h : (l.map (·.id)).Nodup) : ((l.filter p).map (·.id)).Nodup :=
  h.sublist (filter_sublist.map _)

theorem update_inv {s s' : TS} {cur new : Nat} {st : ObjState} (h : TInv max n s)
    (hs : s.updateObject max cur new st = some s') : TInv max n s' := by
  obtain ⟨b, t, htb, ht, htid, hne, hnew, rfl⟩ := update_eq hs
  obtain ⟨hb, _⟩ := (h.idx cur b).1 htb
  have hlen : ((s.bundles b).filter (fun t : Tuple => t.id != cur) ++ [{ t with id := new, state := st }]).length = (s.bundles b).length := by
    have := length_filter_id (h.nodup b hb) ht
    rw [htid] at this
    simp only [length_append, length_cons, length_nil]; omega
  have hnew' : ∀ c u, c < n → u ∈ s.bundles c → u.id ≠ cur → u.id ≠ new := by
    intro c u hc hu h1 he
    have h2 := (h.idx u.id c).2 ⟨hc, u, hu, rfl⟩
    rw [← he, upd_ne h1, h2] at hnew
    simp at hnew
  refine h.memOp hb (l := (s.bundles b).filter (fun t : Tuple => t.id != cur) ++ [{ t with id := new, state := st }]) rfl ?_ ?_ ?_ ?_ ?_ rfl rfl rfl
  · intro x c
    simp only
    by_cases hx : x = new
    · subst hx
      rw [upd_same]
      constructor
      · intro he
        have : b = c := Option.some.inj he
        subst this
        exact ⟨hb, { t with id := x, state := st }, by rw [upd_same]; simp, rfl⟩
      · rintro ⟨hc, u, hu, he⟩
        by_cases hcb : c = b
        · rw [hcb]
        · rw [upd_ne hcb] at hu
          exfalso
          by_cases huc : u.id = cur
          · have := (h.uniq hc hb hu ht (huc.trans htid.symm)).1
            exact hcb this
          · exact hnew' c u hc hu huc he
    · rw [upd_ne hx]
      by_cases hxc : x = cur
      · subst hxc
        rw [upd_same]
        simp only [reduceCtorEq, false_iff, not_and, not_exists]
        intro hc u hu he
        by_cases hcb : c = b
        · subst hcb
          rw [upd_same] at hu
          rcases mem_append.1 hu with hu | hu
          · simp [he] at hu
          · simp only [mem_singleton] at hu
            subst hu
            exact hx he.symm
        · rw [upd_ne hcb] at hu
          exact hcb (h.uniq hc hb hu ht (he.trans htid.symm)).1
      · rw [upd_ne hxc, h.idx]
        by_cases hcb : c = b
        · subst hcb
          rw [upd_same]
          constructor
          · rintro ⟨hc, u, hu, he⟩
            exact ⟨hc, u, mem_append.2 (Or.inl (mem_filter.2 ⟨hu, by simpa [he] using hxc⟩)), he⟩
          · rintro ⟨hc, u, hu, he⟩
            rcases mem_append.1 hu with hu | hu
            · exact ⟨hc, u, (mem_filter.1 hu).1, he⟩
            · simp only [mem_singleton] at hu
              subst hu
              exact absurd he.symm hx
        · rw [upd_ne hcb]
  · rw [map_append, nodup_append]
    refine ⟨nodup_filter_ids _ (h.nodup b hb), by simp, ?_⟩
    intro x hx y hy
    obtain ⟨u, hu, rfl⟩ := mem_map.1 hx
    simp only [map_cons, map_nil, mem_singleton] at hy
    subst hy
    obtain ⟨hu, hp⟩ := mem_filter.1 hu
    exact hne u hu (by simpa using hp)
  · rw [hlen]; exact h.cap b hb
  · intro c hc
    simp only at hc ⊢
    obtain ⟨h1, h2⟩ := h.free c hc
    refine ⟨h1, ?_⟩
    by_cases hcb : c = b
    · subst hcb; rw [upd_same, hlen]; exact h2
    · rw [upd_ne hcb]; exact h2
  · intro c hc
    simp only at hc ⊢
    by_cases hcb : c = b
    · subst hcb
      rw [upd_same, upd_same, hlen]
      refine ⟨hb, ?_, rfl⟩
      split at hc
      · assumption
      · exact (h.fd c hc).2.1
    · rw [upd_ne hcb, upd_ne hcb]
      split at hc
      · rw [upd_ne hcb] at hc; exact h.fd c hc
      · exact h.fd c hc

theorem delete_eq {s s' : TS} {id : Nat} {t : Tuple} (hs : s.deleteObject id = some (s', t)) :
    ∃ b, s.toBundle id = some b ∧ t ∈ s.bundles b ∧ t.id = id ∧
      s' = { s with
        toBundle := upd s.toBundle id none,
        bundles := upd s.bundles b ((s.bundles b).filter (fun t => t.id != id)),
        freeDirty := upd s.freeDirty b true,
        dirty := upd s.dirty b true,
        waiting := s.waiting ++ [s.next],
        next := s.next + 1 } := by
  unfold deleteObject at hs
  cases hm : s.toBundle id with
  | none => rw [hm] at hs; simp at hs
  | some b =>
    rw [hm] at hs
    simp only [Option.bind_eq_bind, Option.bind_some] at hs
    cases hf : (s.bundles b).find? (fun t => t.id == id) with
    | none => rw [hf] at hs; simp at hs
    | some u =>
      rw [hf] at hs
      simp only [Option.bind_some, Option.some.injEq, Prod.mk.injEq] at hs
      obtain ⟨h1, rfl⟩ := hs
      exact ⟨b, rfl, mem_of_find?_eq_some hf, by simpa using find?_some hf, h1.symm⟩

theorem delete_inv {s s' : TS} {id : Nat} {t : Tuple} (h : TInv max n s) (hs : s.deleteObject id = some (s', t)) : TInv max n s' := by
  obtain ⟨b, htb, ht, htid, rfl⟩ := delete_eq hs
  obtain ⟨hb, _⟩ := (h.idx id b).1 htb
  have hlen := length_filter_id (h.nodup b hb) ht
  rw [htid] at hlen
  have hcap := h.cap b hb
  refine h.memOp hb (l := (s.bundles b).filter (fun t => t.id != id)) rfl ?_ (nodup_filter_ids _ (h.nodup b hb)) (by omega) ?_ ?_ rfl rfl rfl
  · intro x c
    simp only
    by_cases hx : x = id
    · subst hx
      rw [upd_same]
      simp only [reduceCtorEq, false_iff, not_and, not_exists]
      intro hc u hu he
      by_cases hcb : c = b
      · subst hcb
        rw [upd_same] at hu
        simp [he] at hu
      · rw [upd_ne hcb] at hu
        exact hcb (h.uniq hc hb hu ht (he.trans htid.symm)).1
    · rw [upd_ne hx, h.idx]
      by_cases hcb : c = b
      · subst hcb
        rw [upd_same]
        constructor
        · rintro ⟨hc, u, hu, he⟩
          exact ⟨hc, u, mem_filter.2 ⟨hu, by simpa [he] using hx⟩, he⟩
        · rintro ⟨hc, u, hu, he⟩
          exact ⟨hc, u, (mem_filter.1 hu).1, he⟩
      · rw [upd_ne hcb]
  · intro c hc
    simp only at hc ⊢
    obtain ⟨h1, h2⟩ := h.free c hc
    refine ⟨h1, ?_⟩
    by_cases hcb : c = b
    · subst hcb; rw [upd_same]; omega
    · rw [upd_ne hcb]; exact h2
  · intro c hc
    simp only at hc ⊢
    by_cases hcb : c = b
    · subst hcb
      rw [upd_same, upd_same]
      exact ⟨hb, by omega, rfl⟩
    · rw [upd_ne hcb] at hc ⊢
      rw [upd_ne hcb]; exact h.fd c hc

theorem snapshot_inv {s : TS} (h : TInv max n s) (hb : s.batch = none) : TInv max n (s.snapshot n) := by
  have hbt : ∀ ws sig, (s.snapshot n).batch = some (ws, sig) →
      ws = ((range n).filter s.dirty).map (fun b => (b, s.bundles b)) := by
    intro ws sig hh
    simp only [snapshot] at hh
    split at hh
    · simp at hh
    · injection hh with hh
      exact (congrArg Prod.fst hh).symm
  refine ⟨h.idx, h.nodup, h.cap, h.out, h.free, ?_, ?_, ?_, ?_, ?_⟩
  · intro b hb; simp [snapshot] at hb
  · intro b hb; simp [snapshot] at hb
  · intro hb; simp [snapshot] at hb
  · intro ws sig hh
    rw [hbt ws sig hh]
    constructor
    · rw [map_map]
      have : (Prod.fst ∘ fun b => (b, s.bundles b)) = id := rfl
      rw [this, map_id]
      exact nodup_range.filter _
    · intro w hw
      obtain ⟨b, hbm, rfl⟩ := mem_map.1 hw
      simpa using (mem_filter.1 hbm).1
  · intro b hbn _
    constructor
    · intro ws sig hh
      rw [hbt ws sig hh]
      constructor
      · intro ts hts
        obtain ⟨c, _, hc⟩ := mem_map.1 hts
        injection hc with h1 h2
        subst h1
        exact h2.symm
      · intro hnot
        have hd : s.dirty b = false := by
          by_contra hc
          refine hnot (s.bundles b) (mem_map.2 ⟨b, mem_filter.2 ⟨by simpa using hbn, by simpa using hc⟩, rfl⟩)
        exact (h.clean b hbn hd).2 hb
    · intro hh
      have hd : s.dirty b = false := by
        by_contra hc
        have : b ∈ (range n).filter s.dirty := mem_filter.2 ⟨by simpa using hbn, by simpa using hc⟩
        simp only [snapshot] at hh
        split at hh
        · rename_i he
          rw [List.isEmpty_iff, map_eq_nil_iff] at he
          rw [he] at this
          simp at this
        · simp at hh
      exact (h.clean b hbn hd).2 hb

theorem writePage_eq {s s' : TS} {i : Nat} (hs : s.writePage i = some s') :
    ∃ ws sig b ts, s.batch = some (ws, sig) ∧ ws[i]? = some (b, ts) ∧
      s' = { s with batch := some (ws.eraseIdx i, sig), disk := upd s.disk b ts } := by
  unfold writePage at hs
  split at hs
  · simp at hs
  · rename_i ws sig hb
    split at hs
    · simp at hs
    · rename_i b ts hw
      exact ⟨ws, sig, b, ts, hb, hw, (Option.some.inj hs).symm⟩

theorem mem_eraseIdx_iff_ne {ws : List (Nat × List Tuple)} (hnd : (ws.map Prod.fst).Nodup) {i b : Nat} {ts : List Tuple}
    (hw : ws[i]? = some (b, ts)) (w : Nat × List Tuple) : w ∈ ws.eraseIdx i ↔ w ∈ ws ∧ w.1 ≠ b := by
  obtain ⟨hi, he⟩ := List.getElem?_eq_some_iff.1 hw
  constructor
  · intro h
    refine ⟨mem_of_mem_eraseIdx h, ?_⟩
    obtain ⟨j, hj, hji, hwj⟩ := mem_eraseIdx_iff_getElem.1 h
    intro hb
    have := (nodup_iff_injective_getElem.1 hnd)
    have h2 : (ws.map Prod.fst)[j]'(by simpa using hj) = (ws.map Prod.fst)[i]'(by simpa using hi) := by
      simp only [getElem_map, hwj, he, hb]
    have := @this ⟨j, by simpa using hj⟩ ⟨i, by simpa using hi⟩ h2
    simp only [Fin.mk.injEq] at this
    exact hji this
  · rintro ⟨h, hb⟩
    obtain ⟨j, hj, hwj⟩ := getElem_of_mem h
    refine mem_eraseIdx_iff_getElem.2 ⟨j, hj, ?_, hwj⟩
    intro hji
    subst hji
    rw [he] at hwj
    subst hwj
    exact hb rfl

theorem writePage_inv {s s' : TS} {i : Nat} (h : TInv max n s) (hs : s.writePage i = some s') : TInv max n s' := by
  obtain ⟨ws, sig, b, ts, hbt, hw, rfl⟩ := writePage_eq hs
  obtain ⟨hnd, hlt⟩ := h.batchNodup ws sig hbt
  have hbn : b < n := hlt (b, ts) (mem_of_getElem? hw)
  have hmem := mem_eraseIdx_iff_ne hnd hw
  refine ⟨h.idx, h.nodup, h.cap, ?_, h.free, h.fd, h.dirtyLt, h.wait, ?_, ?_⟩
  · intro c hc
    simp only
    rw [upd_ne (by omega)]
    exact h.out c hc
  · intro ws' sig' hh
    simp only [Option.some.injEq, Prod.mk.injEq] at hh
    obtain ⟨rfl, rfl⟩ := hh
    refine ⟨hnd.sublist ((eraseIdx_sublist _ _).map _), fun w hw' => hlt w ((hmem w).1 hw').1⟩
  · intro c hc hd
    refine ⟨?_, fun hh => by simp at hh⟩
    intro ws' sig' hh
    simp only [Option.some.injEq, Prod.mk.injEq] at hh
    obtain ⟨rfl, rfl⟩ := hh
    obtain ⟨h1, h2⟩ := (h.clean c hc hd).1 ws sig hbt
    refine ⟨fun ts' hts => h1 ts' ((hmem _).1 hts).1, fun hnot => ?_⟩
    simp only
    by_cases hcb : c = b
    · subst hcb
      rw [upd_same]
      exact h1 ts (mem_of_getElem? hw)
    · rw [upd_ne hcb]
      exact h2 (fun ts' hts => hnot ts' ((hmem _).2 ⟨hts, hcb⟩))

theorem signal_eq {s s' : TS} (hs : s.signal = some s') :
    ∃ sig, s.batch = some ([], sig) ∧ s' = { s with batch := none, fired := s.fired ++ sig } := by
  unfold signal at hs
  split at hs
  · rename_i sig hb; exact ⟨sig, hb, (Option.some.inj hs).symm⟩
  · simp at hs

theorem signal_inv {s s' : TS} (h : TInv max n s) (hs : s.signal = some s') : TInv max n s' := by
  obtain ⟨sig, hb, rfl⟩ := signal_eq hs
  refine ⟨h.idx, h.nodup, h.cap, h.out, h.free, h.fd, h.dirtyLt, h.wait, fun ws sig hh => by simp at hh, ?_⟩
  intro c hc hd
  refine ⟨fun ws sig hh => by simp at hh, fun _ => ((h.clean c hc hd).1 [] sig hb).2 (by simp)⟩

theorem bg_inv {s s' : TS} (h : TInv max n s) (hs : BgStep n s s') : TInv max n s' := by
  cases hs with
  | snapshot hb => exact snapshot_inv h hb
  | write i hw => exact writePage_inv h hw
  | signal hw => exact signal_inv h hw

theorem step_inv {s s' : TS} (h : TInv max n s) (hs : Step max n s s') : TInv max n s' := by
  cases hs with
  | insert o hs => exact insert_inv h hs
  | update c nw st hs => exact update_inv h hs
  | delete id t hs => exact delete_inv h hs
  | bg hs => exact bg_inv h hs

theorem treach_inv {s : TS} {L : Live} (h : TReach max n s L) : TInv max n s := by
  induction h with
  | init i hi L hL => exact new_inv hi
  | insert _ o hs ih => exact insert_inv ih hs
  | update _ c nw st hs ih => exact update_inv ih hs
  | delete _ id t hs ih => exact delete_inv ih hs
  | bg _ hs ih => exact bg_inv ih hs

theorem bg_bundles {s s' : TS} (hs : BgStep n s s') : s'.bundles = s.bundles ∧ s'.toBundle = s.toBundle ∧ s'.free = s.free := by
  cases hs with
  | snapshot hb => exact ⟨rfl, rfl, rfl⟩
  | write i hw => obtain ⟨_, _, _, _, _, _, rfl⟩ := writePage_eq hw; exact ⟨rfl, rfl, rfl⟩
  | signal hw => obtain ⟨_, _, rfl⟩ := signal_eq hw; exact ⟨rfl, rfl, rfl⟩

/-- the abstract map is what the bundles hold -/
theorem treach_live {s : TS} {L : Live} (h : TReach max n s L) :
    ∀ x t, L x = some t ↔ t.id = x ∧ ∃ b, b < n ∧ t ∈ s.bundles b := by
  induction h with
  | init i hi L hL => exact hL
  | bg _ hs ih => intro x t; rw [ih, (bg_bundles hs).1]
  | @insert s s' L hr o hs ih =>
    have hi := treach_inv hr
    obtain ⟨b, hm, htb, hne, hlen, rfl⟩ := insert_eq hs
    obtain ⟨hb, _, _⟩ := choose_lt hi hm
    intro x t
    simp only
    by_cases hx : x = o.id
    · subst hx
      rw [upd_same]
      constructor
      · intro he
        have : o = t := Option.some.inj he
        subst this
        exact ⟨rfl, b, hb, by rw [upd_same]; simp⟩
      · rintro ⟨he, c, hc, ht⟩
        have hold : ∀ c, c < n → t ∈ s.bundles c → False := by
          intro c hc ht
          have := (hi.idx o.id c).2 ⟨hc, t, ht, he⟩
          rw [htb] at this; simp at this
        by_cases hcb : c = b
        · subst hcb
          rw [upd_same] at ht
          rcases mem_append.1 ht with ht | ht
          · exact (hold _ hc ht).elim
          · simp only [mem_singleton] at ht; rw [ht]
        · rw [upd_ne hcb] at ht
          exact (hold c hc ht).elim
    · rw [upd_ne hx, ih]
      refine and_congr_right (fun he => exists_congr (fun c => and_congr_right (fun hc => ?_)))
      by_cases hcb : c = b
      · subst hcb
        rw [upd_same]
        simp only [mem_append, mem_singleton]
        constructor
        · exact Or.inl
        · rintro (h | rfl)
          · exact h
          · exact absurd he.symm hx
      · rw [upd_ne hcb]
  | @delete s s' L hr id t0 hs ih =>
    have hi := treach_inv hr
    obtain ⟨b, htb, ht, htid, rfl⟩ := delete_eq hs
    obtain ⟨hb, _⟩ := (hi.idx id b).1 htb
    intro x t
    simp only
    by_cases hx : x = id
    · subst hx
      rw [upd_same]
      simp only [reduceCtorEq, false_iff, not_and, not_exists]
      intro he c hc htc
      by_cases hcb : c = b
      · subst hcb; rw [upd_same] at htc; simp [he] at htc
      · rw [upd_ne hcb] at htc
        exact hcb (hi.uniq hc hb htc ht (he.trans htid.symm)).1
    · rw [upd_ne hx, ih]
      refine and_congr_right (fun he => exists_congr (fun c => and_congr_right (fun hc => ?_)))
      by_cases hcb : c = b
      · subst hcb
        rw [upd_same, mem_filter]
        have : (t.id != id) = true := by simpa [he] using hx
        simp [this]
      · rw [upd_ne hcb]
  | @update s s' L hr cur new st hs ih =>
    have hi := treach_inv hr
    obtain ⟨b, t0, htb, ht, htid, hne, hnew, rfl⟩ := update_eq hs
    obtain ⟨hb, _⟩ := (hi.idx cur b).1 htb
    have hL : L cur = some t0 := (ih cur t0).2 ⟨htid, b, hb, ht⟩
    have hnew' : ∀ c u, c < n → u ∈ s.bundles c → u.id ≠ cur → u.id ≠ new := by
      intro c u hc hu h1 he
      have h2 := (hi.idx u.id c).2 ⟨hc, u, hu, rfl⟩
      rw [← he, upd_ne h1, h2] at hnew
      simp at hnew
    intro x t
    simp only
    by_cases hx : x = new
    · subst hx
      rw [upd_same, hL]
      simp only [Option.map_some, Option.some.injEq]
      constructor
      · rintro rfl
        exact ⟨rfl, b, hb, by rw [upd_same]; simp⟩
      · rintro ⟨he, c, hc, htc⟩
        have hold : t ∈ s.bundles c → t.id ≠ cur → False := fun h1 h2 => hnew' c t hc h1 h2 he
        by_cases hcb : c = b
        · subst hcb
          rw [upd_same] at htc
          rcases mem_append.1 htc with h1 | h1
          · obtain ⟨h1, h2⟩ := mem_filter.1 h1
            exact (hold h1 (by simpa using h2)).elim
          · simp only [mem_singleton] at h1; exact h1.symm
        · rw [upd_ne hcb] at htc
          by_cases htcur : t.id = cur
          · exact absurd (hi.uniq hc hb htc ht (htcur.trans htid.symm)).1 hcb
          · exact (hold htc htcur).elim
    · rw [upd_ne hx]
      by_cases hxc : x = cur
      · subst hxc
        rw [upd_same]
        simp only [reduceCtorEq, false_iff, not_and, not_exists]
        intro he c hc htc
        by_cases hcb : c = b
        · subst hcb
          rw [upd_same] at htc
          rcases mem_append.1 htc with h1 | h1
          · simp [he] at h1
          · simp only [mem_singleton] at h1
            subst h1
            exact hx he.symm
        · rw [upd_ne hcb] at htc
          exact hcb (hi.uniq hc hb htc ht (he.trans htid.symm)).1
      · rw [upd_ne hxc, ih]
        refine and_congr_right (fun he => exists_congr (fun c => and_congr_right (fun hc => ?_)))
        by_cases hcb : c = b
        · subst hcb
          rw [upd_same, mem_append, mem_filter]
          constructor
          · intro h1; exact Or.inl ⟨h1, by simpa [he] using hxc⟩
          · rintro (h1 | h1)
            · exact h1.1
            · simp only [mem_singleton] at h1
              subst h1
              exact absurd he.symm hx
        · rw [upd_ne hcb]

end Direct
end Blobd
