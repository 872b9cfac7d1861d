import Verif.Spec.ReadWrite
import Verif.Proofs.Layout
import Verif.Proofs.Util
/-! Reading object data. -/
namespace Blobd
namespace RW

def psum (l : List (Nat × Nat)) : Nat := (l.map (fun p => 2 ^ p.2)).sum

@[simp] theorem psum_nil : psum [] = 0 := rfl
@[simp] theorem psum_cons (p : Nat × Nat) (l : List (Nat × Nat)) : psum (p :: l) = 2 ^ p.2 + psum l := rfl
@[simp] theorem psum_append (a b : List (Nat × Nat)) : psum (a ++ b) = psum a + psum b := by
  simp [psum]

theorem length_allBytes (dev : Mem) (pl : List (Nat × Nat)) : (allBytes dev pl).length = psum pl := by
  induction pl with
  | nil => rfl
  | cons p pl ih =>
    rw [psum_cons, ← ih]; simp [allBytes]

theorem allBytes_append (dev : Mem) (a b : List (Nat × Nat)) : allBytes dev (a ++ b) = allBytes dev a ++ allBytes dev b := by
  simp [allBytes]

theorem slice (dev : Mem) (a b : List (Nat × Nat)) (off e x n : Nat) (h1 : psum a ≤ x)
    (h2 : x + n ≤ psum a + 2 ^ e) :
    ((allBytes dev (a ++ (off, e) :: b)).drop x).take n = dev.read (off + (x - psum a)) n := by
  have hs : allBytes dev (a ++ (off, e) :: b) = allBytes dev a ++ (dev.read off (2 ^ e) ++ allBytes dev b) := by
    rw [allBytes_append]; rfl
  rw [hs, List.drop_append, length_allBytes, List.drop_eq_nil_of_le (by rw [length_allBytes]; exact h1),
    List.nil_append, List.drop_append, Mem.read_drop, List.take_append, Mem.length_read]
  rw [Mem.read_take _ _ _ _ (by omega), show n - (2 ^ e - (x - psum a)) = 0 by omega]
  simp

/-- position `x` of the object is in page `idx` -/
def At (pl : List (Nat × Nat)) (idx x : Nat) : Prop :=
  ∃ a off e b, pl = a ++ (off, e) :: b ∧ a.length = idx ∧ psum a ≤ x ∧ x < psum a + 2 ^ e

/-- every page starts at a multiple of its size -/
def Aligned (pl : List (Nat × Nat)) : Prop := ∀ a off e b, pl = a ++ (off, e) :: b → 2 ^ e ∣ psum a

theorem within {s e x : Nat} (hd : 2 ^ e ∣ s) (h1 : s ≤ x) (h2 : x < s + 2 ^ e) : x % 2 ^ e = x - s := by
  obtain ⟨k, rfl⟩ := hd
  have : x = (x - 2 ^ e * k) + 2 ^ e * k := by omega
  rw [this, Nat.add_mul_mod_self_left, Nat.mod_eq_of_lt (by omega)]
  omega

theorem at_next {pl : List (Nat × Nat)} {idx : Nat} {a b : List (Nat × Nat)} {off e : Nat}
    (h : pl = a ++ (off, e) :: b) (hl : a.length = idx) (hx : psum a + 2 ^ e < psum pl) :
    At pl (idx + 1) (psum a + 2 ^ e) := by
  cases b with
  | nil => rw [h] at hx; simp at hx
  | cons p b =>
    obtain ⟨off', e'⟩ := p
    refine ⟨a ++ [(off, e)], off', e', b, by simp [h], by simp [hl], ?_, ?_⟩
    · simp
    · have := Nat.two_pow_pos e'; simp; omega

theorem readLoopLite_spec (pages : Pages) (lay : ObjectLayout) (o : Obj) (dev : Mem) (stop : Nat)
    (pl : List (Nat × Nat)) (hp : ∀ i, pageAt pages lay o i = pl[i]?) (hal : Aligned pl) (hstop : stop ≤ psum pl) :
    ∀ fuel idx next, stop - next < fuel → next ≤ stop → (next < stop → At pl idx next) →
      ∃ cs, readLoopLite pages lay o dev stop fuel idx next = .ret cs ∧
        cs.flatten = ((allBytes dev pl).drop next).take (stop - next) ∧ ∀ c ∈ cs, c ≠ [] := by
  intro fuel
  induction fuel with
  | zero => intro idx next h; omega
  | succ fuel ih =>
    intro idx next hf hns hat
    unfold readLoopLite
    by_cases hlt : next < stop
    · obtain ⟨a, off, e, b, hpl, hlen, h1, h2⟩ := hat hlt
      have hpa : pageAt pages lay o idx = some (off, e) := by rw [hp, hpl, ← hlen]; simp
      have hw := within (hal a off e b hpl) h1 h2
      simp only [hlt, if_true, hpa, modPow2_eq, hw, Nat.one_shiftLeft]
      generalize hc : min (stop - next) (2 ^ e - (next - psum a)) = cl
      have hclpos : 0 < cl := by omega
      obtain ⟨cs, hr, hfl, hne⟩ := ih (idx + 1) (next + cl) (by omega) (by omega) (by
        intro hlt'
        have hcl : next + cl = psum a + 2 ^ e := by omega
        rw [hcl]
        exact at_next hpl hlen (by omega))
      rw [hr]
      refine ⟨_, rfl, ?_, ?_⟩
      · rw [List.flatten_cons, hfl]
        have hsl := slice dev a b off e next cl h1 (by omega)
        rw [← hpl] at hsl
        rw [← hsl, show stop - next = cl + (stop - (next + cl)) by omega, List.take_add, List.drop_drop]
      · intro c hcm
        rcases List.mem_cons.1 hcm with rfl | hcm
        · intro hnil
          have := congrArg List.length hnil
          simp at this; omega
        · exact hne c hcm
    · simp only [hlt, if_false]
      exact ⟨[], rfl, by simp [show stop - next = 0 by omega], by simp⟩

theorem unalignedRead_eq (pages : Pages) (dev : Mem) (offset len : Nat) :
    unalignedRead pages dev offset len = dev.read offset len := by
  unfold unalignedRead unalignedRange
  simp only
  have h1 := floorPow2_le offset pages.spage
  have h2 := le_ceilPow2 (offset + len) pages.spage
  rw [Mem.read_drop, Mem.read_take _ _ _ _ (by omega)]
  congr 1; omega

theorem readLoopDirect_spec (pages : Pages) (lay : ObjectLayout) (o : Obj) (dev : Mem) (bufSize stop : Nat)
    (pl : List (Nat × Nat)) (hp : ∀ i, pageAt pages lay o i = pl[i]?) (hal : Aligned pl) (hstop : stop ≤ psum pl)
    (hb : 0 < bufSize) :
    ∀ fuel idx next, stop - next < fuel → next ≤ stop → (next < stop → At pl idx next) →
      ∃ cs, readLoopDirect pages lay o dev bufSize stop fuel idx next = .ret cs ∧
        cs.flatten = ((allBytes dev pl).drop next).take (stop - next) ∧ ∀ c ∈ cs, c ≠ [] ∧ c.length ≤ bufSize := by
  intro fuel
  induction fuel with
  | zero => intro idx next h; omega
  | succ fuel ih =>
    intro idx next hf hns hat
    unfold readLoopDirect
    by_cases hlt : next < stop
    · obtain ⟨a, off, e, b, hpl, hlen, h1, h2⟩ := hat hlt
      have hpa : pageAt pages lay o idx = some (off, e) := by rw [hp, hpl, ← hlen]; simp
      have hw := within (hal a off e b hpl) h1 h2
      simp only [hlt, if_true, hpa, modPow2_eq, hw, Nat.one_shiftLeft, unalignedRead_eq]
      generalize hc : min (min bufSize (stop - next)) (2 ^ e - (next - psum a)) = cl
      have hclpos : 0 < cl := by omega
      obtain ⟨cs, hr, hfl, hne⟩ := ih (if cl = 2 ^ e - (next - psum a) then idx + 1 else idx) (next + cl)
        (by omega) (by omega) (by
        intro hlt'
        split
        · have hcl : next + cl = psum a + 2 ^ e := by omega
          rw [hcl]
          exact at_next hpl hlen (by omega)
        · exact ⟨a, off, e, b, hpl, hlen, by omega, by omega⟩)
      rw [hr]
      refine ⟨_, rfl, ?_, ?_⟩
      · rw [List.flatten_cons, hfl]
        have hsl := slice dev a b off e next cl h1 (by omega)
        rw [← hpl] at hsl
        rw [← hsl, show stop - next = cl + (stop - (next + cl)) by omega, List.take_add, List.drop_drop]
      · intro c hcm
        rcases List.mem_cons.1 hcm with rfl | hcm
        · refine ⟨?_, by simp; omega⟩
          intro hnil
          have := congrArg List.length hnil
          simp at this; omega
        · exact hne c hcm
    · simp only [hlt, if_false]
      exact ⟨[], rfl, by simp [show stop - next = 0 by omega], by simp⟩

/-! ### The pages of an object -/

theorem objPages_eq {pages : Pages} {lay : ObjectLayout} {o : Obj} {es : List Nat}
    (r : TailPageSizes.Rep lay.tailPageSizes es) :
    objPages pages lay o = (List.range lay.lpageCount).map (fun i => (o.lpageOff i, pages.lpage)) ++
      es.zipIdx.map (fun ei => (o.tailOff ei.2, ei.1)) := by
  rw [objPages, r.toList]

theorem pageAt_eq {pages : Pages} {lay : ObjectLayout} {o : Obj} {es : List Nat}
    (r : TailPageSizes.Rep lay.tailPageSizes es) (i : Nat) :
    pageAt pages lay o i = (objPages pages lay o)[i]? := by
  rw [objPages_eq r, List.getElem?_append]
  unfold pageAt
  simp only [List.length_map, List.length_range]
  split
  · rename_i h
    simp [h]
  · rw [r.len, r.get]
    have := r.hlen
    split
    · rename_i h1 h2
      simp [List.getElem?_zipIdx]
      cases es[i - lay.lpageCount]? <;> simp
    · rename_i h1 h2
      simp only [List.getElem?_map, List.getElem?_zipIdx]
      rw [List.getElem?_eq_none (by omega)]
      rfl

theorem psum_tails (f : Nat → Nat) (es : List Nat) (k : Nat) :
    psum ((es.zipIdx k).map (fun ei => (f ei.2, ei.1))) = (es.map (2 ^ ·)).sum := by
  induction es generalizing k with
  | nil => rfl
  | cons e es ih => simp [List.zipIdx_cons, ih]

theorem psum_lpages (f : Nat → Nat) (l : List Nat) (e : Nat) :
    psum (l.map (fun i => (f i, e))) = l.length * 2 ^ e := by
  induction l with
  | nil => simp
  | cons a l ih => simp [ih, Nat.succ_mul, Nat.add_comm]

theorem pow_dvd_sum {e : Nat} {l : List Nat} (h : ∀ x ∈ l, e ≤ x) : 2 ^ e ∣ (l.map (2 ^ ·)).sum := by
  induction l with
  | nil => simp
  | cons a l ih =>
    simp only [List.map_cons, List.sum_cons]
    exact Nat.dvd_add (Nat.pow_dvd_pow 2 (h a (by simp))) (ih (fun x hx => h x (by simp [hx])))

theorem split_append {α : Type} {x y a b : List α} {p : α} (h : x ++ y = a ++ p :: b) :
    (∃ b', x = a ++ p :: b' ∧ b = b' ++ y) ∨ (∃ a', a = x ++ a' ∧ y = a' ++ p :: b) := by
  rw [List.append_eq_append_iff] at h
  rcases h with ⟨c, h1, h2⟩ | ⟨c, h1, h2⟩
  · exact .inr ⟨c, h1, h2⟩
  · cases c with
    | nil => right; exact ⟨[], by simpa using h1.symm, by simpa using h2.symm⟩
    | cons q c =>
      simp only [List.cons_append, List.cons.injEq] at h2
      obtain ⟨rfl, h2⟩ := h2
      exact .inl ⟨c, h1, h2⟩

theorem objPages_aligned {pages : Pages} {lay : ObjectLayout} {o : Obj} {es : List Nat}
    (r : TailPageSizes.Rep lay.tailPageSizes es) (hs : es.Pairwise (· > ·)) (hle : ∀ e ∈ es, e ≤ pages.lpage) :
    Aligned (objPages pages lay o) := by
  intro a off e b h
  rw [objPages_eq r] at h
  rcases split_append h with ⟨b', h1, _⟩ | ⟨a', h1, h2⟩
  · have ha : ∀ q ∈ a, q.2 = pages.lpage := by
      intro q hq
      have : q ∈ (List.range lay.lpageCount).map (fun i => (o.lpageOff i, pages.lpage)) := by
        rw [h1]; simp [hq]
      simp only [List.mem_map] at this
      obtain ⟨i, _, rfl⟩ := this; rfl
    have he : e = pages.lpage := by
      have : (off, e) ∈ (List.range lay.lpageCount).map (fun i => (o.lpageOff i, pages.lpage)) := by
        rw [h1]; simp
      simp only [List.mem_map, Prod.mk.injEq] at this
      obtain ⟨i, _, _, rfl⟩ := this; rfl
    have : psum a = (a.map Prod.snd |>.map (2 ^ ·)).sum := by simp [psum, Function.comp_def]
    rw [this]
    apply pow_dvd_sum
    intro x hx
    simp only [List.mem_map] at hx
    obtain ⟨q, hq, rfl⟩ := hx
    rw [ha q hq, he]; exact Nat.le_refl _
  · subst h1
    rw [psum_append, psum_lpages]
    have hes : es = a'.map Prod.snd ++ e :: b.map Prod.snd := by
      have := congrArg (List.map Prod.snd) h2
      simp only [List.map_map, List.map_append, List.map_cons] at this
      rw [← this]
      have hc : (Prod.snd ∘ fun (ei : Nat × Nat) => (o.tailOff ei.2, ei.1)) = Prod.fst := rfl
      rw [hc]
      exact (List.zipIdx_map_fst 0 es).symm
    apply Nat.dvd_add
    · exact Nat.dvd_trans (Nat.pow_dvd_pow 2 (hle e (by rw [hes]; simp))) (Nat.dvd_mul_left _ _)
    · have : psum a' = (a'.map Prod.snd |>.map (2 ^ ·)).sum := by simp [psum, Function.comp_def]
      rw [this]
      apply pow_dvd_sum
      intro x hx
      rw [hes, List.pairwise_append] at hs
      exact Nat.le_of_lt (hs.2.2 x hx e (by simp))

/-- everything known about the layout of an object -/
structure LayInfo (pages : Pages) (size : Nat) (lay : ObjectLayout) (es : List Nat) : Prop where
  eq : calcObjectLayout pages size = some lay
  count : lay.lpageCount = size / 2 ^ pages.lpage
  rep : TailPageSizes.Rep lay.tailPageSizes es
  sorted : es.Pairwise (· > ·)
  bounds : ∀ e ∈ es, pages.spage ≤ e ∧ e ≤ pages.lpage
  sum : (es.map (2 ^ ·)).sum = ceilPow2 (size % 2 ^ pages.lpage) pages.spage

theorem layInfo {pages : Pages} (hp : PagesOk pages) (size : Nat) : ∃ lay es, LayInfo pages size lay es := by
  obtain ⟨t, e, r⟩ := calcObjectLayout_eq pages size hp.le hp.lt32 hp.lt24
  have h64 := tailRem_lt64 pages size hp.le (by have := hp.lt32; omega)
  have hle := tailRem_le pages hp.le size
  refine ⟨_, _, e, rfl, r, binExps_sorted _ _, ?_, binExps_sum _ _ h64⟩
  intro e he
  have := binExps_bounds 64 _ pages.spage (ceilPow2_dvd _ _) e he
  exact ⟨this.1, (Nat.pow_le_pow_iff_right (a := 2) (by decide)).1 (Nat.le_trans this.2 hle)⟩

theorem LayInfo.psum_eq {pages : Pages} {size : Nat} {lay : ObjectLayout} {es : List Nat} (h : LayInfo pages size lay es)
    (o : Obj) : RW.psum (objPages pages lay o) =
      size / 2 ^ pages.lpage * 2 ^ pages.lpage + ceilPow2 (size % 2 ^ pages.lpage) pages.spage := by
  rw [objPages_eq h.rep, psum_append, psum_lpages, psum_tails, h.sum, List.length_range, h.count]

theorem LayInfo.size_le {pages : Pages} {size : Nat} {lay : ObjectLayout} {es : List Nat} (h : LayInfo pages size lay es)
    (o : Obj) : size ≤ RW.psum (objPages pages lay o) := by
  rw [h.psum_eq]
  have := le_ceilPow2 (size % 2 ^ pages.lpage) pages.spage
  have := Nat.div_add_mod size (2 ^ pages.lpage)
  rw [Nat.mul_comm] at this
  omega

theorem tailScan_spec (start : Nat) (es : List Nat) : ∀ (accum idx : Nat), accum ≤ start →
    start < accum + (es.map (2 ^ ·)).sum →
    ∃ p e q, es = p ++ e :: q ∧ tailScan start accum idx es = idx + p.length ∧
      accum + (p.map (2 ^ ·)).sum ≤ start ∧ start < accum + (p.map (2 ^ ·)).sum + 2 ^ e := by
  induction es with
  | nil => intro accum idx h1 h2; simp at h2; omega
  | cons e es ih =>
    intro accum idx h1 h2
    unfold tailScan
    simp only [Nat.one_shiftLeft]
    split
    · rename_i h
      exact ⟨[], e, es, rfl, by simp, by simpa using h1, by simpa using h⟩
    · rename_i h
      simp only [List.map_cons, List.sum_cons] at h2
      obtain ⟨p, e', q, h3, h4, h5, h6⟩ := ih (accum + 2 ^ e) (idx + 1) (by omega) (by omega)
      refine ⟨e :: p, e', q, by simp [h3], by rw [h4]; simp; omega, ?_, ?_⟩ <;> simp <;> omega

theorem zipIdx_split {p : List Nat} {e : Nat} {q : List Nat} (f : Nat → Nat) :
    (p ++ e :: q).zipIdx.map (fun ei => (f ei.2, ei.1)) =
      p.zipIdx.map (fun ei => (f ei.2, ei.1)) ++ (f p.length, e) :: (q.zipIdx (p.length + 1)).map (fun ei => (f ei.2, ei.1)) := by
  simp [List.zipIdx_append, List.zipIdx_cons]

theorem LayInfo.startIdx_at {pages : Pages} {size : Nat} {lay : ObjectLayout} {es : List Nat}
    (h : LayInfo pages size lay es) (o : Obj) (start : Nat) (hs : start < size) :
    At (objPages pages lay o) (startIdx pages lay start) start := by
  have hpos := Nat.two_pow_pos pages.lpage
  have hdm := Nat.div_add_mod start (2 ^ pages.lpage)
  have hml := Nat.mod_lt start hpos
  have hmul := Nat.mul_comm (start / 2 ^ pages.lpage) (2 ^ pages.lpage)
  unfold startIdx
  rw [objPages_eq h.rep, h.rep.toList]
  simp only [divPow2_eq]
  split
  · rename_i hge
    have hle : start / 2 ^ pages.lpage ≤ lay.lpageCount := by
      rw [h.count]; exact Nat.div_le_div_right (Nat.le_of_lt hs)
    have hidx : start / 2 ^ pages.lpage = lay.lpageCount := by omega
    have hsz := h.size_le o
    rw [h.psum_eq, ← h.sum, ← h.count, ← hidx] at hsz
    obtain ⟨p, e, q, h3, h4, h5, h6⟩ := tailScan_spec start es (start / 2 ^ pages.lpage * 2 ^ pages.lpage)
      (start / 2 ^ pages.lpage) (by omega) (by omega)
    rw [h4]
    subst h3
    refine ⟨(List.range lay.lpageCount).map (fun i => (o.lpageOff i, pages.lpage)) ++
      p.zipIdx.map (fun ei => (o.tailOff ei.2, ei.1)), o.tailOff p.length, e,
      (q.zipIdx (p.length + 1)).map (fun ei => (o.tailOff ei.2, ei.1)), ?_, ?_, ?_, ?_⟩
    · rw [zipIdx_split]; simp
    · simp [hidx]
    · rw [psum_append, psum_lpages, psum_tails, List.length_range, ← hidx]; exact h5
    · rw [psum_append, psum_lpages, psum_tails, List.length_range, ← hidx]; exact h6
  · rename_i hlt
    have hlt : start / 2 ^ pages.lpage < lay.lpageCount := by omega
    generalize hi : start / 2 ^ pages.lpage = i at *
    have hr : List.range lay.lpageCount = List.range i ++ i :: (List.range' (i + 1) (lay.lpageCount - i - 1)) := by
      rw [List.range_eq_range', List.range_eq_range', show lay.lpageCount = i + (lay.lpageCount - i - 1 + 1) by omega,
        ← List.range'_append_1]
      simp [List.range'_succ]
    rw [hr]
    refine ⟨(List.range i).map (fun j => (o.lpageOff j, pages.lpage)), o.lpageOff i, pages.lpage,
      (List.range' (i + 1) (lay.lpageCount - i - 1)).map (fun j => (o.lpageOff j, pages.lpage)) ++
        es.zipIdx.map (fun ei => (o.tailOff ei.2, ei.1)), by simp, by simp, ?_, ?_⟩
    · rw [psum_lpages, List.length_range]; omega
    · rw [psum_lpages, List.length_range]; omega

end RW
end Blobd
