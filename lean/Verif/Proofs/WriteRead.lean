import Verif.Proofs.Write
/-! Write targets match the pages of the part; writing then reading. -/
namespace Blobd
namespace RW

/-- targets (amount, offset) over pages (offset, exponent): full pages, the last possibly shorter -/
inductive Fit : List (Nat × Nat) → List (Nat × Nat) → Prop
  | nil : Fit [] []
  | last {amt off e : Nat} (h0 : 0 < amt) (h : amt ≤ 2 ^ e) : Fit [(amt, off)] [(off, e)]
  | cons {off e : Nat} {ts pp : List (Nat × Nat)} : Fit ts pp → Fit ((2 ^ e, off) :: ts) ((off, e) :: pp)

theorem Fit.pos {ts pp : List (Nat × Nat)} (h : Fit ts pp) : ∀ t ∈ ts, 0 < t.1 := by
  induction h with
  | nil => simp
  | last h0 _ => simpa using h0
  | cons _ ih =>
    intro t ht
    rcases List.mem_cons.1 ht with rfl | ht
    · exact Nat.two_pow_pos _
    · exact ih t ht

theorem Fit.page {ts pp : List (Nat × Nat)} (h : Fit ts pp) : ∀ t ∈ ts, ∃ e, (t.2, e) ∈ pp ∧ t.1 ≤ 2 ^ e := by
  induction h with
  | nil => simp
  | @last amt off e h0 h => intro t ht; simp at ht; subst ht; exact ⟨e, by simp, h⟩
  | @cons off e ts pp _ ih =>
    intro t ht
    rcases List.mem_cons.1 ht with rfl | ht
    · exact ⟨e, by simp, Nat.le_refl _⟩
    · obtain ⟨e', h1, h2⟩ := ih t ht
      exact ⟨e', by simp [h1], h2⟩

theorem Fit.sum_le {ts pp : List (Nat × Nat)} (h : Fit ts pp) : amtSum ts ≤ psum pp := by
  induction h with
  | nil => simp
  | last _ h => simpa using h
  | cons _ ih => simp only [amtSum_cons, psum_cons]; omega

/-- what a device block for one page must satisfy: it starts with the data and stays inside any page
the data fits in (of at least the small page size) -/
structure BlockOk (spage : Nat) (block : List Byte → List Byte) : Prop where
  pre : ∀ d, ∃ pad, block d = d ++ pad
  len : ∀ d e, spage ≤ e → d.length ≤ 2 ^ e → (block d).length ≤ 2 ^ e

theorem blockLite_ok (spage : Nat) : BlockOk spage blockLite := ⟨fun d => ⟨[], by simp [blockLite]⟩, fun _ _ _ h => h⟩

theorem blockDirect_ok (pages : Pages) (junk : Nat → Byte) : BlockOk pages.spage (blockDirect pages junk) := by
  refine ⟨fun d => ⟨_, rfl⟩, ?_⟩
  intro d e he hd
  unfold blockDirect
  simp only [List.length_append, List.length_map, List.length_range]
  have h1 : ceilPow2 d.length pages.spage ≤ 2 ^ e := ceilPow2_le_of_dvd (Nat.pow_dvd_pow 2 he) hd
  have h2 : 2 ^ pages.spage ≤ 2 ^ e := Nat.pow_le_pow_right (by decide) he
  omega

theorem pieces_range {block : List Byte → List Byte} {spage : Nat} (hb : BlockOk spage block)
    {ts pp : List (Nat × Nat)} (h : Fit ts pp) (hs : ∀ p ∈ pp, spage ≤ p.2) (d : List Byte) (w : Nat × List Byte)
    (hw : w ∈ pieces block ts d) : ∃ e, (w.1, e) ∈ pp ∧ w.2.length ≤ 2 ^ e := by
  induction h generalizing d with
  | nil => cases hw
  | @last amt off e h0 hle =>
    simp only [pieces, List.mem_singleton] at hw
    subst hw
    exact ⟨e, by simp, hb.len _ _ (hs (off, e) (by simp)) (by rw [List.length_take]; omega)⟩
  | @cons off e ts pp _ ih =>
    simp only [pieces, List.mem_cons] at hw
    rcases hw with rfl | hw
    · exact ⟨e, by simp, hb.len _ _ (hs (off, e) (by simp)) (by rw [List.length_take]; omega)⟩
    · obtain ⟨e', h1, h2⟩ := ih (fun p hp => hs p (by simp [hp])) _ hw
      exact ⟨e', by simp [h1], h2⟩

theorem allBytes_congr {m m' : Mem} {pl : List (Nat × Nat)} (h : ∀ p ∈ pl, ∀ x, InPage p x → m x = m' x) :
    allBytes m pl = allBytes m' pl := by
  induction pl with
  | nil => rfl
  | cons p pl ih =>
    have h1 : m.read p.1 (2 ^ p.2) = m'.read p.1 (2 ^ p.2) :=
      Mem.read_congr (fun x hx1 hx2 => h p (by simp) x ⟨hx1, hx2⟩)
    have h2 := ih (fun p hp => h p (by simp [hp]))
    unfold allBytes at *
    simp [h1, h2]

theorem pieces_write {block : List Byte → List Byte} {spage : Nat} (hb : BlockOk spage block)
    {ts pp : List (Nat × Nat)} (h : Fit ts pp) (hs : ∀ p ∈ pp, spage ≤ p.2) (hap : pp.Pairwise PagesApart)
    (m : Mem) (d : List Byte) (hd : d.length = amtSum ts) :
    (allBytes (m.writeAll (pieces block ts d)) pp).take d.length = d := by
  induction h generalizing m d with
  | nil =>
    simp at hd
    subst hd; rfl
  | @last amt off e h0 hle =>
    simp at hd
    have e1 : m.writeAll (pieces block [(amt, off)] d) = m.write off (block (d.take amt)) := rfl
    simp only [e1, allBytes, List.flatMap_cons, List.flatMap_nil, List.append_nil]
    rw [List.take_of_length_le (l := d) (by omega), Mem.read_take _ _ _ _ (by omega)]
    obtain ⟨pad, hpad⟩ := hb.pre d
    rw [hpad]
    have := Mem.read_write_sub m off (d ++ pad) 0 d.length (by simp)
    simpa using this
  | @cons off e ts pp hf ih =>
    rw [List.pairwise_cons] at hap
    simp only [amtSum_cons] at hd
    simp only [pieces, Mem.writeAll_cons]
    have hpage : ((m.write off (block (d.take (2 ^ e)))).writeAll (pieces block ts (d.drop (2 ^ e)))).read off (2 ^ e) =
        d.take (2 ^ e) := by
      rw [Mem.read_writeAll_disj]
      · obtain ⟨pad, hpad⟩ := hb.pre (d.take (2 ^ e))
        rw [hpad]
        have hl : (d.take (2 ^ e)).length = 2 ^ e := by rw [List.length_take]; omega
        have := Mem.read_write_sub m off (d.take (2 ^ e) ++ pad) 0 (2 ^ e) (by rw [List.length_append, hl]; omega)
        rw [Nat.add_zero, List.drop_zero, List.take_append_of_le_length (by omega),
          List.take_of_length_le (l := d.take (2 ^ e)) (by omega)] at this
        exact this
      · intro w hw
        obtain ⟨e', h1, h2⟩ := pieces_range hb hf (fun p hp => hs p (by simp [hp])) _ w hw
        have := hap.1 _ h1
        unfold PagesApart at this
        simp only at this
        omega
    have hrest := ih (fun p hp => hs p (by simp [hp])) hap.2 (m.write off (block (d.take (2 ^ e)))) (d.drop (2 ^ e))
      (by rw [List.length_drop]; omega)
    unfold allBytes at hrest ⊢
    rw [List.flatMap_cons, hpage, List.take_append, List.length_take, List.take_of_length_le (by rw [List.length_take]; omega)]
    rw [show min (2 ^ e) d.length = 2 ^ e by omega, ← List.length_drop, hrest, List.take_append_drop]

/-! ### Targets of a write -/

theorem modifyLast_append {α : Type} (f : α → α) (l : List α) (a : α) : modifyLast f (l ++ [a]) = l ++ [f a] := by
  induction l with
  | nil => rfl
  | cons b l ih =>
    cases l with
    | nil => rfl
    | cons c l => simpa [modifyLast] using ih

theorem fit_map (f : Nat → Nat) (es : List Nat) (k : Nat) (ts pp : List (Nat × Nat)) (h : Fit ts pp) :
    Fit ((es.zipIdx k).map (fun ei => (2 ^ ei.1, f ei.2)) ++ ts) ((es.zipIdx k).map (fun ei => (f ei.2, ei.1)) ++ pp) := by
  induction es generalizing k with
  | nil => simpa using h
  | cons e es ih =>
    simp only [List.zipIdx_cons, List.map_cons, List.cons_append]
    exact .cons (ih (k + 1))

theorem amtSum_map (f : Nat → Nat) (es : List Nat) (k : Nat) :
    amtSum ((es.zipIdx k).map (fun ei => (2 ^ ei.1, f ei.2))) = (es.map (2 ^ ·)).sum := by
  induction es generalizing k with
  | nil => rfl
  | cons e es ih => simp [List.zipIdx_cons, ih]

theorem LayInfo.targets {pages : Pages} (hpg : PagesOk pages) {o : Obj} {lay : ObjectLayout} {es : List Nat}
    (h : LayInfo pages o.size lay es) (offset len : Nat) (hc : writeCheck pages o.size offset len = none) :
    Fit (writeTargets pages lay o offset) (partPages pages lay o offset) ∧
      amtSum (writeTargets pages lay o offset) = len ∧
      ∃ a b, objPages pages lay o = a ++ partPages pages lay o offset ++ b ∧ psum a = offset ∧
        (b = [] ∨ len = psum (partPages pages lay o offset)) ∧ (b = [] → offset + len = o.size) ∧
        (∀ p ∈ partPages pages lay o offset, pages.spage ≤ p.2) := by
  unfold writeCheck at hc
  split at hc
  · cases hc
  rename_i hal
  split at hc
  · cases hc
  rename_i hle
  split at hc
  · cases hc
  rename_i hsz
  split at hc
  · cases hc
  rename_i hex
  have hal : 2 ^ pages.lpage ∣ offset := by
    rw [← isMultipleOfPow2_iff]; simpa using hal
  have hex : offset + len = min (offset + 2 ^ pages.lpage) o.size := by omega
  obtain ⟨k, rfl⟩ := hal
  have hpos := Nat.two_pow_pos pages.lpage
  have hk : 2 ^ pages.lpage * k / 2 ^ pages.lpage = k := Nat.mul_div_cancel_left k hpos
  have hdm := Nat.div_add_mod o.size (2 ^ pages.lpage)
  have hml := Nat.mod_lt o.size hpos
  unfold writeTargets partPages
  simp only [divPow2_eq, hk]
  by_cases hlt : k < lay.lpageCount
  · simp only [hlt, if_true]
    have hcount := h.count
    have hkl : 2 ^ pages.lpage * (k + 1) ≤ 2 ^ pages.lpage * (o.size / 2 ^ pages.lpage) :=
      Nat.mul_le_mul_left _ (by omega)
    rw [Nat.mul_succ] at hkl
    have hlen : len = 2 ^ pages.lpage := by omega
    refine ⟨.last hpos (Nat.le_refl _), by simp [hlen], ?_⟩
    have hr : List.range lay.lpageCount = List.range k ++ k :: (List.range' (k + 1) (lay.lpageCount - k - 1)) := by
      rw [List.range_eq_range', List.range_eq_range', show lay.lpageCount = k + (lay.lpageCount - k - 1 + 1) by omega,
        ← List.range'_append_1]
      simp [List.range'_succ]
    refine ⟨(List.range k).map (fun j => (o.lpageOff j, pages.lpage)),
      (List.range' (k + 1) (lay.lpageCount - k - 1)).map (fun j => (o.lpageOff j, pages.lpage)) ++
        es.zipIdx.map (fun ei => (o.tailOff ei.2, ei.1)), ?_, ?_, ?_, ?_, ?_⟩
    · rw [objPages_eq h.rep, hr]; simp
    · rw [psum_lpages, List.length_range, Nat.mul_comm]
    · right; simp [hlen]
    · intro hb
      simp only [List.append_eq_nil_iff, List.map_eq_nil_iff] at hb
      have he : es = [] := by
        cases es with
        | nil => rfl
        | cons e es => simp [List.zipIdx_cons] at hb
      have hz := h.sum
      rw [he] at hz
      have hcl := le_ceilPow2 (o.size % 2 ^ pages.lpage) pages.spage
      simp at hz
      have hk1 : k + 1 = lay.lpageCount := by
        have := congrArg List.length hb.1
        simp at this; omega
      rw [← hcount, ← hk1, Nat.mul_succ] at hdm
      omega
    · intro p hp
      simp at hp
      subst hp
      exact hpg.le
  · simp only [hlt, if_false]
    have hcount := h.count
    have hkle : k ≤ o.size / 2 ^ pages.lpage := by
      rw [Nat.le_div_iff_mul_le hpos, Nat.mul_comm]; omega
    have hkc : k = o.size / 2 ^ pages.lpage := by omega
    rw [← hkc] at hdm
    have hlen : len = o.size % 2 ^ pages.lpage := by omega
    have hobj : objPages pages lay o = (List.range lay.lpageCount).map (fun i => (o.lpageOff i, pages.lpage)) ++
        es.zipIdx.map (fun ei => (o.tailOff ei.2, ei.1)) ++ [] := by rw [objPages_eq h.rep]; simp
    rw [h.rep.toIter, h.rep.toList, List.map_map]
    have hcomp : (fun ie : Nat × Nat => (1 <<< ie.2, o.tailOff ie.1)) ∘ Prod.swap = fun ei : Nat × Nat => (2 ^ ei.1, o.tailOff ei.2) := by
      funext ei; simp [Nat.one_shiftLeft]
    rw [hcomp]
    have hfinal : ∃ a b, objPages pages lay o = a ++ es.zipIdx.map (fun ei => (o.tailOff ei.2, ei.1)) ++ b ∧
        psum a = 2 ^ pages.lpage * k ∧
        (b = [] ∨ len = psum (es.zipIdx.map (fun ei => (o.tailOff ei.2, ei.1)))) ∧
        (b = [] → 2 ^ pages.lpage * k + len = o.size) ∧
        (∀ p ∈ es.zipIdx.map (fun ei => (o.tailOff ei.2, ei.1)), pages.spage ≤ p.2) := by
      refine ⟨_, [], hobj, ?_, .inl rfl, ?_, ?_⟩
      · rw [psum_lpages, List.length_range, Nat.mul_comm, hkc, hcount]
      · intro _; omega
      · intro p hp
        simp only [List.mem_map] at hp
        obtain ⟨ei, hei, rfl⟩ := hp
        exact (h.bounds ei.1 (List.fst_mem_of_mem_zipIdx hei)).1
    rcases List.eq_nil_or_concat es with hes | ⟨p, l, hes⟩
    · have hz := h.sum
      have hcl := le_ceilPow2 (o.size % 2 ^ pages.lpage) pages.spage
      rw [hes] at hz hfinal ⊢
      simp at hz
      refine ⟨.nil, ?_, hfinal⟩
      simp [modifyLast]; omega
    · rw [List.concat_eq_append] at hes
      have hz := h.sum
      have hsort := h.sorted
      have hbd := h.bounds l (by rw [hes]; simp)
      rw [hes, List.map_append, List.sum_append] at hz
      simp only [List.map_cons, List.map_nil, List.sum_cons, List.sum_nil, Nat.add_zero] at hz
      have hc1 := le_ceilPow2 (o.size % 2 ^ pages.lpage) pages.spage
      have hc2 := ceilPow2_lt (o.size % 2 ^ pages.lpage) pages.spage
      have hsl : 2 ^ pages.spage ≤ 2 ^ l := Nat.pow_le_pow_right (by decide) hbd.1
      have hdvdS : 2 ^ l ∣ (p.map (2 ^ ·)).sum := by
        apply pow_dvd_sum
        intro x hx
        rw [hes, List.pairwise_append] at hsort
        exact Nat.le_of_lt (hsort.2.2 x hx l (by simp))
      generalize hS : (p.map (2 ^ ·)).sum = S at *
      have hx0 : 0 < len - S ∧ len - S ≤ 2 ^ l ∧ S ≤ len := by omega
      have hmod : o.size % 2 ^ l = (len - S) % 2 ^ l := by
        have e1 : o.size = 2 ^ pages.lpage * k + S + (len - S) := by omega
        have hd : 2 ^ l ∣ 2 ^ pages.lpage * k + S :=
          Nat.dvd_add (Nat.dvd_trans (Nat.pow_dvd_pow 2 hbd.2) (Nat.dvd_mul_right _ _)) hdvdS
        obtain ⟨c, hc⟩ := hd
        rw [e1, hc, Nat.mul_add_mod]
      have hamt : (if o.size % 2 ^ l ≠ 0 then (o.size % 2 ^ l, o.tailOff p.length) else (2 ^ l, o.tailOff p.length)) =
          (len - S, o.tailOff p.length) := by
        rw [hmod]
        by_cases hfull : len - S = 2 ^ l
        · rw [hfull]; simp
        · rw [Nat.mod_eq_of_lt (by omega), if_pos (by omega)]
      have hts : modifyLast (fun p => if o.size % p.1 ≠ 0 then (o.size % p.1, p.2) else p)
          (es.zipIdx.map (fun ei => (2 ^ ei.1, o.tailOff ei.2))) =
          p.zipIdx.map (fun ei => (2 ^ ei.1, o.tailOff ei.2)) ++ [(len - S, o.tailOff p.length)] := by
        rw [hes, List.zipIdx_append, List.map_append]
        simp only [List.zipIdx_cons, List.zipIdx_nil, List.map_cons, List.map_nil, Nat.zero_add]
        rw [modifyLast_append]
        simp only
        rw [hamt]
      have hpp : es.zipIdx.map (fun ei => (o.tailOff ei.2, ei.1)) =
          p.zipIdx.map (fun ei => (o.tailOff ei.2, ei.1)) ++ [(o.tailOff p.length, l)] := by
        rw [hes, zipIdx_split]; simp
      refine ⟨?_, ?_, hfinal⟩
      · rw [hts, hpp]
        exact fit_map o.tailOff p 0 _ _ (.last hx0.1 hx0.2.1)
      · rw [hts, amtSum_append, amtSum_map, hS]
        simp; omega

/-! ### Effect of a complete write on the object -/

/-- writing a part replaces exactly that range of the object's contents -/
theorem contents_write {pages : Pages} (hpg : PagesOk pages) {o : Obj} {lay : ObjectLayout} {es : List Nat}
    (h : LayInfo pages o.size lay es) (hap : (objPages pages lay o).Pairwise PagesApart)
    {block : List Byte → List Byte} (hb : BlockOk pages.spage block)
    (offset : Nat) (d : List Byte) (hc : writeCheck pages o.size offset d.length = none) (m : Mem) :
    contents pages lay (m.writeAll (pieces block (writeTargets pages lay o offset) d)) o =
      (contents pages lay m o).take offset ++ d ++ (contents pages lay m o).drop (offset + d.length) := by
  obtain ⟨hfit, hsum, a, b, hobj, hpa, hb1, hb2, hsp⟩ := h.targets hpg offset d.length hc
  have hap' := hap
  rw [hobj, List.pairwise_append, List.pairwise_append] at hap'
  obtain ⟨⟨hapa, happ, hcross1⟩, hapb, hcross2⟩ := hap'
  generalize hm' : m.writeAll (pieces block (writeTargets pages lay o offset) d) = m'
  have hpart : (allBytes m' (partPages pages lay o offset)).take d.length = d := by
    rw [← hm']; exact pieces_write hb hfit hsp happ m d hsum.symm
  have hframe : ∀ p, (∀ q ∈ partPages pages lay o offset, PagesApart p q) → ∀ x, InPage p x → m' x = m x := by
    intro p hp x hx
    rw [← hm']
    apply Mem.writeAll_out
    intro w hw
    obtain ⟨e, h1, h2⟩ := pieces_range hb hfit hsp d w hw
    have := hp _ h1
    unfold PagesApart at this
    unfold InPage at hx
    simp only at this
    omega
  have hA : allBytes m' a = allBytes m a :=
    allBytes_congr (fun p hp x hx => hframe p (fun q hq => hcross1 p hp q hq) x hx)
  have hB : allBytes m' b = allBytes m b := by
    apply allBytes_congr
    intro p hp x hx
    apply hframe p _ x hx
    intro q hq
    exact Or.symm (hcross2 q (by simp [hq]) p hp)
  have hsz := h.size_le o
  have hle : offset + d.length ≤ o.size := by
    unfold writeCheck at hc
    split at hc
    · cases hc
    split at hc
    · cases hc
    split at hc
    · cases hc
    omega
  unfold contents
  rw [hobj] at hsz ⊢
  simp only [allBytes_append, hA, hB, psum_append] at hsz ⊢
  have hla : (allBytes m a).length = offset := by rw [length_allBytes]; exact hpa
  have hlp : (allBytes m (partPages pages lay o offset)).length = psum (partPages pages lay o offset) := length_allBytes _ _
  have hlp' : (allBytes m' (partPages pages lay o offset)).length = psum (partPages pages lay o offset) := length_allBytes _ _
  generalize hPB : allBytes m (partPages pages lay o offset) = PB at *
  generalize hPB' : allBytes m' (partPages pages lay o offset) = PB' at *
  generalize hAB : allBytes m a = AB at *
  generalize hBB : allBytes m b = BB at *
  rcases hb1 with hbn | hfull
  · have hend := hb2 hbn
    have hBn : BB = [] := by rw [← hBB, hbn]; rfl
    subst hBn
    simp only [List.append_nil]
    rw [← hend, List.take_append, hla, List.take_of_length_le (l := AB) (by omega),
      show offset + d.length - offset = d.length by omega, hpart]
    rw [List.take_append, hla, List.take_of_length_le (l := AB) (by omega),
      show offset + d.length - offset = d.length by omega]
    rw [List.take_append_of_le_length (by omega), List.take_of_length_le (l := AB) (by omega)]
    rw [List.drop_eq_nil_of_le]
    · simp
    · simp only [List.length_append, List.length_take]; omega
  · have hPd : PB' = d := by
      rw [← hpart, List.take_of_length_le (by omega)]
    subst hPd
    have hassoc : ∀ X : List Byte, AB ++ X ++ BB = AB ++ (X ++ BB) := fun X => by simp
    rw [hassoc, hassoc]
    have hlen2 : PB.length = PB'.length := by omega
    have t1 : ((AB ++ (PB ++ BB)).take o.size).take offset = AB := by
      rw [List.take_take, Nat.min_eq_left (by omega), List.take_append_of_le_length (by omega),
        List.take_of_length_le (by omega)]
    have t2 : ((AB ++ (PB ++ BB)).take o.size).drop (offset + PB'.length) = BB.take (o.size - (offset + PB'.length)) := by
      rw [List.drop_take, ← List.append_assoc, List.drop_append]
      rw [List.drop_eq_nil_of_le (by rw [List.length_append]; omega), List.nil_append]
      rw [show offset + PB'.length - (AB ++ PB).length = 0 by rw [List.length_append]; omega, List.drop_zero]
    rw [t1, t2, ← List.append_assoc, List.take_append, List.length_append,
      List.take_of_length_le (by rw [List.length_append]; omega), hla]

end RW
end Blobd
