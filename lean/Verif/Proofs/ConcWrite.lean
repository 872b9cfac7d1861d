import Verif.Model.ConcWrite
import Verif.Proofs.ReadWrite2
namespace Blobd
namespace RW
open List

section
variable {block : List Byte → List Byte} {len : Nat} {targets : List (Nat × Nat)}

inductive Star (block : List Byte → List Byte) (len : Nat) (targets : List (Nat × Nat)) : WState → WState → Prop
  | refl (s : WState) : Star block len targets s s
  | tail {s t u : WState} : Star block len targets s t → wstep block len targets t = .cont u → Star block len targets s u

theorem Star.wrun {s t : WState} (h : Star block len targets s t) :
    ∃ k, ∀ fuel, RW.wrun block len targets (k + fuel) s = RW.wrun block len targets fuel t := by
  induction h with
  | refl => exact ⟨0, fun f => by rw [Nat.zero_add]⟩
  | tail _ hst ih =>
    obtain ⟨k, hk⟩ := ih
    refine ⟨k + 1, fun f => ?_⟩
    rw [Nat.add_assoc, hk, Nat.add_comm 1 f, RW.wrun, hst]

theorem Star.done {s t : WState} (h : Star block len targets s t) {n : Nat} {R : Except OpError Unit × Mem}
    (hr : ∀ fuel, n ≤ fuel → RW.wrun block len targets fuel s = .ret R) :
    (∀ r d, wstep block len targets t = .done r d → (r, d) = R) ∧ wstep block len targets t ≠ .panic := by
  obtain ⟨k, hk⟩ := h.wrun
  have h1 := hr (k + (n + 1)) (by omega)
  rw [hk, RW.wrun] at h1
  constructor
  · intro r d hd
    rw [hd] at h1
    simpa using h1
  · intro hd
    rw [hd] at h1
    simp at h1

end

/-- byte `x` is in one of the pages `pl` -/
def InPages (pl : List (Nat × Nat)) (x : Nat) : Prop := ∃ p ∈ pl, InPage p x

theorem part_apart {pages : Pages} (hpg : PagesOk pages) {o : Obj} {lay : ObjectLayout} {es : List Nat}
    (h : LayInfo pages o.size lay es) (hap : (objPages pages lay o).Pairwise PagesApart) {o1 l1 o2 l2 : Nat}
    (h1 : writeCheck pages o.size o1 l1 = none) (h2 : writeCheck pages o.size o2 l2 = none) (hne : o1 ≠ o2) :
    ∀ p ∈ partPages pages lay o o1, ∀ q ∈ partPages pages lay o o2, PagesApart p q := by
  have hsym : ∀ {p q : Nat × Nat}, PagesApart p q → PagesApart q p := fun h => Or.symm h
  obtain ⟨d1, e1⟩ := writeCheck_none.1 h1
  obtain ⟨d2, e2⟩ := writeCheck_none.1 h2
  obtain ⟨k1, rfl⟩ := d1
  obtain ⟨k2, rfl⟩ := d2
  have hpos := Nat.two_pow_pos pages.lpage
  have hap' := hap
  unfold objPages at hap'
  obtain ⟨hl, ht, hlt⟩ := List.pairwise_append.1 hap'
  have hlp : ∀ i j, i < lay.lpageCount → j < lay.lpageCount → i ≠ j →
      PagesApart (o.lpageOff i, pages.lpage) (o.lpageOff j, pages.lpage) := by
    have key : ∀ i j, i < j → j < lay.lpageCount →
        PagesApart (o.lpageOff i, pages.lpage) (o.lpageOff j, pages.lpage) := by
      intro i j hij hj
      have := List.pairwise_iff_getElem.1 hl i j (by simp; omega) (by simpa using hj) hij
      simpa using this
    intro i j hi hj hij
    rcases Nat.lt_or_gt_of_ne hij with h | h
    · exact key i j h hj
    · exact hsym (key j i h hi)
  have hdiv : ∀ k, 2 ^ pages.lpage * k / 2 ^ pages.lpage = k := fun k => Nat.mul_div_cancel_left k hpos
  unfold partPages
  simp only [hdiv]
  have hk : k1 ≠ k2 := fun hc => hne (by rw [hc])
  intro p hp q hq
  split at hp <;> split at hq
  · rename_i a b
    simp only [List.mem_singleton] at hp hq
    subst hp; subst hq
    exact hlp _ _ a b hk
  · rename_i a b
    simp only [List.mem_singleton] at hp
    subst hp
    exact hlt _ (by simp only [List.mem_map, List.mem_range]; exact ⟨k1, a, rfl⟩) q hq
  · rename_i a b
    simp only [List.mem_singleton] at hq
    subst hq
    exact hsym (hlt _ (by simp only [List.mem_map, List.mem_range]; exact ⟨k2, b, rfl⟩) p hp)
  · rename_i a b
    exfalso
    rw [h.count] at a b
    have hs1 : 2 ^ pages.lpage * k1 ≤ o.size := by omega
    have hs2 : 2 ^ pages.lpage * k2 ≤ o.size := by omega
    have c1 : k1 ≤ o.size / 2 ^ pages.lpage := (Nat.le_div_iff_mul_le hpos).2 (by rw [Nat.mul_comm]; exact hs1)
    have c2 : k2 ≤ o.size / 2 ^ pages.lpage := (Nat.le_div_iff_mul_le hpos).2 (by rw [Nat.mul_comm]; exact hs2)
    omega

theorem part_contents {pages : Pages} (hpg : PagesOk pages) {o : Obj} {lay : ObjectLayout} {es : List Nat}
    (h : LayInfo pages o.size lay es) {offset len : Nat} (hc : writeCheck pages o.size offset len = none) (m : Mem) :
    ((contents pages lay m o).drop offset).take len = (allBytes m (partPages pages lay o offset)).take len := by
  obtain ⟨hfit, hsum, a, b, hob, hpa, _, _, _⟩ := h.targets hpg offset len hc
  have hle : len ≤ psum (partPages pages lay o offset) := hsum ▸ hfit.sum_le
  obtain ⟨_, e1⟩ := writeCheck_none.1 hc
  have hsl := slice_contents (pages := pages) (lay := lay) m (start := offset) (stop := offset + len) (o := o) (by omega) (by omega)
  rw [show offset + len - offset = len by omega] at hsl
  rw [hsl, hob, allBytes_append, allBytes_append]
  have hla : (allBytes m a).length = offset := by rw [length_allBytes, hpa]
  rw [List.append_assoc, List.drop_left' hla, List.take_append_of_le_length (by rw [length_allBytes]; exact hle)]

theorem mem_part {pages : Pages} {o : Obj} {lay : ObjectLayout} {offset : Nat} {p : Nat × Nat}
    (hp : p ∈ partPages pages lay o offset) : p ∈ objPages pages lay o := by
  unfold partPages at hp
  unfold objPages
  rw [List.mem_append]
  split at hp
  · rename_i h
    simp only [List.mem_singleton] at hp
    subst hp
    exact Or.inl (by simp only [List.mem_map, List.mem_range]; exact ⟨_, h, rfl⟩)
  · exact Or.inr hp

/-- what is known about a request: an accepted part with non-empty chunks of the right total length -/
structure ReqOk (pages : Pages) (size : Nat) (data : List Byte) (q : WriteReq) : Prop where
  check : writeCheck pages size q.offset q.len = none
  stream : ∃ cs : List (List Byte), q.stream = cs.map .ok ∧ (∀ c ∈ cs, c ≠ []) ∧
    cs.flatten = (data.drop q.offset).take q.len ∧ cs.flatten.length = q.len

variable {block : List Byte → List Byte} {pages : Pages} {lay : ObjectLayout} {o : Obj}
  {reqs : List WriteReq} {dev0 : Mem} {es : List Nat} {data : List Byte}

def initW (q : WriteReq) (dev0 : Mem) : WState := { stream := q.stream, dev := dev0 }

def InvW (block : List Byte → List Byte) (pages : Pages) (lay : ObjectLayout) (o : Obj) (dev0 dev : Mem) (q : WriteReq) : Writer → Prop
  | .looping s => ∃ t, Star block q.len (writeTargets pages lay o q.offset) (initW q dev0) t ∧
      Sim (InPages (partPages pages lay o q.offset)) { s with dev := dev } t
  | .finished r => ∃ t d, Star block q.len (writeTargets pages lay o q.offset) (initW q dev0) t ∧
      wstep block q.len (writeTargets pages lay o q.offset) t = .done r d ∧
      ∀ x, InPages (partPages pages lay o q.offset) x → dev x = d x
  | .panicked => False

theorem InvW.env {dev dev' : Mem} {q : WriteReq} {w : Writer} (h : InvW block pages lay o dev0 dev q w)
    (hd : ∀ x, InPages (partPages pages lay o q.offset) x → dev' x = dev x) : InvW block pages lay o dev0 dev' q w := by
  cases w with
  | looping s =>
    obtain ⟨t, h1, a, b, c, d, e⟩ := h
    exact ⟨t, h1, a, b, c, d, fun x hx => (hd x hx).trans (e x hx)⟩
  | finished r =>
    obtain ⟨t, d, h1, h2, h3⟩ := h
    exact ⟨t, d, h1, h2, fun x hx => (hd x hx).trans (h3 x hx)⟩
  | panicked => exact h

theorem solo_ret (hpg : PagesOk pages) (hlay : LayInfo pages o.size lay es) {q : WriteReq}
    (hq : ReqOk pages o.size data q) (m : Mem) :
    ∃ n, ∀ fuel, n ≤ fuel → wrun block q.len (writeTargets pages lay o q.offset) fuel (initW q m) =
      .ret (.ok (), m.writeAll (pieces block (writeTargets pages lay o q.offset) ((data.drop q.offset).take q.len))) := by
  obtain ⟨cs, hcs, hne, hfl, hfn⟩ := hq.stream
  obtain ⟨hfit, hsum, _⟩ := hlay.targets hpg q.offset q.len hq.check
  refine ⟨cs.length + (writeTargets pages lay o q.offset).length + 1, fun fuel hf => ?_⟩
  have := wrun_ok (block := block) (len := q.len) (targets := writeTargets pages lay o q.offset) fuel cs (initW q m)
    hcs (by simp only [initW]; omega) hne hfit.pos (by simp [initW, hsum]) (by simp only [initW, List.length_nil]; omega)
  simpa [initW, hfl] using this

theorem writer_frame (hpg : PagesOk pages) (hlay : LayInfo pages o.size lay es) (hap : (objPages pages lay o).Pairwise PagesApart)
    (hb : BlockOk pages.spage block) {q q' : WriteReq} (hq : writeCheck pages o.size q.offset q.len = none)
    (hq' : writeCheck pages o.size q'.offset q'.len = none)
    (hne : q.offset ≠ q'.offset) (s : WState) (x : Nat) (hx : InPages (partPages pages lay o q'.offset) x) :
    match wstep block q.len (writeTargets pages lay o q.offset) s with
    | .cont s' => s'.dev x = s.dev x
    | .done _ d => d x = s.dev x
    | .panic => True := by
  apply wstep_dev
  intro t ht d hd
  obtain ⟨hfit, _, _, _, _, _, _, _, hsp⟩ := hlay.targets hpg q.offset q.len hq
  obtain ⟨e, he, hle⟩ := hfit.page t ht
  obtain ⟨p, hp, hpx⟩ := hx
  have hlen := hb.len d e (hsp _ he) (by omega)
  have := part_apart hpg hlay hap hq hq' hne _ he p hp
  unfold PagesApart at this
  unfold InPage at hpx
  simp only at this
  omega

theorem creach_inv (hpg : PagesOk pages) (hlay : LayInfo pages o.size lay es) (hap : (objPages pages lay o).Pairwise PagesApart)
    (hb : BlockOk pages.spage block) (hok : ∀ q ∈ reqs, ReqOk pages o.size data q)
    (hdist : ∀ (i j : Nat) (q q' : WriteReq), reqs[i]? = some q → reqs[j]? = some q' → i ≠ j → q.offset ≠ q'.offset)
    {c : CState} (h : CReach block pages lay o reqs (InPages (objPages pages lay o)) dev0 c) :
    ∀ i q, reqs[i]? = some q → InvW block pages lay o dev0 c.dev q (c.ws i) := by
  induction h with
  | init =>
    intro i q hq
    refine ⟨_, .refl _, ?_⟩
    simp [Sim, initW, hq]
  | env hc dev hd ih =>
    intro i q hq
    refine (ih i q hq).env (fun x hx => hd x ?_)
    obtain ⟨p, hp, hpx⟩ := hx
    exact ⟨p, mem_part hp, hpx⟩
  | @step c hc i q hq s hs ih =>
    intro j q' hq'
    have hqm : q ∈ reqs := List.mem_of_getElem? hq
    have hqm' : q' ∈ reqs := List.mem_of_getElem? hq'
    have hi := ih i q hq
    rw [hs] at hi
    obtain ⟨t, hst, hsim⟩ := hi
    by_cases hij : j = i
    · subst hij
      have : q' = q := Option.some.inj (hq'.symm.trans hq)
      subst this
      obtain ⟨n, hret⟩ := solo_ret (block := block) hpg hlay (hok q' hqm) dev0
      have hdone := hst.done hret
      have hss := wstep_sim (block := block) (len := q'.len) (targets := writeTargets pages lay o q'.offset) hsim
      unfold cstep
      cases h1 : wstep block q'.len (writeTargets pages lay o q'.offset) { s with dev := c.dev } with
      | cont s1 =>
        cases h2 : wstep block q'.len (writeTargets pages lay o q'.offset) t with
        | cont t1 =>
          rw [h1, h2] at hss
          simp only [setW, if_true]
          exact ⟨t1, hst.tail h2, hss⟩
        | done r d => rw [h1, h2] at hss; exact hss.elim
        | panic => rw [h1, h2] at hss; exact hss.elim
      | done r d =>
        cases h2 : wstep block q'.len (writeTargets pages lay o q'.offset) t with
        | cont t1 => rw [h1, h2] at hss; exact hss.elim
        | done r' d' =>
          rw [h1, h2] at hss
          simp only [setW, if_true]
          obtain ⟨hr, hd⟩ := hss
          exact ⟨t, d', hst, by rw [h2, hr], hd⟩
        | panic => rw [h1, h2] at hss; exact hss.elim
      | panic =>
        cases h2 : wstep block q'.len (writeTargets pages lay o q'.offset) t with
        | cont t1 => rw [h1, h2] at hss; exact hss.elim
        | done r' d' => rw [h1, h2] at hss; exact hss.elim
        | panic => exact (hdone.2 h2).elim
    · have hne := hdist i j q q' hq hq' (fun h => hij h.symm)
      have hfr := fun x hx => writer_frame (block := block) hpg hlay hap hb (hok q hqm).check (hok q' hqm').check hne
        { s with dev := c.dev } x hx
      have hj := ih j q' hq'
      unfold cstep
      cases h1 : wstep block q.len (writeTargets pages lay o q.offset) { s with dev := c.dev } with
      | cont s1 =>
        rw [h1] at hfr
        simp only [setW, if_neg hij]
        exact hj.env hfr
      | done r d =>
        rw [h1] at hfr
        simp only [setW, if_neg hij]
        exact hj.env hfr
      | panic =>
        simp only [setW, if_neg hij]
        exact hj

end RW
end Blobd
