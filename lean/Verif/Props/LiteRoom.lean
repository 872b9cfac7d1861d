import Verif.Proofs.LiteRoom
import Verif.Props.LiteProgress
import Verif.Props.LiteSpace
import Verif.Props.DirectRoom
set_option autoImplicit false
/-!
# C78: lite store: uploads are accepted while there is room
-/
namespace Blobd
namespace Props
open Lite

variable {c : LCfg} {σ : Nat → LSt}

/-- the guards of `create`, and its outcome if the pages are there -/
theorem lite_create (hc : c.Ok) {s : LSt} (h : Reach c s) (hf : s.faults = []) {key assoc : List Byte} {size created id : Nat} {lay : ObjectLayout}
    (hk : key.length < 2 ^ 16) (ha : assoc.length < 2 ^ 16) (hz : size < 2 ^ 40) (ht : created < 2 ^ 48) (hd : id < 2 ^ 128) (hn : id ∉ s.ids)
    (hl : calcObjectLayout c.pages size = some lay) (hr : recordSize lay key assoc ≤ 2 ^ c.pages.lpage) (hp : pageCount lay + 1 ≤ Lite.largePages c s) :
    ∃ s' o off, act c s (.create key size assoc created id) = some s' ∧ at? s' s.nextCall = some (.createWrite o off) ∧ o.id = id ∧ o.key = key ∧ o.size = size ∧
      o.lpages.length + o.tailPages.length = pageCount lay ∧ Lite.largePages c s ≤ Lite.largePages c s' + (pageCount lay + 1) := by
  obtain ⟨base, v, leak, hi⟩ := reach_inv hc h hf
  have hsizes : ∀ s ∈ Direct.dataSizes c.pages lay, Buddy.requestPow2 c.pages s ≤ c.pages.lpage :=
    (dataPgs_alloc hc.rw hl (offs := List.replicate (Direct.dataSizes c.pages lay).length 0) (by simp) 0 0 0 [] []).2.1
  have hh := hi.heap
  unfold Heap at hh
  have hwh : ∀ {b : Buddy} {lv}, Buddy.Inv c.heap b lv → (b.free c.pages.lpage).card = b.wholeFree.card := by
    intro b lv hb
    unfold Buddy.wholeFree
    rw [hb.hpages]
    rfl
  have hw : Lite.largePages c s = s.alloc.wholeFree.card := hwh hh
  obtain ⟨offs, a1, e1, w1⟩ := Buddy.allocPages_whole hc.sl hsizes hh (by rw [dataSizes_length, ← hw]; omega)
  obtain ⟨hlen, hi1⟩ := Direct.allocPages_inv hh hsizes e1
  have hreq : Buddy.requestPow2 c.heap.pages (recordSize lay key assoc) ≤ c.heap.pages.lpage := Nat.max_le.2 ⟨hc.sl, nextPow2Exp_le hr⟩
  rw [dataSizes_length] at w1
  obtain ⟨n, a2, e2, hi2, w2⟩ := Buddy.whole_alloc hi1 hc.sl hreq (by omega)
  let o : NewObject := ⟨Buddy.requestPow2 c.pages (recordSize lay key assoc), id, created, size, key, offs.take lay.lpageCount, offs.drop lay.lpageCount, assoc⟩
  let mo := c.heap.base + n * 2 ^ Buddy.requestPow2 c.heap.pages (recordSize lay key assoc)
  have hact : act c s (.create key size assoc created id) = some { s with
      nextCall := s.nextCall + 1, alloc := a2, ids := id :: s.ids, thr := upd s.thr s.nextCall (some ⟨⟨.create key size, s.lin.length⟩, .createWrite o mo⟩) } := by
    simp only [act, create]
    rw [if_pos ⟨hk, ha, hz, ht, hd, hn⟩, hl]
    simp only
    unfold recordSize at e2 hr
    rw [if_neg (Nat.not_lt.2 hr), e1]
    simp only
    rw [e2]
    rfl
  refine ⟨_, o, mo, hact, at_some.2 ⟨_, by simp only [upd, if_true]; rfl⟩, rfl, rfl, rfl, ?_, ?_⟩
  · simp only [o, List.length_take, List.length_drop, hlen, dataSizes_length]
    unfold pageCount
    omega
  · rw [hw]
    have : Lite.largePages c { s with alloc := a2 } = a2.wholeFree.card := hwh hi2
    unfold Lite.largePages at this ⊢
    simp only at this ⊢
    rw [this]
    omega

/-- A create call whose record fits a large page, for which there is one free large page more than its data takes pages,
gets its pages, whatever else is going on; it uses up no more large pages than that. -/
theorem C78_lite_pages (hc : c.Ok) {s : LSt} (h : Reach c s) (hf : s.faults = []) {key assoc : List Byte} {size created id : Nat} {lay : ObjectLayout}
    (hk : key.length < 2 ^ 16) (ha : assoc.length < 2 ^ 16) (hz : size < 2 ^ 40) (ht : created < 2 ^ 48) (hd : id < 2 ^ 128) (hn : id ∉ s.ids)
    (hl : calcObjectLayout c.pages size = some lay) (hr : recordSize lay key assoc ≤ 2 ^ c.pages.lpage) (hp : pageCount lay + 1 ≤ Lite.largePages c s) :
    ∃ s' o off, act c s (.create key size assoc created id) = some s' ∧ at? s' s.nextCall = some (.createWrite o off) ∧ o.id = id ∧ o.key = key ∧ o.size = size ∧
      o.lpages.length + o.tailPages.length = pageCount lay ∧ Lite.largePages c s ≤ Lite.largePages c s' + (pageCount lay + 1) :=
  lite_create hc h hf hk ha hz ht hd hn hl hr hp

theorem lite_made (hc : c.Ok) (h : Lite.FairRun c σ) (hf : ∀ m, (σ m).faults = []) {n i id : Nat} {pc : PC} (hi : at? (σ n) i = some pc) (hp : pc.makes = some id) :
    ∃ j, n < j ∧ Made (σ j) i id := by
  by_contra hna
  have hb : ∀ m, ∀ i t, (σ m).thr i = some t → i < (σ m).nextCall := fun m => reach_bound (h.toRun.reach m)
  have stays : ∀ k, ∃ pc', at? (σ (n + k)) i = some pc' ∧ pc'.makes = some id := by
    intro k
    induction k with
    | zero => exact ⟨pc, hi, hp⟩
    | succ k ih =>
      obtain ⟨pc', g1, g2⟩ := ih
      rcases h.next (n + k) with e | e
      · exact ⟨pc', by rw [show n + (k + 1) = n + k + 1 from rfl, e]; exact g1, g2⟩
      · rcases create_next e (hb _) g1 g2 with ⟨pc2, g3, g4 | g4⟩ | g3
        · exact ⟨pc2, g3, g4⟩
        · exfalso
          subst g4
          have k1 := why_dead hc (h.toRun.reach _) e (hf _) g1 (by rintro rfl; cases g2) g3
          obtain ⟨st, ht⟩ := at_some.1 g1
          simp only [act, ht] at k1
          cases pc' <;> first | cases k1 | cases g2
        · exact absurd ⟨n + k + 1, by omega, g3⟩ hna
  obtain ⟨m, h1, h2⟩ := C71_every_call_ends_partial hc h hf (i := i) (n := n) (by rw [hi]; simp)
  obtain ⟨pc', h3, h4⟩ := stays (m - n)
  rw [show n + (m - n) = m by omega] at h3
  rcases h2 with h2 | h2
  · rw [h2] at h3; cases h3
  · rw [h2, Option.some.injEq] at h3; subst h3; cases h4

/-- In every fair run: a create call (made at moment `n`) whose record fits a large page, for which there is one free large
page more than its data takes pages, is answered with the new object's id, whatever other calls are made and wherever
they are: having got its pages it needs nothing else. -/
theorem C78_lite_create_accepted (hc : c.Ok) (h : Lite.FairRun c σ) (hf : ∀ m, (σ m).faults = []) {n : Nat} {key assoc : List Byte} {size created id : Nat}
    {lay : ObjectLayout} (hm : act c (σ n) (.create key size assoc created id) = some (σ (n + 1)))
    (hl : calcObjectLayout c.pages size = some lay) (hr : recordSize lay key assoc ≤ 2 ^ c.pages.lpage) (hp : pageCount lay + 1 ≤ Lite.largePages c (σ n)) :
    ∃ j, n < j ∧ Made (σ j) (σ n).nextCall id := by
  have hg : key.length < 2 ^ 16 ∧ assoc.length < 2 ^ 16 ∧ size < 2 ^ 40 ∧ created < 2 ^ 48 ∧ id < 2 ^ 128 ∧ id ∉ (σ n).ids := by
    by_contra hg
    simp only [act, create, if_neg hg] at hm
    cases hm
  obtain ⟨g1, g2, g3, g4, g5, g6⟩ := hg
  obtain ⟨s', o, off, e1, e2, e3, _⟩ := lite_create hc (h.toRun.reach n) (hf n) g1 g2 g3 g4 g5 g6 hl hr hp
  rw [hm] at e1
  cases e1
  obtain ⟨j, h1, h2⟩ := lite_made hc h hf e2 (congrArg some e3)
  exact ⟨j, by omega, h2⟩

/-- In every state, with any number of calls running, the free large pages are exactly the large-page places of the heap that
no page of a listed object, of an object being created, or of an object a running call has unlinked and not released yet
touches. -/
theorem C78_lite_free_pages_partial (hc : c.Ok) {s : LSt} (h : Reach c s) (hf : s.faults = []) (hn : ¬ CreateFailed s) :
    ∃ P : Finset Nat, P.card = Lite.largePages c s ∧ ∀ k, k ∈ P ↔ (k + 1) * 2 ^ c.pages.lpage ≤ c.heap.heap ∧
      ∀ q, UsedPage c s q → Spec.PageDisj (c.heap.base + k * 2 ^ c.pages.lpage, c.pages.lpage) q := by
  obtain ⟨base, v, leak, hi, hl⟩ := reach_leak hc h hf
  have hl := hl.resolve_right hn
  subst hl
  have hh : Buddy.Inv c.heap s.alloc (v.recs.flatMap (fun x => regs c.pages x.2)) := by
    have := hi.heap
    unfold Heap at this
    rwa [List.append_nil] at this
  refine ⟨s.alloc.free c.pages.lpage, rfl, fun k => ?_⟩
  have := Buddy.mem_whole hh hc.sl k
  unfold Buddy.wholeFree at this
  rw [hh.hpages, Buddy.vac_iff] at this
  rw [show c.pages = c.heap.pages from rfl, this, Nat.succ_mul]
  constructor
  · rintro ⟨x1, x2⟩
    exact ⟨x1, fun q hq => x2 q ((used_iff hc hi q).1 hq)⟩
  · rintro ⟨x1, x2⟩
    exact ⟨x1, fun q hq => x2 q ((used_iff hc hi q).2 hq)⟩

/-- with no large page free the next create of an object with data does not get its pages, and panics -/
theorem C78_lite_condition_needed : ∃ s, Reach Lite.wcfg s ∧ Lite.wcfg.Ok ∧ s.faults = [] ∧ Lite.largePages Lite.wcfg s = 0 ∧
    ∃ lay, calcObjectLayout Lite.wcfg.pages 900 = some lay ∧ recordSize lay [1] [] ≤ 2 ^ Lite.wcfg.pages.lpage ∧
      (Direct.allocPages s.alloc (Direct.dataSizes Lite.wcfg.pages lay)).1 = none := by
  have h : (Lite.wrun [.a (.create [1] 7168 [] 7 5)]).map (fun s => decide (s.faults = [] ∧ Lite.largePages Lite.wcfg s = 0 ∧
      ((calcObjectLayout Lite.wcfg.pages 900).map (fun lay => decide (recordSize lay [1] [] ≤ 2 ^ Lite.wcfg.pages.lpage ∧
        (Direct.allocPages s.alloc (Direct.dataSizes Lite.wcfg.pages lay)).1 = none))) = some true)) = some true := by decide +kernel
  obtain ⟨s, h1, h2⟩ := Option.map_eq_some_iff.1 h
  simp only [decide_eq_true_eq] at h2
  obtain ⟨e1, e2, e3⟩ := h2
  obtain ⟨lay, e4, e5⟩ := Option.map_eq_some_iff.1 e3
  simp only [decide_eq_true_eq] at e5
  exact ⟨s, Lite.wrun_reach h1, Lite.wcfg_ok, e1, e2, lay, e4, e5.1, e5.2⟩

/-- The hypotheses are met, with another create under way: the create is the second command of the run `liteMixed`. -/
theorem C78_lite_case : ∃ σ lay, Lite.FairRun Lite.wcfg σ ∧ Lite.wcfg.Ok ∧ (∀ m, (σ m).faults = []) ∧ at? (σ 1) 0 ≠ none ∧
    act Lite.wcfg (σ 1) (.create [2] 3 [] 7 6) = some (σ 2) ∧ (σ 1).nextCall = 1 ∧ calcObjectLayout Lite.wcfg.pages 3 = some lay ∧
    recordSize lay [2] [] ≤ 2 ^ Lite.wcfg.pages.lpage ∧ pageCount lay + 1 ≤ Lite.largePages Lite.wcfg (σ 1) := by
  obtain ⟨s0, h0⟩ : ∃ s0, w0 = some s0 := Option.isSome_iff_exists.1 (by decide +kernel)
  have hall : (Lite.wrun liteMixed).map (fun s => decide (s.faults = [] ∧ (List.range s.nextCall).all (fun i => (s.thr i).isNone) ∧ s.j.pending.txns = [] ∧
      s.j.queue.length = 0 ∧ isIdle s.j.phase = true)) = some true := by decide +kernel
  have hmid : (Lite.wrun (liteMixed.take 1)).map (fun s => decide (s.nextCall = 1 ∧ (s.thr 0).isSome ∧
      ((calcObjectLayout Lite.wcfg.pages 3).map (fun lay => decide (recordSize lay [2] [] ≤ 2 ^ Lite.wcfg.pages.lpage ∧
        pageCount lay + 1 ≤ Lite.largePages Lite.wcfg s))) = some true)) = some true := by decide +kernel
  have e : ∀ l, Lite.wrun l = Lite.run Lite.wcfg s0 l := fun l => by simp [Lite.wrun, h0]
  rw [e] at hall hmid
  obtain ⟨s1, h1, hend⟩ := Option.map_eq_some_iff.1 hall
  obtain ⟨s2, h2, hm⟩ := Option.map_eq_some_iff.1 hmid
  simp only [decide_eq_true_eq] at hend hm
  have hr0 : Reach Lite.wcfg s0 := .fresh (w0_fresh.trans h0)
  obtain ⟨σ, r1, r2⟩ := lite_run_of_cmds hr0 h1
  have hN : ∀ m, 40 ≤ m → σ m = s1 := by
    intro m hm
    have := r2 m
    rw [List.take_of_length_le (by have : liteMixed.length ≤ 40 := by decide
                                   omega), h1] at this
    exact (Option.some.inj this).symm
  have e2 : σ 1 = s2 := by
    have := r2 1
    rw [h2] at this
    exact (Option.some.inj this).symm
  obtain ⟨g1, g2, g3, g4, g5⟩ := hend
  have hb := reach_bound (run_reach hr0 h1)
  have hfl : ∀ k m, σ (m + k) = s1 → (σ m).faults = [] := by
    intro k
    induction k with
    | zero => intro m e; rw [Nat.add_zero] at e; rw [e]; exact g1
    | succ k ih =>
      intro m e
      have := ih (m + 1) (by rw [← e]; congr 1; omega)
      rcases r1.next m with e' | e'
      · rw [← e']; exact this
      · exact faults_keep e' this
  obtain ⟨k1, k2, k3⟩ := hm
  obtain ⟨lay, k4, k5⟩ := Option.map_eq_some_iff.1 k3
  simp only [decide_eq_true_eq] at k5
  refine ⟨σ, lay, lite_fair_at_end r1 hN ?_ g3 (List.eq_nil_of_length_eq_zero g4) (isIdle_ok g5), Lite.wcfg_ok, fun m => hfl 40 m (hN _ (by omega)), ?_, ?_, ?_, k4, k5.1, ?_⟩
  · intro i
    unfold at?
    cases ht : s1.thr i with
    | none => rfl
    | some t =>
      have := List.all_eq_true.1 g2 i (List.mem_range.2 (hb i t ht))
      rw [ht] at this
      cases this
  · rw [e2]
    unfold at?
    obtain ⟨t, ht⟩ := Option.isSome_iff_exists.1 k2
    rw [ht]
    simp
  · have x1 := r2 1
    have x2 := r2 2
    have t1 : liteMixed.take 1 = [.a (.create [1] 3 [] 7 5)] := rfl
    have t2 : liteMixed.take 2 = [.a (.create [1] 3 [] 7 5), .a (.create [2] 3 [] 7 6)] := rfl
    rw [t1] at x1
    rw [t2] at x2
    simp only [Lite.run, List.foldlM_cons, List.foldlM_nil, Option.bind_eq_bind, Option.pure_def] at x1 x2
    obtain ⟨y, y1, y2⟩ := Option.bind_eq_some_iff.1 x1
    cases y2
    rw [y1] at x2
    obtain ⟨z, z1, z2⟩ := Option.bind_eq_some_iff.1 (show (Option.bind (exec Lite.wcfg (σ 1) (.a (.create [2] 3 [] 7 6))) some) = some (σ 2) from x2)
    cases z2
    exact z1
  · rw [e2]; exact k1
  · rw [e2]; exact k5.2

end Props
end Blobd
