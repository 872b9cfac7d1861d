import Verif.Proofs.DirectRoom
import Verif.Props.DirectProgress
import Verif.Props.DirectSpace
import Verif.Props.Capacity
set_option autoImplicit false
/-!
# C78: direct store: uploads are accepted while there is room

`largePages c s`: large pages of the heap that are wholly free; `SlotKnown c s`: the tuple index knows a bundle with a free
slot (Spec/DirectRoom). What these say about a store at rest is `C78_direct_free_pages` and `C78_direct_slots`.
-/
namespace Blobd
namespace Props
open Direct

variable {c : SCfg} {σ : Nat → DSt}

/-- the number of pages an object of this layout takes for its data -/
def pageCount (lay : ObjectLayout) : Nat := lay.lpageCount + lay.tailPageSizes.toList.length

theorem dataSizes_length (pages : Pages) (lay : ObjectLayout) : (dataSizes pages lay).length = pageCount lay := by
  simp [dataSizes, pageCount]

/-- A create call for which there are as many free large pages as its data takes pages gets its pages, whatever else is
going on; it uses up no more large pages than that. -/
theorem C78_direct_pages (hc : c.Ok) {s : DSt} (h : Reach c s) (hf : PageFaultFree s) (key : List Byte) {size created : Nat} {lay : ObjectLayout}
    (h1 : size < 2 ^ 64) (h2 : created < 2 ^ 63) (hl : calcObjectLayoutDirect c.pages size = some lay) (hp : pageCount lay ≤ largePages c s) :
    (∃ s' m, Step c s s' ∧ at? s' s.nextCall = some (.createData m) ∧ m.key = key ∧ m.size = size ∧ m.created = created ∧
      m.lpages.length + m.tails.length = pageCount lay ∧ largePages c s ≤ largePages c s' + pageCount lay) ∧
    (∀ a', allocPages s.alloc (dataSizes c.pages lay) ≠ (none, a')) := by
  have hS := reach_safe hc h hf.1 hf.2.1 hf.2.2
  obtain ⟨lk, hi⟩ := hS.A.alloc
  obtain ⟨_, hs2⟩ := sizes_exps (pages := c.pages) hc.sl (tails_range hc hl)
  have hw := whole_eq hi
  obtain ⟨offs, a', e, hcard⟩ := Buddy.allocPages_whole hc.sl hs2 hi (by rw [dataSizes_length, ← hw]; exact hp)
  refine ⟨?_, fun b hb => by rw [e] at hb; cases hb⟩
  have hst := Step.createData (c := c) (s := s) key size created h1 h2 hl e
  have hlen := allocPages_len e
  rw [dataSizes_length] at hlen hcard
  refine ⟨_, _, hst, (at_iff (reach_lin (h.step hst)).calls).2 ⟨_, List.mem_append_right _ (List.mem_singleton.2 rfl), rfl, rfl⟩, rfl, rfl, rfl, ?_, ?_⟩
  · simp only [List.length_take, List.length_drop, hlen]
    unfold pageCount
    omega
  · rw [hw]
    refine Nat.le_trans hcard ?_
    unfold largePages Buddy.wholeFree
    have hi' := allocPages_inv hi hs2 e
    rw [hi'.2.hpages]
    exact Nat.le_refl _

/-- making a create call: the pages it takes -/
theorem made_pages (hc : c.Ok) {s s' : DSt} (h : Reach c s) (hf : PageFaultFree s) (hs : Step c s s') {m : Meta}
    (hi : at? s' s.nextCall = some (.createData m)) (hp : m.lpages.length + m.tails.length < largePages c s) (hk : SlotKnown c s) :
    0 < largePages c s' ∧ SlotKnown c s' := by
  have hn' := (reach_lin (h.step hs)).calls
  obtain ⟨x, hx, hxi, hxp⟩ := (at_iff hn').1 hi
  have hold : x ∉ s.threads := by
    intro hx
    have := ((reach_lin h).lt x hx).1
    omega
  have hlen : s'.threads.length = s.threads.length + 1 := by
    rcases thread_step hs with e | ⟨st, pc, e⟩ | ⟨pre, y, post, pc', e1, e2, e3⟩ | ⟨pre, y, post, e1, e2, _⟩
    · exact absurd (e ▸ hx) hold
    · rw [e]; simp
    · rcases thread_mem hs hx with h1 | h1 | ⟨z, hz, h1, _⟩
      · exact absurd h1 hold
      · exfalso
        rw [e2] at hx
        rcases List.mem_append.1 hx with h2 | h2
        · exact hold (by rw [e1]; exact List.mem_append_left _ h2)
        · rcases List.mem_cons.1 h2 with rfl | h2
          · have := ((reach_lin h).lt y (by rw [e1]; simp)).1
            have : y.call = s.nextCall := h1
            omega
          · exact hold (by rw [e1]; exact List.mem_append_right _ (List.mem_cons_of_mem _ h2))
      · have := ((reach_lin h).lt z hz).1
        omega
    · exfalso
      rw [e2] at hx
      rcases List.mem_append.1 hx with h2 | h2
      · exact hold (by rw [e1]; exact List.mem_append_left _ h2)
      · exact hold (by rw [e1]; exact List.mem_append_right _ (List.mem_cons_of_mem _ h2))
  cases hs with
  | @createData lay offs a' key size created h1 h2 h3 h4 =>
    have hlen := allocPages_len h4
    rw [dataSizes_length] at hlen
    have hm : m = ⟨size, created, key, offs.take lay.lpageCount, offs.drop lay.lpageCount⟩ := by
      rcases List.mem_append.1 hx with hx | hx
      · exact absurd hx hold
      · rw [List.mem_singleton] at hx
        subst hx
        exact (PC.createData.inj hxp).symm
    subst hm
    have hcnt : pageCount lay < largePages c s := by
      simp only [List.length_take, List.length_drop, hlen] at hp
      unfold pageCount at *
      omega
    have hS := reach_safe hc h hf.1 hf.2.1 hf.2.2
    obtain ⟨lk, hi⟩ := hS.A.alloc
    obtain ⟨_, hs2⟩ := sizes_exps (pages := c.pages) hc.sl (tails_range hc h3)
    have hw := whole_eq hi
    obtain ⟨offs', b', e, hcard⟩ := Buddy.allocPages_whole hc.sl hs2 hi (by rw [dataSizes_length, ← hw]; omega)
    rw [h4] at e
    cases e
    refine ⟨?_, hk⟩
    rw [dataSizes_length, ← hw] at hcard
    have hi' := allocPages_inv hi hs2 h4
    unfold largePages at hcnt hcard ⊢
    unfold Buddy.wholeFree at hcard
    rw [hi'.2.hpages] at hcard
    show 0 < (a'.free c.heap.pages.lpage).card
    omega
  | createDataPanic size h1 h2 =>
    rcases List.mem_append.1 hx with hx | hx
    · exact absurd hx hold
    · rw [List.mem_singleton] at hx; subst hx; cases hxp
  | commitClaim id ifne h1 =>
    rcases List.mem_append.1 hx with hx | hx
    · exact absurd hx hold
    · rw [List.mem_singleton] at hx; subst hx; cases hxp
  | delete k want h1 h2 =>
    rcases List.mem_append.1 hx with hx | hx
    · exact absurd hx hold
    · rw [List.mem_singleton] at hx; subst hx; cases hxp
  | _ =>
    exfalso
    first
    | (simp at hlen; done)
    | (have e := ‹s.threads = _ ++ _ :: _›
       rw [e] at hlen
       simp at hlen
       try omega)

/-- In every fair run: a create call (`i`, made at moment `n`) for which more large pages are free than its data takes
pages, while the index knows a free tuple slot, is answered with an upload token, if until then no other create is made
(commits, deletes, reads and writes of any objects may go on) and its metadata fits a large page. -/
theorem C78_direct_create_accepted (hc : c.Ok) (h : FairRun c σ) (hf : ∀ m, PageFaultFree (σ m)) {n i : Nat} {m : Meta} (hn : i = (σ n).nextCall)
    (hi : at? (σ (n + 1)) i = some (.createData m)) (hp : m.lpages.length + m.tails.length < largePages c (σ n)) (hk : SlotKnown c (σ n))
    (hl : m.enc.length ≤ 2 ^ c.pages.lpage)
    (ho : ∀ k, n < k → at? (σ k) i ≠ none → ∀ j q, j ≠ i → at? (σ k) j = some q → q.changes) :
    ∃ j, n < j ∧ Begun (σ j) i m := by
  have hst : Step c (σ n) (σ (n + 1)) := by
    rcases h.toRun.next n with e | e
    · exfalso
      rw [e] at hi
      obtain ⟨x, hx, hxi, _⟩ := (at_iff (reach_lin (h.toRun.reach n)).calls).1 hi
      have := ((reach_lin (h.toRun.reach n)).lt x hx).1
      omega
    · exact e
  obtain ⟨h1, h2⟩ := made_pages hc (h.toRun.reach n) (hf n) hst (hn ▸ hi) hp hk
  obtain ⟨j, hj, hb⟩ := sole_create hc h hf hi rfl hl ⟨fun _ _ => h1, fun _ _ _ _ => h2⟩ (fun k hk => ho k hk)
  exact ⟨j, hj, hb⟩

/-- Any number of creates at once: a create is answered with an upload token if at each moment until then a large page is
free and the index knows a free slot. -/
theorem C78_direct_creates_accepted (hc : c.Ok) (h : FairRun c σ) (hf : ∀ m, PageFaultFree (σ m)) {n i : Nat} {m : Meta}
    (hi : at? (σ n) i = some (.createData m)) (hl : m.enc.length ≤ 2 ^ c.pages.lpage)
    (hroom : ∀ k, n ≤ k → at? (σ k) i ≠ none → 0 < largePages c (σ k) ∧ SlotKnown c (σ k)) :
    ∃ j, n < j ∧ Begun (σ j) i m := by
  obtain ⟨j, hj, _, hb⟩ := create_begun hc h hf hi rfl (fun j hj q hq hqm => by
    have hr := hroom j hj (by rw [hq]; simp)
    exact enough_room hc (h.toRun.reach j) (hf j) hq hqm hl ⟨fun _ _ => hr.1, fun _ _ _ _ => hr.2⟩)
  refine ⟨j, ?_, hb⟩
  rcases Nat.lt_or_ge n j with h1 | h1
  · exact h1
  · exfalso
    have : j = n := by omega
    subst this
    obtain ⟨a, h1, h2, _⟩ := hb
    have := (reach_over (h.toRun.reach j)).no a h1
    rw [h2, hi] at this
    cases this

/-- In a store in which every call was answered, the free large pages are exactly the large-page places of the heap that
no page of a visible object or open upload touches. -/
theorem C78_direct_free_pages (hc : c.Ok) {s : DSt} (h : Reach c s) (hf : PageFaultFree s) (hq : s.threads = []) :
    ∃ l : List (Obj × Nat), (l.map (·.1)).Nodup ∧ (∀ o, o ∈ l.map (·.1) ↔ Alive s o) ∧
      ∃ P : Finset Nat, P.card = largePages c s ∧ ∀ k, k ∈ P ↔ (k + 1) * 2 ^ c.pages.lpage ≤ c.heap.heap ∧
        ∀ a ∈ taken c l, Spec.PageDisj (c.heap.base + k * 2 ^ c.pages.lpage, c.pages.lpage) a := by
  obtain ⟨l, h1, h2, h3⟩ := space_core hc h hf hq
  refine ⟨l, h1, h2, s.alloc.free c.pages.lpage, rfl, fun k => ?_⟩
  have := Buddy.mem_whole h3 hc.sl k
  unfold Buddy.wholeFree at this
  rw [h3.hpages, Buddy.vac_iff] at this
  rw [show c.pages = c.heap.pages from rfl, this, Nat.succ_mul]

/-- After a start the index knows a free slot if and only if there are fewer tuples than slots. -/
theorem C78_direct_slots {s s' : DSt} {order : List Tuple} (h : Reach c s) (hl : load c s order = some s') :
    SlotKnown c s' ↔ (diskTuples c.n s.ts).length < c.n * c.max := by
  obtain ⟨a0, l, _, _, hok, rfl⟩ := load_some hl
  have hlen : (diskTuples c.n s.ts).length = ((List.range c.n).map (fun b => (s.ts.disk b).length)).sum := by
    unfold diskTuples
    rw [List.length_flatMap]
  rw [hlen]
  have hcap : ∀ b, b < c.n → (s.ts.disk b).length ≤ c.max := hok.1
  have hsum : ∀ n, (∀ b, b < n → (s.ts.disk b).length ≤ c.max) →
      ((∃ b, b < n ∧ (s.ts.disk b).length < c.max) ↔ ((List.range n).map (fun b => (s.ts.disk b).length)).sum < n * c.max) := by
    intro n
    induction n with
    | zero => intro _; simp
    | succ n ih =>
      intro hc
      have ih := ih (fun b hb => hc b (by omega))
      have hle : ((List.range n).map (fun b => (s.ts.disk b).length)).sum ≤ n * c.max := sum_le n (fun b hb => hc b (by omega))
      have hn := hc n (by omega)
      rw [List.range_succ, List.map_append, List.sum_append, Nat.succ_mul]
      simp only [List.map_cons, List.map_nil, List.sum_cons, List.sum_nil, Nat.add_zero]
      constructor
      · rintro ⟨b, hb, hbl⟩
        rcases Nat.lt_or_ge b n with h1 | h1
        · have := ih.1 ⟨b, h1, hbl⟩
          omega
        · have : b = n := by omega
          subst this
          omega
      · intro hlt
        by_cases h1 : (s.ts.disk n).length < c.max
        · exact ⟨n, by omega, h1⟩
        · obtain ⟨b, hb, hbl⟩ := ih.2 (by omega)
          exact ⟨b, by omega, hbl⟩
  rw [← hsum c.n hcap]
  unfold SlotKnown
  simp only [TS.new, Bool.and_eq_true, decide_eq_true_eq]
  constructor
  · rintro ⟨b, h1, _, h2⟩; exact ⟨b, h1, h2⟩
  · rintro ⟨b, h1, h2⟩; exact ⟨b, h1, h1, h2⟩

/-- no large page, no upload: with all large pages in use the next create of an object with data panics -/
theorem C78_direct_condition_needed : ∃ s, Reach wcfg s ∧ wcfg.Ok ∧ PageFaultFree s ∧ largePages wcfg s = 0 ∧ SlotKnown wcfg s ∧
    ∃ lay, calcObjectLayoutDirect wcfg.pages 200 = some lay ∧ (allocPages s.alloc (dataSizes wcfg.pages lay)).1 = none := by
  have h : (wrun ([.createData [9] (128 * 16) 7])).map (fun s => decide (s.faults = [] ∧ largePages wcfg s = 0 ∧ s.ts.free 0 = true ∧
      ((calcObjectLayoutDirect wcfg.pages 200).map (fun lay => (allocPages s.alloc (dataSizes wcfg.pages lay)).1)) = some none)) = some true := by decide +kernel
  obtain ⟨s, h1, h2⟩ := Option.map_eq_some_iff.1 h
  simp only [decide_eq_true_eq] at h2
  obtain ⟨e1, e2, e3, e4⟩ := h2
  obtain ⟨lay, e5, e6⟩ := Option.map_eq_some_iff.1 e4
  exact ⟨s, wrun_reach h1, wcfg_ok, ⟨by rw [e1]; simp, by rw [e1]; simp, by rw [e1]; simp⟩, e2, ⟨0, by decide, e3⟩, lay, e5, e6⟩

/-- the other calls under way, as far as a create `i` is concerned -/
def othersChange (s : DSt) (i : Nat) : Bool :=
  s.threads.all (fun th => !decide (∃ x ∈ s.threads, x.call = i) || decide (th.call = i) || decide (0 < th.pc.rank ∧ th.pc.rank ≤ 6))

theorem othersChange_ok {s : DSt} (hr : Reach c s) {i : Nat} (h : othersChange s i = true) (hi : at? s i ≠ none) :
    ∀ j q, j ≠ i → at? s j = some q → q.changes := by
  intro j q hj hq
  have hn := (reach_lin hr).calls
  obtain ⟨x, hx, hxj, hxp⟩ := (at_iff hn).1 hq
  obtain ⟨p, hp⟩ := Option.ne_none_iff_exists'.1 hi
  obtain ⟨y, hy, hyi, _⟩ := (at_iff hn).1 hp
  have := List.all_eq_true.1 h x hx
  simp only [Bool.or_eq_true, Bool.not_eq_true', decide_eq_false_iff_not, decide_eq_true_eq] at this
  rcases this with (h1 | h1) | h1
  · exact absurd ⟨y, hy, hyi⟩ h1
  · omega
  · rw [hxp] at h1
    cases q <;> first | trivial | (simp [PC.rank] at h1; done)

/-- The hypotheses are met, with a write and a commit of another object going on: the create is call 2 of the run `mixed`. -/
theorem C78_direct_case : ∃ σ n m, FairRun wcfg σ ∧ wcfg.Ok ∧ (∀ k, PageFaultFree (σ k)) ∧ 2 = (σ n).nextCall ∧
    at? (σ (n + 1)) 2 = some (.createData m) ∧ m.key = [2] ∧ m.size = 20 ∧ m.lpages.length + m.tails.length = 1 ∧ 1 < largePages wcfg (σ n) ∧
    SlotKnown wcfg (σ n) ∧ m.enc.length ≤ 2 ^ wcfg.pages.lpage ∧ at? (σ n) 1 ≠ none ∧
    (∀ k, n < k → at? (σ k) 2 ≠ none → ∀ j q, j ≠ 2 → at? (σ k) j = some q → q.changes) := by
  obtain ⟨s0, h0⟩ : ∃ s0, fresh wcfg (fun _ => 0) = some s0 := Option.isSome_iff_exists.1 (by decide +kernel)
  have hall : (wrun mixed).map (fun s => decide (s.faults = [] ∧ s.threads = [] ∧ s.ts.batch = none ∧ s.writers.length = 0 ∧ s.ts.dirty 0 = false ∧
      s.ts.dirty 1 = false)) = some true := by decide +kernel
  have hn1 : (wrun (mixed.take 11)).map (fun s => decide (2 = s.nextCall ∧ 1 < largePages wcfg s ∧ s.ts.free 0 = true ∧ at? s 1 ≠ none)) = some true := by decide +kernel
  have hn2 : (wrun (mixed.take 12)).map (fun s => (at? s 2).map (fun q => match q with
      | .createData m => decide (m.key = [2] ∧ m.size = 20 ∧ m.lpages.length + m.tails.length = 1 ∧ m.enc.length ≤ 2 ^ wcfg.pages.lpage)
      | _ => false)) = some (some true) := by decide +kernel
  have hoth : (List.range 41).all (fun k => (wrun (mixed.take k)).map (fun s => othersChange s 2) == some true) = true := by decide +kernel
  have e : ∀ l, wrun l = Direct.run wcfg s0 l := fun l => by simp [wrun, h0]
  have hall' := hall
  rw [e] at hall'
  obtain ⟨s1, h1, hend⟩ := Option.map_eq_some_iff.1 hall'
  simp only [decide_eq_true_eq] at hend
  obtain ⟨g1, g2, g3, g4, g5, g6⟩ := hend
  obtain ⟨σ, r1, r2⟩ := run_of_cmds (.fresh h0) (by decide) h1
  have hmix : mixed.length ≤ 40 := by decide
  have hN : ∀ m, 40 ≤ m → σ m = s1 := by
    intro m hm
    have := r2 m
    rw [List.take_of_length_le (by omega), h1] at this
    exact (Option.some.inj this).symm
  have hσ : ∀ k, wrun (mixed.take k) = some (σ k) := fun k => by rw [e]; exact r2 k
  rw [hσ] at hn1 hn2
  simp only [Option.map_some, Option.some.injEq, decide_eq_true_eq] at hn1
  obtain ⟨a1, a2, a3, a4⟩ := hn1
  simp only [Option.map_some, Option.some.injEq] at hn2
  obtain ⟨q, b1, b2⟩ := Option.map_eq_some_iff.1 hn2
  have hfl : ∀ m f, f ∉ (σ m).faults := by
    intro m f hf
    have := faults_run r1 (n := m) (m := max m 40) (by omega) hf
    rw [hN _ (by omega), g1] at this
    cases this
  have hfair : FairRun wcfg σ := by
    refine fair_at_end r1 hN ?_ (List.eq_nil_of_length_eq_zero g4) g3 ?_
    · intro i; left; rw [at_none, g2]; simp
    · intro b hb
      have : b = 0 ∨ b = 1 := by have : wcfg.n = 2 := rfl
                                 omega
      rcases this with rfl | rfl <;> assumption
  cases q with
  | createData m =>
    simp only [decide_eq_true_eq] at b2
    refine ⟨σ, 11, m, hfair, wcfg_ok, fun k => ⟨hfl k _, hfl k _, hfl k _⟩, a1, b1, b2.1, b2.2.1, b2.2.2.1, a2, ⟨0, by decide, a3⟩, b2.2.2.2, a4, ?_⟩
    intro k _ hk
    refine othersChange_ok (c := wcfg) (r1.reach k) ?_ hk
    rcases Nat.lt_or_ge k 41 with h1 | h1
    · have := List.all_eq_true.1 hoth k (List.mem_range.2 h1)
      rw [hσ] at this
      simpa using this
    · rw [hN k (by omega)] 
      unfold othersChange
      rw [g2]
      rfl
  | _ => cases b2

end Props
end Blobd
