import Verif.Model.Capacity
import Verif.Spec.Capacity
import Verif.Props.DirectSpace
import Verif.Props.DirectTuples
/-!
# C59: how many objects a partition of the direct store can hold

`Holds L k`: exactly `k` objects are live. `GrowReach`: executions without a delete since the last start
(Spec/Capacity.lean). `tupleSlots reserved pages`: bundles times tuples per bundle (Model/Capacity.lean).
-/
set_option autoImplicit false
namespace Blobd
namespace Props
open Direct Direct.TS List

/-- all tuples of the index -/
def allIds (n : Nat) (s : TS) : List Nat := ((List.range n).flatMap s.bundles).map (·.id)

theorem allIds_nodup {max n : Nat} {s : TS} (h : TInv max n s) : (allIds n s).Nodup := by
  have key : ∀ l : List Nat, l.Nodup → (∀ b ∈ l, b < n) → ((l.flatMap s.bundles).map (·.id)).Nodup := by
    intro l
    induction l with
    | nil => intro _ _; simp
    | cons a l ih =>
      intro hn hl
      rw [flatMap_cons, map_append, nodup_append]
      rw [nodup_cons] at hn
      refine ⟨h.nodup a (hl a (by simp)), ih hn.2 (fun b hb => hl b (by simp [hb])), ?_⟩
      intro x hx y hy he
      obtain ⟨t, ht, rfl⟩ := mem_map.1 hx
      obtain ⟨u, hu, rfl⟩ := mem_map.1 hy
      obtain ⟨b, hb, hub⟩ := mem_flatMap.1 hu
      have := (h.uniq (hl a (by simp)) (hl b (by simp [hb])) ht hub he).1
      exact hn.1 (this ▸ hb)
  exact key _ nodup_range (fun b hb => by simpa using hb)

theorem allIds_length {n : Nat} {s : TS} : (allIds n s).length = ((List.range n).map (fun b => (s.bundles b).length)).sum := by
  rw [allIds, length_map, length_flatMap]

theorem sum_le {f : Nat → Nat} {m : Nat} : ∀ n, (∀ b, b < n → f b ≤ m) → ((List.range n).map f).sum ≤ n * m := by
  intro n
  induction n with
  | zero => simp
  | succ n ih =>
    intro h
    have h1 := ih (fun b hb => h b (by omega))
    have h2 := h n (by omega)
    rw [range_succ, map_append, sum_append, Nat.add_mul]
    simp; omega

theorem sum_full {f : Nat → Nat} {m : Nat} : ∀ n, (∀ b, b < n → f b ≤ m) →
    (((List.range n).map f).sum = n * m ↔ ∀ b, b < n → f b = m) := by
  intro n
  induction n with
  | zero => simp
  | succ n ih =>
    intro h
    have h1 := sum_le n (fun b hb => h b (by omega))
    have h2 := h n (by omega)
    have h3 := ih (fun b hb => h b (by omega))
    rw [range_succ, map_append, sum_append, Nat.add_mul]
    simp only [map_cons, map_nil, sum_cons, sum_nil, Nat.add_zero, Nat.one_mul]
    constructor
    · intro he b hb
      have e1 : ((List.range n).map f).sum = n * m := by omega
      rcases Nat.lt_succ_iff_lt_or_eq.1 hb with hb | rfl
      · exact h3.1 e1 b hb
      · omega
    · intro hall
      rw [h3.2 (fun b hb => hall b (by omega)), hall n (by omega)]

theorem holds_allIds {max n : Nat} {s : TS} {L : Live} (h : TReach max n s L) : Holds L (allIds n s).length := by
  refine ⟨allIds n s, allIds_nodup (treach_inv h), fun x => ?_, rfl⟩
  have hl := treach_live h x
  constructor
  · intro hx
    obtain ⟨t, ht, rfl⟩ := mem_map.1 hx
    obtain ⟨b, hb, htb⟩ := mem_flatMap.1 ht
    rw [(hl t).2 ⟨rfl, b, by simpa using hb, htb⟩]; simp
  · intro hx
    obtain ⟨t, ht⟩ := Option.ne_none_iff_exists'.1 hx
    obtain ⟨he, b, hb, htb⟩ := (hl t).1 ht
    exact mem_map.2 ⟨t, mem_flatMap.2 ⟨b, by simpa using hb, htb⟩, he⟩

theorem holds_uniq {L : Live} {j k : Nat} (h : Holds L j) (h' : Holds L k) : j = k := by
  obtain ⟨a, ha, ha', rfl⟩ := h
  obtain ⟨b, hb, hb', rfl⟩ := h'
  exact ((perm_ext_iff_of_nodup ha hb).2 (fun x => (ha' x).trans (hb' x).symm)).length_eq

/-- **C59 (upper bound).** In every execution of the tuple index, at most `n * max` objects are stored. -/
theorem C59_at_most_slots {max n : Nat} {s : TS} {L : Live} (h : TReach max n s L) : ∃ k, Holds L k ∧ k ≤ n * max :=
  ⟨_, holds_allIds h, by rw [allIds_length]; exact sum_le n (fun b hb => (treach_inv h).cap b hb)⟩

theorem grow_treach {max n : Nat} {s : TS} {L : Live} (h : GrowReach max n s L) : TReach max n s L := by
  induction h with
  | start i h L hL => exact .init i h L hL
  | insert _ o hs ih => exact .insert ih o hs
  | update _ c nw st hs ih => exact .update ih c nw st hs
  | bg _ hs ih => exact .bg ih hs

/-- without deletes, a bundle outside the free set is full -/
theorem grow_full {max n : Nat} {s : TS} {L : Live} (h : GrowReach max n s L) :
    ∀ b, b < n → s.free b = false → (s.bundles b).length = max := by
  induction h with
  | start i h L hL =>
    intro b hb hf
    have := h.1 b hb
    simp only [TS.new, hb, decide_true, Bool.true_and, decide_eq_false_iff_not] at hf ⊢
    omega
  | @insert s s' L hr o hs ih =>
    intro b hb hf
    obtain ⟨c, hm, _, _, hlen, rfl⟩ := insert_eq hs
    simp only at hf ⊢
    by_cases hbc : b = c
    · subst hbc
      rw [upd_same]
      by_cases he : (s.bundles b ++ [o]).length = max
      · exact he
      · rw [if_neg he] at hf
        have := ih b hb hf
        simp only [length_append, length_cons, length_nil]; omega
    · rw [upd_ne hbc]
      refine ih b hb ?_
      split at hf
      · rwa [upd_ne hbc] at hf
      · exact hf
  | @update s s' L hr cur nw st hs ih =>
    intro b hb hf
    have hi := treach_inv (grow_treach hr)
    obtain ⟨c, t, htb, ht, htid, _, _, rfl⟩ := update_eq hs
    simp only at hf ⊢
    have := ih b hb hf
    by_cases hbc : b = c
    · subst hbc
      rw [upd_same]
      have h2 := length_filter_id (hi.nodup b hb) ht
      rw [htid] at h2
      simp only [length_append, length_cons, length_nil]; omega
    · rw [upd_ne hbc]; exact this
  | bg _ hs ih =>
    obtain ⟨h1, _, h3⟩ := bg_bundles hs
    rw [h1, h3]; exact ih

/-- **C59 (exact capacity).** As long as nothing was deleted since the last start, creating an object fails exactly
when `n * max` objects are stored. -/
theorem C59_create_fails_iff_full {max n : Nat} {s : TS} {L : Live} (h : GrowReach max n s L) (o : Tuple)
    (ho : L o.id = none) : s.insertObject max n o = none ↔ Holds L (n * max) := by
  have hr := grow_treach h
  have hi := treach_inv hr
  have hh := holds_allIds hr
  have hsum := sum_full (f := fun b => (s.bundles b).length) n (fun b hb => hi.cap b hb)
  rw [(C26_panics_only_without_free_bundle_partial max n s L hr).1 o ho]
  have e : Holds L (n * max) ↔ ∀ b, b < n → (s.bundles b).length = max := by
    rw [← hsum, ← allIds_length]
    exact ⟨fun hx => holds_uniq hh hx, fun hx => hx ▸ hh⟩
  rw [e]
  constructor
  · intro hb b hbn
    exact grow_full h b hbn (hb b hbn).1
  · intro hb b hbn
    constructor
    · cases hf : s.free b with
      | false => rfl
      | true => have := (hi.free b hf).2; rw [hb b hbn] at this; omega
    · cases hf : s.freeDirty b with
      | false => rfl
      | true => have := (hi.fd b hf).2.1; rw [hb b hbn] at this; omega

/-- a formatted partition can be filled to any number of objects up to `n * max` -/
theorem fill_to (max n : Nat) : ∀ k, k ≤ n * max → ∃ s L, GrowReach max n s L ∧ Holds L k ∧ ∀ x, k ≤ x → L x = none := by
  intro k
  induction k with
  | zero =>
    intro _
    exact ⟨_, fun _ => none, .start (fun _ => []) ⟨by simp, by simp, by simp, by simp⟩ _ (by simp), ⟨[], by simp, by simp, rfl⟩, by simp⟩
  | succ k ih =>
    intro hk
    obtain ⟨s, L, hr, hh, hL⟩ := ih (by omega)
    cases hs : s.insertObject max n ⟨.incomplete, k, 0, 0⟩ with
    | none =>
      have := holds_uniq hh ((C59_create_fails_iff_full hr _ (hL k (by omega))).1 hs)
      omega
    | some s' =>
      refine ⟨s', _, .insert hr _ hs, ?_, ?_⟩
      · obtain ⟨ids, h1, h2, h3⟩ := hh
        refine ⟨k :: ids, ?_, fun x => ?_, by simp [h3]⟩
        · rw [nodup_cons, h2]
          exact ⟨fun hc => hc (hL k (by omega)), h1⟩
        · by_cases hx : x = k
          · subst hx; simp [upd_same]
          · simp only [mem_cons, hx, false_or, upd_ne hx]; exact h2 x
      · intro x hx
        simp only
        rw [upd_ne (by omega)]; exact hL x (by omega)

/-! ### The documented size of the tuple area -/

theorem slots_mul (reserved : Nat) (pages : Pages) : tupleSlots reserved pages * 24 ≤ tupleArea reserved pages := by
  unfold tupleSlots bundlesCount maxTuples
  rw [show tupleLen = 24 from rfl]
  calc _ = tupleArea reserved pages / 2 ^ pages.spage * (2 ^ pages.spage / 24 * 24) := by rw [Nat.mul_assoc]
    _ ≤ tupleArea reserved pages / 2 ^ pages.spage * 2 ^ pages.spage := Nat.mul_le_mul_left _ (Nat.div_mul_le_self _ _)
    _ ≤ _ := Nat.div_mul_le_self _ _

/-- **C59 is violated (sizing).** With the space the `store` adapter reserves for `objects` objects over `parts`
partitions (and so with the smaller documented setting), the slots of all partitions together are fewer than `objects`,
for every page configuration and every number of objects with `parts * large page ≤ 4 * objects`. -/
theorem C59_violated_reserved_space_too_small (pages : Pages) (objects parts : Nat) (hp : 0 < parts)
    (hN : parts * 2 ^ pages.lpage ≤ 4 * objects) :
    parts * tupleSlots (storeReserved objects parts) pages < objects ∧
    parts * tupleSlots (confReserved objects parts) pages < objects := by
  have key : ∀ r, parts * r ≤ objects * 20 + (parts - 1) → parts * tupleSlots r pages < objects := by
    intro r hr
    have h1 := slots_mul r pages
    have h2 : tupleArea r pages + 1 ≤ r + 2 ^ pages.lpage := ceilPow2_lt r pages.lpage
    have h3 : parts * (tupleSlots r pages * 24) ≤ parts * tupleArea r pages := Nat.mul_le_mul_left _ h1
    have h4 : parts * (tupleArea r pages + 1) ≤ parts * (r + 2 ^ pages.lpage) := Nat.mul_le_mul_left _ h2
    rw [Nat.mul_add, Nat.mul_add, Nat.mul_one] at h4
    rw [← Nat.mul_assoc] at h3
    omega
  refine ⟨key _ (Nat.mul_div_le _ _), key _ (Nat.le_trans (Nat.mul_div_le _ _) (by omega))⟩

/-- … and so some partition, formatted with that space and used only to create objects, refuses a create although it
holds fewer than its share of the objects. -/
theorem C59_violated_create_refused_early (pages : Pages) (objects parts : Nat) (hp : 0 < parts)
    (hN : parts * 2 ^ pages.lpage ≤ 4 * objects) :
    ∃ s L k, GrowReach (maxTuples pages) (bundlesCount (tupleArea (storeReserved objects parts) pages) pages) s L ∧
      Holds L k ∧ parts * k < objects ∧ ∀ o, L o.id = none →
        s.insertObject (maxTuples pages) (bundlesCount (tupleArea (storeReserved objects parts) pages) pages) o = none := by
  obtain ⟨s, L, hr, hh, _⟩ := fill_to (maxTuples pages) (bundlesCount (tupleArea (storeReserved objects parts) pages) pages) _ (Nat.le_refl _)
  exact ⟨s, L, _, hr, hh, (C59_violated_reserved_space_too_small pages objects parts hp hN).1,
    fun o ho => (C59_create_fails_iff_full hr o ho).2 hh⟩

/-- the default page sizes (512 bytes, 16 MiB) and five million objects on one partition -/
example : 1 * 2 ^ (⟨9, 24⟩ : Pages).lpage ≤ 4 * 5000000 ∧ tupleSlots (storeReserved 5000000 1) ⟨9, 24⟩ < 5000000 := by
  refine ⟨by decide, ?_⟩
  exact Nat.lt_of_le_of_lt (Nat.le_of_eq (Nat.one_mul _).symm) (C59_violated_reserved_space_too_small ⟨9, 24⟩ 5000000 1 (by decide) (by decide)).1

/-- What suffices: one small page for every `max` objects, rounded up. Then a partition used only to create (and commit)
objects since its last start accepts every create while it holds fewer than `objects` objects. -/
theorem C59_enough_space (pages : Pages) (hs : 24 ≤ 2 ^ pages.spage) (objects reserved : Nat)
    (hr : (objects + (maxTuples pages - 1)) / maxTuples pages * 2 ^ pages.spage ≤ reserved) {s : TS} {L : Live}
    (h : GrowReach (maxTuples pages) (bundlesCount (tupleArea reserved pages) pages) s L) {k : Nat} (hk : Holds L k)
    (hlt : k < objects) (o : Tuple) (ho : L o.id = none) :
    s.insertObject (maxTuples pages) (bundlesCount (tupleArea reserved pages) pages) o ≠ none := by
  intro hn
  have h1 := holds_uniq hk ((C59_create_fails_iff_full h o ho).1 hn)
  have hmax : 0 < maxTuples pages := Nat.div_pos hs (by decide)
  have h2 : (objects + (maxTuples pages - 1)) / maxTuples pages ≤ bundlesCount (tupleArea reserved pages) pages := by
    unfold bundlesCount
    exact (Nat.le_div_iff_mul_le (Nat.two_pow_pos _)).2 (Nat.le_trans hr (le_ceilPow2 _ _))
  have h3 : objects ≤ (objects + (maxTuples pages - 1)) / maxTuples pages * maxTuples pages := by
    have := Nat.div_add_mod (objects + (maxTuples pages - 1)) (maxTuples pages)
    have := Nat.mod_lt (objects + (maxTuples pages - 1)) hmax
    rw [Nat.mul_comm]
    omega
  have h4 := Nat.mul_le_mul_right (maxTuples pages) h2
  omega

/-- the hypotheses are met: 512-byte pages, 22 objects need two pages, one is stored -/
example : ∃ s L, GrowReach (maxTuples ⟨9, 24⟩) (bundlesCount (tupleArea 1024 ⟨9, 24⟩) ⟨9, 24⟩) s L ∧ Holds L 1 ∧ 1 < 22 ∧
    (22 + (maxTuples ⟨9, 24⟩ - 1)) / maxTuples ⟨9, 24⟩ * 2 ^ 9 ≤ 1024 := by
  obtain ⟨s, L, h, hh, _⟩ := fill_to (maxTuples ⟨9, 24⟩) (bundlesCount (tupleArea 1024 ⟨9, 24⟩) ⟨9, 24⟩) 1 (by decide)
  exact ⟨s, L, h, hh, by decide, by decide⟩

/-! ### The whole partition -/

/-- In every reachable state of a partition in which every call was answered (without the faults of C29), the objects
that can be read or committed are at most the slots. -/
theorem C59_store_capacity_partial {c : SCfg} (hc : c.Ok) {s : DSt} (h : Reach c s) (hf : PageFaultFree s) (hq : s.threads = []) :
    ∃ l : List Obj, l.Nodup ∧ (∀ o, o ∈ l ↔ Alive s o) ∧ l.length ≤ c.n * c.max := by
  obtain ⟨l, h1, h2, h3⟩ := space_core hc h hf hq
  have hs := reach_safe hc h hf.1 hf.2.1 hf.2.2
  have hk := reach_k h
  have hT : TInv c.max c.n s.ts := (reach_t h).1
  refine ⟨l.map (·.1), h1, h2, ?_⟩
  have hnd : ((l.map (·.1)).map (·.id)).Nodup := by
    refine Nodup.map_on ?_ h1
    intro o ho o' ho' he
    have hn : NamedO s.names o := ((h2 o).1 ho).elim (hs.N.com _ _) (hs.N.inc _ _)
    have hn' : NamedO s.names o' := ((h2 o').1 ho').elim (hs.N.com _ _) (hs.N.inc _ _)
    obtain ⟨mo, hm⟩ := hn
    obtain ⟨mo', hm'⟩ := hn'
    rw [he, hm'] at hm
    simp only [Option.some.injEq, Prod.mk.injEq] at hm
    cases o; cases o'
    simp_all
  have hsub : ∀ x ∈ (l.map (·.1)).map (·.id), x ∈ allIds c.n s.ts := by
    intro x hx
    obtain ⟨o, ho, rfl⟩ := mem_map.1 hx
    have ht : ∃ st, HasTuple s.ts o.id st := by
      rcases (h2 o).1 ho with ho | ho
      · rcases hk.ck _ _ ho with ht | ⟨th, hth, _⟩
        · exact ⟨_, ht⟩
        · rw [hq] at hth; simp at hth
      · exact ⟨_, hk.tki o.id (by rw [ho]; simp)⟩
    obtain ⟨_, b, t, htb, hti, _⟩ := ht
    have hb : b < c.n := by
      rcases Nat.lt_or_ge b c.n with hb | hb
      · exact hb
      · rw [(hT.out b hb).1] at htb; simp at htb
    exact mem_map.2 ⟨t, mem_flatMap.2 ⟨b, by simpa using hb, htb⟩, hti⟩
  have := (subperm_of_subset hnd hsub).length_le
  rw [length_map] at this
  refine Nat.le_trans this ?_
  rw [allIds_length]
  exact sum_le c.n (fun b hb => hT.cap b hb)

end Props
end Blobd
