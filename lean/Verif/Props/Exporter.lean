import Verif.Model.Exporter
import Verif.Proofs.ConcWrite
import Mathlib.Data.List.Sort
/-!
# C32: data export
-/
namespace Blobd
namespace Props
open Exporter Direct

/-- `(id, partition)` order on markers, spelled out -/
def Before (a b : Marker) : Prop := a.objectId < b.objectId ∨ (a.objectId = b.objectId ∧ a.partition < b.partition)

private theorem le_iff (a b : Marker) : a.le b = true ↔ Before a b ∨ a = b := by
  cases a with | mk a1 a2 =>
  cases b with | mk b1 b2 =>
  simp only [Marker.le, Marker.cmp, Before, bne_iff_ne, ne_eq, Marker.mk.injEq]
  rcases Nat.lt_trichotomy a1 b1 with h | h | h
  · simp [Nat.compare_eq_lt.2 h, Ordering.then, h]
  · subst h
    simp only [Nat.compare_eq_eq.2 rfl, Ordering.then, Nat.lt_irrefl, false_or, true_and]
    rw [Nat.compare_eq_gt]
    omega
  · simp only [Nat.compare_eq_gt.2 h, Ordering.then]
    simp only [not_true_eq_false, false_iff]
    omega

private theorem le_trans' (a b c : Marker × Tuple) (h1 : a.1.le b.1 = true) (h2 : b.1.le c.1 = true) :
    a.1.le c.1 = true := by
  rw [le_iff] at *
  rcases h1 with h1 | h1
  · rcases h2 with h2 | h2
    · left; unfold Before at *; omega
    · rw [← h2]; exact Or.inl h1
  · rw [h1]; exact h2

private theorem le_total' (a b : Marker × Tuple) : (a.1.le b.1 || b.1.le a.1) = true := by
  have e : ∀ x y : Marker, (¬ Before x y ∧ ¬ Before y x) → x = y := by
    rintro ⟨x1, x2⟩ ⟨y1, y2⟩ h
    unfold Before at h
    simp only at h
    have h1 : x1 = y1 := by omega
    have h2 : x2 = y2 := by omega
    rw [h1, h2]
  simp only [Bool.or_eq_true, le_iff]
  by_cases h1 : Before a.1 b.1
  · exact Or.inl (Or.inl h1)
  · by_cases h2 : Before b.1 a.1
    · exact Or.inr (Or.inl h2)
    · exact Or.inl (Or.inr (e _ _ ⟨h1, h2⟩))

/-- What a well-formed set of tuple areas is: each partition once, and within a partition no object id
twice (both hold of every tuple area the store writes, see C25). -/
structure AreasOk (areas : List (Nat × List Tuple)) : Prop where
  parts : (areas.map (·.1)).Nodup
  ids : ∀ a ∈ areas, (a.2.map (·.id)).Nodup

private theorem mem_entries (areas : List (Nat × List Tuple)) (off m : Marker) (t : Tuple) :
    (m, t) ∈ entries areas off ↔ ∃ ts, (m.partition, ts) ∈ areas ∧ t ∈ ts ∧ t.state = .committed ∧
      m.objectId = t.id ∧ (Before off m ∨ off = m) := by
  unfold entries
  rw [List.mem_mergeSort, List.mem_flatMap]
  constructor
  · rintro ⟨⟨p, ts⟩, ha, hm⟩
    unfold partEntries at hm
    rw [List.mem_filterMap] at hm
    obtain ⟨u, hu, h⟩ := hm
    simp only [Option.ite_none_right_eq_some, Option.some.injEq, Prod.mk.injEq] at h
    obtain ⟨⟨h1, h2⟩, rfl, rfl⟩ := h
    exact ⟨ts, ha, hu, h2, rfl, (le_iff _ _).1 h1⟩
  · rintro ⟨ts, ha, ht, hs, hid, hb⟩
    refine ⟨(m.partition, ts), ha, ?_⟩
    unfold partEntries
    rw [List.mem_filterMap]
    refine ⟨t, ht, ?_⟩
    have e : (⟨t.id, m.partition⟩ : Marker) = m := by cases m; simp_all
    simp only [e, (le_iff _ _).2 hb, hs, and_self, if_true]

private theorem nodup_markers {areas : List (Nat × List Tuple)} (hok : AreasOk areas) (off : Marker) :
    ((areas.flatMap (fun a => partEntries off a.1 a.2)).map (·.1)).Nodup := by
  obtain ⟨h1, h2⟩ := hok
  induction areas with
  | nil => simp
  | cons a as ih =>
    simp only [List.map_cons, List.nodup_cons] at h1
    rw [List.flatMap_cons, List.map_append, List.nodup_append]
    refine ⟨?_, ih h1.2 (fun b hb => h2 b (List.mem_cons_of_mem _ hb)), ?_⟩
    · have h := h2 a List.mem_cons_self
      generalize a.2 = ts at h
      induction ts with
      | nil => simp [partEntries]
      | cons t ts ih2 =>
        simp only [List.map_cons, List.nodup_cons] at h
        unfold partEntries at *
        rw [List.filterMap_cons]
        split
        · exact ih2 h.2
        · rename_i x hx
          simp only [Option.ite_none_right_eq_some, Option.some.injEq] at hx
          obtain ⟨_, rfl⟩ := hx
          simp only [List.map_cons, List.nodup_cons]
          refine ⟨?_, ih2 h.2⟩
          intro hc
          obtain ⟨⟨m, u⟩, hu, he⟩ := List.mem_map.1 hc
          obtain ⟨v, hv, hv2⟩ := List.mem_filterMap.1 hu
          simp only [Option.ite_none_right_eq_some, Option.some.injEq, Prod.mk.injEq] at hv2
          obtain ⟨_, rfl, rfl⟩ := hv2
          simp only [Marker.mk.injEq] at he
          exact h.1 (List.mem_map.2 ⟨v, hv, he.1⟩)
    · intro x hx y hy hxy
      subst hxy
      obtain ⟨⟨m, u⟩, hu, rfl⟩ := List.mem_map.1 hx
      obtain ⟨⟨m', u'⟩, hu', he⟩ := List.mem_map.1 hy
      obtain ⟨b, hb, hb2⟩ := List.mem_flatMap.1 hu'
      unfold partEntries at hu hb2
      obtain ⟨v, hv, hv2⟩ := List.mem_filterMap.1 hu
      obtain ⟨v', hv', hv2'⟩ := List.mem_filterMap.1 hb2
      simp only [Option.ite_none_right_eq_some, Option.some.injEq, Prod.mk.injEq] at hv2 hv2'
      obtain ⟨_, rfl, rfl⟩ := hv2
      obtain ⟨_, rfl, rfl⟩ := hv2'
      simp only [Marker.mk.injEq] at he
      exact h1.1 (List.mem_map.2 ⟨b, hb, he.2⟩)

/-- **C32 (a).** An export starting at marker `off` yields exactly the committed objects whose marker is
`off` or later — every one of them, with its marker being its id and partition — in strictly increasing
(id, partition) order, hence each exactly once. -/
theorem C32_lists_each_once (areas : List (Nat × List Tuple)) (hok : AreasOk areas) (off : Marker) :
    (∀ m t, (m, t) ∈ entries areas off ↔ ∃ ts, (m.partition, ts) ∈ areas ∧ t ∈ ts ∧ t.state = .committed ∧
      m.objectId = t.id ∧ (Before off m ∨ off = m)) ∧
    (entries areas off).Pairwise (fun a b => Before a.1 b.1) := by
  refine ⟨mem_entries areas off, ?_⟩
  have hs : (entries areas off).Pairwise (fun a b => a.1.le b.1 = true) :=
    List.pairwise_mergeSort le_trans' le_total' _
  have hn : ((entries areas off).map (·.1)).Nodup :=
    ((List.mergeSort_perm _ _).map _).nodup_iff.2 (nodup_markers hok off)
  rw [List.Nodup, List.pairwise_map] at hn
  refine (hs.and hn).imp ?_
  rintro a b ⟨h1, h2⟩
  rw [le_iff] at h1
  exact h1.resolve_right h2

/-- The default marker is the smallest: exporting from it yields every committed object. -/
theorem C32_default_is_everything (m : Marker) : Before Marker.default m ∨ Marker.default = m := by
  cases m with | mk a b =>
  simp only [Before, Marker.default, Marker.mk.injEq]
  omega

private theorem sorted_ext {l1 l2 : List (Marker × Tuple)} (h1 : l1.Pairwise (fun a b => Before a.1 b.1))
    (h2 : l2.Pairwise (fun a b => Before a.1 b.1)) (hm : ∀ x, x ∈ l1 ↔ x ∈ l2) : l1 = l2 := by
  have hirr : ∀ x : Marker × Tuple, ¬ Before x.1 x.1 := by intro x h; unfold Before at h; omega
  have hnd : ∀ l : List (Marker × Tuple), l.Pairwise (fun a b => Before a.1 b.1) → l.Nodup :=
    fun l h => List.Pairwise.imp (R := fun a b : Marker × Tuple => Before a.1 b.1)
      (fun {a b} hab => fun (he : a = b) => hirr a (by rw [← he] at hab; exact hab)) h
  refine List.Perm.eq_of_pairwise (le := fun a b => Before a.1 b.1) ?_ h1 h2
    ((List.perm_ext_iff_of_nodup (hnd _ h1) (hnd _ h2)).2 hm)
  intro a b _ _ hab hba
  unfold Before at hab hba
  omega

/-- **C32 (b).** The export can be resumed: starting again at any marker it returned yields exactly the
rest of the walk, beginning with that object. So walking with the returned markers, however the walk is
cut into pieces, visits every object exactly once. -/
theorem C32_resume_exact (areas : List (Nat × List Tuple)) (hok : AreasOk areas) (off m : Marker) (t : Tuple)
    (done rest : List (Marker × Tuple)) (h : entries areas off = done ++ (m, t) :: rest) :
    entries areas m = (m, t) :: rest := by
  obtain ⟨hmem, hsort⟩ := C32_lists_each_once areas hok off
  obtain ⟨hmem2, hsort2⟩ := C32_lists_each_once areas hok m
  rw [h] at hsort
  have hs2 := (List.pairwise_append.1 hsort)
  refine sorted_ext hsort2 hs2.2.1 ?_
  rintro ⟨m', t'⟩
  rw [hmem2]
  have hm := (hmem m t).1 (by rw [h]; simp)
  have hoff : Before off m ∨ off = m := by obtain ⟨_, _, _, _, _, hb⟩ := hm; exact hb
  have hirr : ¬ Before m m := by unfold Before; omega
  constructor
  · rintro ⟨ts, h1, h2, h3, h4, h5⟩
    have hb' : Before off m' ∨ off = m' := by
      rcases h5 with h5 | h5
      · rcases hoff with ho | ho
        · left; unfold Before at *; omega
        · rw [ho]; exact Or.inl h5
      · rw [← h5]; exact hoff
    have hin := (hmem m' t').2 ⟨ts, h1, h2, h3, h4, hb'⟩
    rw [h, List.mem_append] at hin
    rcases hin with hin | hin
    · exfalso
      have := hs2.2.2 _ hin (m, t) (by simp)
      simp only at this
      rcases h5 with h5 | h5
      · unfold Before at *; omega
      · rw [h5] at this; unfold Before at this; omega
    · exact hin
  · intro hin
    have hin2 : (m', t') ∈ entries areas off := by rw [h]; simp only [List.mem_append]; exact Or.inr hin
    obtain ⟨ts, h1, h2, h3, h4, h5⟩ := (hmem m' t').1 hin2
    refine ⟨ts, h1, h2, h3, h4, ?_⟩
    rcases List.mem_cons.1 hin with he | he
    · right; injection he with e1 _; exact e1.symm
    · left; exact (List.pairwise_cons.1 hs2.2.1).1 _ he

/-- **C32 (c).** The order in which the partitions' tuple areas are loaded is irrelevant. -/
theorem C32_load_order_irrelevant (areas areas' : List (Nat × List Tuple)) (hok : AreasOk areas)
    (hp : areas.Perm areas') (off : Marker) : entries areas' off = entries areas off := by
  have hok' : AreasOk areas' := ⟨(hp.map _).nodup_iff.1 hok.parts, fun a ha => hok.ids a (hp.mem_iff.2 ha)⟩
  obtain ⟨hm, hs⟩ := C32_lists_each_once areas hok off
  obtain ⟨hm', hs'⟩ := C32_lists_each_once areas' hok' off
  refine sorted_ext hs' hs ?_
  rintro ⟨m, t⟩
  rw [hm, hm']
  simp only [hp.mem_iff]

private theorem stream_flatten (dev : Mem) (rs : List (Nat × Nat)) (rem : Nat) :
    (stream dev rem rs).flatten = (rs.flatMap (fun r => dev.read r.1 r.2)).take rem := by
  induction rs generalizing rem with
  | nil => simp [stream]
  | cons r rs ih =>
    simp only [stream, List.flatten_cons, List.flatMap_cons, ih]
    rw [List.take_append, Mem.length_read]

/-- **C32 (d).** The data stream of an exported object, concatenated, is exactly the object's bytes,
for every size and page layout (including empty objects). -/
theorem C32_data_exact (pages : Pages) (hp : RW.PagesOk pages) (dev : Mem) (o : RW.Obj) (lay : ObjectLayout)
    (hlay : calcObjectLayoutDirect pages o.size = some lay) :
    ∃ chunks, readData pages dev o = some chunks ∧ chunks.flatten = RW.contents pages lay dev o ∧
      chunks.flatten.length = o.size := by
  have hlay' : calcObjectLayout pages o.size = some lay := by
    unfold calcObjectLayoutDirect at hlay
    split at hlay
    · exact hlay
    · exact absurd hlay (by simp)
  obtain ⟨es, hi⟩ := RW.layInfo_of hp hlay'
  unfold readData
  rw [hlay]
  have hc : (stream dev o.size (reads pages lay ((List.range lay.lpageCount).map o.lpageOff) o.tailOff)).flatten =
      RW.contents pages lay dev o := by
    rw [stream_flatten]
    unfold RW.contents RW.allBytes RW.objPages reads
    congr 1
    rw [List.flatMap_append, List.flatMap_append]
    congr 1
    · simp [List.flatMap_map]
    · have hz : lay.tailPageSizes.toIter = lay.tailPageSizes.toList.zipIdx.map (fun ei => (ei.2, ei.1)) := by
        rw [hi.rep.toIter, hi.rep.toList]; rfl
      rw [hz]
      simp [List.flatMap_map, Nat.shiftLeft_eq]
  refine ⟨_, rfl, hc, ?_⟩
  rw [hc]
  exact RW.contents_length hi dev

/-- non-vacuity: two partitions sharing an object id; exporting from the middle finds the object with the
larger partition number -/
example : let areas := [(0, [⟨.committed, 5, 0, 9⟩, ⟨.incomplete, 3, 0, 9⟩]),
      (1, [⟨.committed, 5, 0, 9⟩, (⟨.committed, 4, 0, 9⟩ : Tuple)])]
    AreasOk areas ∧ ((⟨5, 1⟩, ⟨.committed, 5, 0, 9⟩) : Marker × Tuple) ∈ entries areas ⟨4, 1⟩ ∧
    ((⟨5, 0⟩, ⟨.committed, 5, 0, 9⟩) : Marker × Tuple) ∉ entries areas ⟨5, 1⟩ := by
  intro areas
  have hok : AreasOk areas := ⟨by decide, by decide⟩
  refine ⟨hok, ?_, ?_⟩
  · rw [(C32_lists_each_once areas hok _).1]
    exact ⟨[⟨.committed, 5, 0, 9⟩, ⟨.committed, 4, 0, 9⟩], by decide, by decide, rfl, rfl, by unfold Before; decide⟩
  · rw [(C32_lists_each_once areas hok _).1]
    rintro ⟨_, _, _, _, _, h⟩
    unfold Before at h
    simp at h

end Props
end Blobd
