import Verif.Spec.KvStore
import Verif.Proofs.KvLogInv
import Verif.Proofs.KvAlloc
import Verif.Proofs.KvObject
/-! # KV store: overlays, last writers, tuple maps -/
namespace Blobd
namespace Kv

/-! ### Last task per key -/

/-- the tasks not overwritten by a later one, newest first -/
def surv (l : List Task) : List Task :=
  l.foldl (fun m t => t :: m.filter (fun x => x.key ≠ t.key)) []

/-- the last task for a key -/
def lastFor (l : List Task) (k : Key) : Option Task := l.reverse.find? (fun t => t.key = k)

theorem snocInd {α : Type} {P : List α → Prop} (h0 : P []) (h1 : ∀ l a, P l → P (l ++ [a])) (l : List α) :
    P l := by
  have : ∀ l : List α, P l.reverse := by
    intro l
    induction l with
    | nil => exact h0
    | cons a l ih => rw [List.reverse_cons]; exact h1 _ _ ih
  simpa using this l.reverse

theorem surv_snoc (l : List Task) (t : Task) :
    surv (l ++ [t]) = t :: (surv l).filter (fun x => x.key ≠ t.key) := by
  simp [surv, List.foldl_append]

theorem lastFor_snoc (l : List Task) (t : Task) (k : Key) :
    lastFor (l ++ [t]) k = if t.key = k then some t else lastFor l k := by
  simp only [lastFor, List.reverse_append, List.reverse_cons, List.reverse_nil, List.nil_append,
    List.cons_append, List.find?_cons]
  by_cases h : t.key = k <;> simp [h]

theorem lastFor_append (a b : List Task) (k : Key) :
    lastFor (a ++ b) k = (lastFor b k).or (lastFor a k) := by
  simp [lastFor, List.find?_append]

theorem lastFor_nil (k : Key) : lastFor [] k = none := rfl

theorem lastFor_key {l : List Task} {k : Key} {t : Task} (h : lastFor l k = some t) :
    t.key = k ∧ t ∈ l := by
  unfold lastFor at h
  have h1 := List.find?_some h
  have h2 := List.mem_of_find?_eq_some h
  exact ⟨by simpa using h1, by simpa using h2⟩

theorem lastFor_none {l : List Task} {k : Key} : lastFor l k = none ↔ ∀ t ∈ l, t.key ≠ k := by
  simp [lastFor]

theorem specMap_snoc (l : List Task) (t : Task) (k : Key) :
    specMap (l ++ [t]) k = if k = t.key then t.val else specMap l k := by
  simp [specMap, List.foldl_append]

theorem specMap_append (a b : List Task) (k : Key) :
    specMap (a ++ b) k = match lastFor b k with | some t => t.val | none => specMap a k := by
  induction b using snocInd with
  | h0 => simp [lastFor_nil]
  | h1 b t ih =>
    rw [← List.append_assoc, specMap_snoc, lastFor_snoc, ih]
    by_cases h : t.key = k
    · subst h; simp
    · simp [h, Ne.symm h]

theorem specMap_append_some {a b : List Task} {k : Key} {t : Task} (h : lastFor b k = some t) :
    specMap (a ++ b) k = t.val := by rw [specMap_append, h]

theorem specMap_append_none {a b : List Task} {k : Key} (h : lastFor b k = none) :
    specMap (a ++ b) k = specMap a k := by rw [specMap_append, h]

theorem mem_surv {l : List Task} {t : Task} : t ∈ surv l ↔ lastFor l t.key = some t := by
  induction l using snocInd with
  | h0 => simp [surv, lastFor]
  | h1 l a ih =>
    rw [surv_snoc, lastFor_snoc]
    by_cases h : a.key = t.key
    · constructor
      · intro hm
        rcases List.mem_cons.1 hm with rfl | hm
        · simp
        · simp [h] at hm
      · intro hm
        simp [h] at hm
        simp [hm]
    · simp only [h, if_false, List.mem_cons, List.mem_filter, ih]
      constructor
      · rintro (rfl | ⟨h1, _⟩)
        · exact absurd rfl h
        · exact h1
      · intro h1
        exact .inr ⟨h1, by simp [Ne.symm h]⟩

theorem surv_keys_nodup (l : List Task) : ((surv l).map (·.key)).Nodup := by
  induction l using snocInd with
  | h0 => simp [surv]
  | h1 l a ih =>
    rw [surv_snoc, List.map_cons, List.nodup_cons]
    constructor
    · simp
    · exact ih.sublist (List.filter_sublist.map _)

theorem surv_mem {l : List Task} {t : Task} (h : t ∈ surv l) : t ∈ l := (lastFor_key (mem_surv.1 h)).2

theorem surv_append {a b : List Task} {t : Task} (h : t ∈ surv (a ++ b)) : t ∈ surv a ∨ t ∈ surv b := by
  rw [mem_surv, lastFor_append] at h
  rw [mem_surv, mem_surv]
  cases h2 : lastFor b t.key with
  | none => rw [h2] at h; exact .inl (by simpa using h)
  | some t' => rw [h2] at h; simp at h; exact .inr (by rw [h])

theorem lastFor_mem_surv {l : List Task} {k : Key} {t : Task} (h : lastFor l k = some t) :
    t ∈ surv l := by
  rw [mem_surv, (lastFor_key h).1]; exact h

theorem ofEntries_snoc (l : List (Key × Option Data)) (e : Key × Option Data) :
    Overlay.ofEntries (l ++ [e]) = (Overlay.ofEntries l).insert e.1 e.2 := by
  simp [Overlay.ofEntries, List.foldl_append]

theorem ofEntries_erase (l : List Task) :
    Overlay.ofEntries (l.map Task.erase) = (surv l).map Task.erase := by
  induction l using snocInd with
  | h0 => rfl
  | h1 l t ih =>
    rw [List.map_append, List.map_cons, List.map_nil, ofEntries_snoc, ih, surv_snoc]
    simp only [Overlay.insert, List.map_cons, Task.erase, List.filter_map]
    congr 1

theorem get_insert (m : Overlay) (k k' : Key) (e : Option Data) :
    (m.insert k e).get k' = if k = k' then some e else m.get k' := by
  unfold Overlay.insert Overlay.get
  rw [List.find?_cons]
  by_cases h : k = k'
  · simp [h]
  · simp only [h, decide_false, if_false]
    congr 1
    rw [List.find?_filter]
    congr 1
    funext x
    by_cases hx : x.1 = k'
    · simp [hx, Ne.symm h]
    · simp [hx]

theorem get_ofEntries (l : List Task) (k : Key) :
    (Overlay.ofEntries (l.map Task.erase)).get k = (lastFor l k).map (·.op) := by
  induction l using snocInd with
  | h0 => rfl
  | h1 l t ih =>
    rw [List.map_append, List.map_cons, List.map_nil, ofEntries_snoc, get_insert, ih, lastFor_snoc]
    by_cases h : t.key = k <;> simp [Task.erase, h]

/-! ### Tuple maps -/

def tget (m : List (Key × Data)) (k : Key) : Option Data := (m.find? (fun t => t.1 = k)).map (·.2)

theorem tget_mem {m : List (Key × Data)} {k : Key} {d : Data} (h : tget m k = some d) : (k, d) ∈ m := by
  unfold tget at h
  cases hf : m.find? (fun t => t.1 = k) with
  | none => rw [hf] at h; cases h
  | some t =>
    rw [hf] at h
    have h1 := List.find?_some hf
    have h2 := List.mem_of_find?_eq_some hf
    simp at h1 h
    obtain ⟨a, b⟩ := t
    simp only at h1 h
    subst h1 h
    exact h2

theorem tget_none {m : List (Key × Data)} {k : Key} : tget m k = none ↔ ∀ t ∈ m, t.1 ≠ k := by
  simp [tget]

theorem tget_of_mem {m : List (Key × Data)} (hn : (m.map (·.1)).Nodup) {k : Key} {d : Data}
    (h : (k, d) ∈ m) : tget m k = some d := by
  induction m with
  | nil => cases h
  | cons t m ih =>
    obtain ⟨a, b⟩ := t
    simp only [List.map_cons, List.nodup_cons] at hn
    unfold tget
    rw [List.find?_cons]
    by_cases ha : a = k
    · subst ha
      rcases List.mem_cons.1 h with h | h
      · simp at h; simp [h]
      · exact absurd (List.mem_map.2 ⟨_, h, rfl⟩) hn.1
    · simp only [ha, decide_false]
      rcases List.mem_cons.1 h with h | h
      · simp at h; exact absurd h.1.symm ha
      · exact ih hn.2 h

theorem tget_perm {m m' : List (Key × Data)} (hn : (m.map (·.1)).Nodup) (hp : m.Perm m') (k : Key) :
    tget m k = tget m' k := by
  cases h : tget m k with
  | none =>
    rw [tget_none] at h
    rw [eq_comm, tget_none]
    exact fun t ht => h t (hp.mem_iff.2 ht)
  | some d =>
    have h1 := hp.mem_iff.1 (tget_mem h)
    exact (tget_of_mem ((hp.map _).nodup_iff.1 hn) h1).symm

theorem tget_filter_ne (m : List (Key × Data)) (k k' : Key) :
    tget (m.filter (fun x => x.1 ≠ k)) k' = if k = k' then none else tget m k' := by
  unfold tget
  rw [List.find?_filter]
  by_cases h : k = k'
  · subst h
    simp
  · rw [if_neg h]
    congr 2
    funext x
    by_cases hx : x.1 = k'
    · simp [hx, Ne.symm h]
    · simp [hx]

theorem tget_cons (k : Key) (d : Data) (m : List (Key × Data)) (k' : Key) :
    tget ((k, d) :: m) k' = if k = k' then some d else tget m k' := by
  unfold tget
  rw [List.find?_cons]
  by_cases h : k = k' <;> simp [h]

theorem pageGet_eq (page : List Byte) (k : Key) : pageGet page k = tget ((bundleDeserialise page).getD []) k := rfl

theorem collectMap_eq (ts : List (Key × Data)) (hn : (ts.map (·.1)).Nodup) : collectMap ts = ts.reverse := by
  induction ts using snocInd with
  | h0 => rfl
  | h1 l t ih =>
    rw [List.map_append, List.map_cons, List.map_nil, List.nodup_append] at hn
    have : collectMap (l ++ [t]) = t :: (collectMap l).filter (fun x => x.1 ≠ t.1) := by
      simp [collectMap, List.foldl_append]
    rw [this, ih hn.1, List.reverse_append]
    simp only [List.reverse_cons, List.reverse_nil, List.nil_append, List.cons_append]
    congr 1
    rw [List.filter_eq_self]
    intro x hx
    have := hn.2.2 x.1 (List.mem_map.2 ⟨x, by simpa using hx, rfl⟩) t.1 (by simp)
    simpa using this

/-! ### Reading the device -/

theorem read_congr {m m' : Mem} {off n : Nat} (h : ∀ x, off ≤ x → x < off + n → m' x = m x) :
    m'.read off n = m.read off n := by
  apply List.ext_getElem
  · simp
  · intro i h1 h2
    simp only [Mem.length_read] at h1
    simp only [Mem.read, List.getElem_map, List.getElem_range]
    exact h _ (by omega) (by omega)

end Kv
end Blobd
