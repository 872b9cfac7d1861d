import Verif.Spec.Benchmark
set_option autoImplicit false
/-! # Benchmark runner: latency figures -/
namespace Blobd
namespace Bench

theorem roundAt_near (e x : Nat) : 2 * roundAt e x ≤ 2 * x + 2 ^ e ∧ 2 * x ≤ 2 * roundAt e x + 2 ^ e := by
  unfold roundAt
  have h1 := Nat.div_add_mod x (2 ^ e)
  have h2 := Nat.mod_lt x (Nat.two_pow_pos e)
  generalize hB : 2 ^ e = B at *
  generalize x / B = q at *
  generalize x % B = r at *
  have hq : (q + 1) * B = B * q + B := by rw [Nat.add_mul, Nat.one_mul, Nat.mul_comm]
  have hq0 : q * B = B * q := Nat.mul_comm _ _
  dsimp only
  split
  · omega
  · split
    · omega
    · have : q % 2 = 0 ∨ q % 2 = 1 := by omega
      rcases this with h | h <;> rw [h]
      · rw [Nat.add_zero]; omega
      · omega

theorem mulTrunc_near {x m : Nat} (hx : x ≤ 2 ^ 45) (hm : m < 2 ^ 53) : ∃ R, mulTrunc x m = R / 2 ^ 53 ∧ R ≤ x * m + 2 ^ 44 ∧ x * m ≤ R + 2 ^ 44 := by
  refine ⟨_, rfl, ?_⟩
  have h := roundAt_near (Nat.log2 (x * m) + 1 - 53) (x * m)
  have hp : x * m < 2 ^ 98 := by
    calc x * m ≤ 2 ^ 45 * m := Nat.mul_le_mul_right _ hx
      _ < 2 ^ 45 * 2 ^ 53 := Nat.mul_lt_mul_of_pos_left hm (by omega)
      _ = 2 ^ 98 := (Nat.pow_add 2 45 53).symm
  have he : Nat.log2 (x * m) + 1 - 53 ≤ 45 := by
    by_cases h0 : x * m = 0
    · rw [h0]; decide
    · have := (Nat.log2_lt h0).2 hp
      omega
  have hB : 2 ^ (Nat.log2 (x * m) + 1 - 53) ≤ 2 ^ 45 := Nat.pow_le_pow_right (by omega) he
  generalize 2 ^ (Nat.log2 (x * m) + 1 - 53) = B at h hB
  generalize roundAt _ _ = R at h ⊢
  generalize x * m = p at *
  omega

theorem idx95 {n : Nat} (hn : n ≤ 2 ^ 45) : 100 * mulTrunc n m95 ≤ 95 * n ∧ 95 * n ≤ 100 * (mulTrunc n m95 + 1) := by
  obtain ⟨R, h1, h2, h3⟩ := mulTrunc_near hn (m := m95) (by decide)
  rw [h1]
  unfold m95 at *
  omega

theorem idx99 {n : Nat} (hn : n ≤ 2 ^ 45) : 100 * mulTrunc n m99 ≤ 99 * n ∧ 99 * n ≤ 100 * (mulTrunc n m99 + 1) := by
  obtain ⟨R, h1, h2, h3⟩ := mulTrunc_near hn (m := m99) (by decide)
  rw [h1]
  unfold m99 at *
  omega

theorem idx_le {n : Nat} (hn : n ≤ 2 ^ 45) : mulTrunc n m95 ≤ mulTrunc n m99 := by
  obtain ⟨R, h1, h2, h3⟩ := mulTrunc_near hn (m := m95) (by decide)
  obtain ⟨R', h1', h2', h3'⟩ := mulTrunc_near hn (m := m99) (by decide)
  rw [h1, h1']
  unfold m95 m99 at *
  omega

theorem sorted_quantile {l s : List Nat} {num i v : Nat} (hs : s.Pairwise (· ≤ ·)) (hp : s.Perm l) (hi : s[i]? = some v)
    (h1 : num * l.length ≤ 100 * (i + 1)) (h2 : 100 * i ≤ num * l.length) (h3 : num ≤ 100) : Quantile num l v := by
  obtain ⟨hlt, hv⟩ := List.getElem?_eq_some_iff.1 hi
  have hlen := hp.length_eq
  have hget : ∀ a b (ha : a < s.length) (hb : b < s.length), a ≤ b → s[a] ≤ s[b] := by
    intro a b ha hb hab
    rcases Nat.lt_or_eq_of_le hab with h | rfl
    · exact List.pairwise_iff_getElem.1 hs a b ha hb h
    · exact Nat.le_refl _
  refine ⟨hp.mem_iff.1 (hv ▸ List.getElem_mem hlt), ?_, ?_⟩
  · have : i + 1 ≤ (l.filter (fun x => decide (x ≤ v))).length := by
      rw [← (hp.filter _).length_eq]
      have hsub := (List.take_sublist (i + 1) s).filter (fun x => decide (x ≤ v))
      have hall : (s.take (i + 1)).filter (fun x => decide (x ≤ v)) = s.take (i + 1) := by
        rw [List.filter_eq_self]
        intro x hx
        obtain ⟨k, hk, rfl⟩ := List.mem_iff_getElem.1 hx
        rw [List.getElem_take, ← hv]
        rw [List.length_take] at hk
        exact decide_eq_true (hget _ _ _ _ (by omega))
      rw [hall] at hsub
      have := hsub.length_le
      rw [List.length_take] at this
      omega
    omega
  · have : l.length - i ≤ (l.filter (fun x => decide (v ≤ x))).length := by
      rw [← (hp.filter _).length_eq]
      have hsub := (List.drop_sublist i s).filter (fun x => decide (v ≤ x))
      have hall : (s.drop i).filter (fun x => decide (v ≤ x)) = s.drop i := by
        rw [List.filter_eq_self]
        intro x hx
        obtain ⟨k, hk, rfl⟩ := List.mem_iff_getElem.1 hx
        rw [List.getElem_drop, ← hv]
        exact decide_eq_true (hget _ _ _ _ (by omega))
      rw [hall] at hsub
      have := hsub.length_le
      rw [List.length_drop] at this
      omega
    have h4 : (100 - num) * l.length + num * l.length = 100 * l.length := by rw [← Nat.add_mul]; congr 1; omega
    omega

theorem percentiles_spec {l : List Nat} (hn : l.length ≤ 2 ^ 45) (h0 : l ≠ []) : ∃ r, percentiles l = some r ∧
    Quantile 95 l r.p95 ∧ Quantile 99 l r.p99 ∧ r.p95 ≤ r.p99 ∧ r.p99 ≤ r.max ∧ r.max ∈ l ∧ ∀ x ∈ l, x ≤ r.max := by
  have hs : (l.mergeSort (fun a b => decide (a ≤ b))).Pairwise (· ≤ ·) := by
    have := List.pairwise_mergeSort (le := fun a b : Nat => decide (a ≤ b)) (by simp; omega) (by simp; omega) l
    simpa using this
  have hp : (l.mergeSort (fun a b => decide (a ≤ b))).Perm l := List.mergeSort_perm _ _
  unfold percentiles pick
  rw [if_neg h0]
  dsimp only
  generalize hsd : l.mergeSort (fun a b => decide (a ≤ b)) = s at hs hp ⊢
  have hlen := hp.length_eq
  have hpos : 0 < l.length := by cases l <;> simp at h0 ⊢
  have hn' : s.length ≤ 2 ^ 45 := by omega
  obtain ⟨a1, a2⟩ := idx95 hn'
  obtain ⟨b1, b2⟩ := idx99 hn'
  have hab := idx_le hn'
  generalize mulTrunc s.length m95 = i at *
  generalize mulTrunc s.length m99 = k at *
  have hi : min i (s.length - 1) < s.length := by omega
  have hk : min k (s.length - 1) < s.length := by omega
  have hm : s.length - 1 < s.length := by omega
  rw [List.getElem?_eq_getElem hi, List.getElem?_eq_getElem hk, List.getLast?_eq_getElem?, List.getElem?_eq_getElem hm]
  have hget : ∀ a b (ha : a < s.length) (hb : b < s.length), a ≤ b → s[a] ≤ s[b] := by
    intro a b ha hb hab
    rcases Nat.lt_or_eq_of_le hab with h | rfl
    · exact List.pairwise_iff_getElem.1 hs a b ha hb h
    · exact Nat.le_refl _
  refine ⟨_, rfl, ?_, ?_, ?_, ?_, ?_, ?_⟩
  · exact sorted_quantile hs hp (List.getElem?_eq_getElem hi) (by omega) (by omega) (by omega)
  · exact sorted_quantile hs hp (List.getElem?_eq_getElem hk) (by omega) (by omega) (by omega)
  · exact hget _ _ _ _ (by omega)
  · exact hget _ _ _ _ (by omega)
  · exact hp.mem_iff.1 (List.getElem_mem hm)
  · intro x hx
    obtain ⟨j, hj, rfl⟩ := List.mem_iff_getElem.1 (hp.mem_iff.2 hx)
    exact hget _ _ _ _ (by omega)

end Bench
end Blobd
