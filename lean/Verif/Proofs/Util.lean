import Verif.Model.Util
/-! Arithmetic facts about `util.rs`. -/
namespace Blobd

@[simp] theorem divModPow2_eq (v p : Nat) : divModPow2 v p = (v / 2 ^ p, v % 2 ^ p) := by
  simp only [divModPow2, Nat.shiftRight_eq_div_pow, Nat.one_shiftLeft, Nat.and_two_pow_sub_one_eq_mod]

@[simp] theorem divPow2_eq (v p : Nat) : divPow2 v p = v / 2 ^ p := by simp [divPow2]
@[simp] theorem modPow2_eq (v p : Nat) : modPow2 v p = v % 2 ^ p := by simp [modPow2]
@[simp] theorem mulPow2_eq (v p : Nat) : mulPow2 v p = v * 2 ^ p := by
  simp [mulPow2, Nat.shiftLeft_eq]

theorem ceilPow2_eq (v p : Nat) :
    ceilPow2 v p = (if v % 2 ^ p ≠ 0 then v / 2 ^ p + 1 else v / 2 ^ p) * 2 ^ p := by
  simp [ceilPow2, Nat.shiftLeft_eq]

theorem floorPow2_eq (v p : Nat) : floorPow2 v p = v / 2 ^ p * 2 ^ p := by
  simp [floorPow2, Nat.shiftLeft_eq]

@[simp] theorem isMultipleOfPow2_iff (v p : Nat) : isMultipleOfPow2 v p = true ↔ 2 ^ p ∣ v := by
  simp [isMultipleOfPow2, Nat.dvd_iff_mod_eq_zero]

theorem ceilPow2_dvd (v p : Nat) : 2 ^ p ∣ ceilPow2 v p := by
  rw [ceilPow2_eq]; exact Nat.dvd_mul_left _ _

theorem floorPow2_dvd (v p : Nat) : 2 ^ p ∣ floorPow2 v p := by
  rw [floorPow2_eq]; exact Nat.dvd_mul_left _ _

theorem le_ceilPow2 (v p : Nat) : v ≤ ceilPow2 v p := by
  have h := Nat.div_add_mod v (2 ^ p)
  have h2 := Nat.mod_lt v (Nat.two_pow_pos p)
  rw [ceilPow2_eq]
  split
  · rw [Nat.add_mul, Nat.mul_comm]; omega
  · rw [Nat.mul_comm]; omega

theorem ceilPow2_lt (v p : Nat) : ceilPow2 v p < v + 2 ^ p := by
  have h := Nat.div_add_mod v (2 ^ p)
  have h2 := Nat.mod_lt v (Nat.two_pow_pos p)
  rw [ceilPow2_eq]
  split
  · rw [Nat.add_mul, Nat.mul_comm]; omega
  · rw [Nat.mul_comm]; omega

theorem floorPow2_le (v p : Nat) : floorPow2 v p ≤ v := by
  rw [floorPow2_eq]; exact Nat.div_mul_le_self v _

theorem lt_floorPow2 (v p : Nat) : v < floorPow2 v p + 2 ^ p := by
  have h := Nat.div_add_mod v (2 ^ p)
  have h2 := Nat.mod_lt v (Nat.two_pow_pos p)
  rw [floorPow2_eq, Nat.mul_comm]; omega

theorem ceilPow2_eq_self_of_dvd {v p : Nat} (h : 2 ^ p ∣ v) : ceilPow2 v p = v := by
  rw [ceilPow2_eq, if_neg (by simpa using Nat.mod_eq_zero_of_dvd h)]
  exact Nat.div_mul_cancel h

/-- `ceilPow2` is the least multiple. -/
theorem ceilPow2_le_of_dvd {v p m : Nat} (hd : 2 ^ p ∣ m) (hm : v ≤ m) : ceilPow2 v p ≤ m := by
  obtain ⟨k, rfl⟩ := hd
  obtain ⟨j, hj⟩ := ceilPow2_dvd v p
  have h := ceilPow2_lt v p
  rw [hj] at h ⊢
  apply Nat.mul_le_mul_left
  have : 2 ^ p * j < 2 ^ p * (k + 1) := by rw [Nat.mul_add]; omega
  exact Nat.lt_succ_iff.mp (Nat.lt_of_mul_lt_mul_left this)

theorem le_nextPow2 (n : Nat) : n ≤ 2 ^ nextPow2Exp n := by
  unfold nextPow2Exp
  split
  · omega
  · have := Nat.lt_log2_self (n := n - 1)
    omega

/-- minimality of `next_power_of_two` -/
theorem nextPow2Exp_le {n e : Nat} (h : n ≤ 2 ^ e) : nextPow2Exp n ≤ e := by
  unfold nextPow2Exp
  split
  · omega
  · rename_i hn
    have : n - 1 < 2 ^ e := by omega
    exact (Nat.log2_lt (by omega)).2 this

theorem divCeil_eq (n d : Nat) (hd : 0 < d) : divCeil n d = (n + d - 1) / d := by
  unfold divCeil
  have h := Nat.div_add_mod n d
  have h2 := Nat.mod_lt n hd
  split
  · have e : n + d - 1 = (n % d - 1) + d * (n / d + 1) := by rw [Nat.mul_add]; omega
    have z : (n % d - 1) / d = 0 := Nat.div_eq_of_lt (by omega)
    rw [e, Nat.add_mul_div_left _ _ hd, z]; omega
  · have e : n + d - 1 = (d - 1) + d * (n / d) := by omega
    have z : (d - 1) / d = 0 := Nat.div_eq_of_lt (by omega)
    rw [e, Nat.add_mul_div_left _ _ hd, z]; omega

end Blobd
