import Verif.Model.PlotText
import Verif.Spec.PlotText
set_option autoImplicit false
namespace Blobd
namespace Plot

theorem digit_char {n : Nat} (h : n < 10) : (Char.ofNat (48 + n)).isDigit = true ∧ (Char.ofNat (48 + n)).toNat - 48 = n := by
  have : ∀ m : Fin 10, (Char.ofNat (48 + m.val)).isDigit = true ∧ (Char.ofNat (48 + m.val)).toNat - 48 = m.val := by decide
  exact this ⟨n, h⟩

theorem decVal_snoc (d : List Char) (c : Char) : decVal (d ++ [c]) = decVal d * 10 + (c.toNat - 48) := by
  simp [decVal]

theorem decStr_ok (n : Nat) : Http.decStr n ≠ [] ∧ (∀ c ∈ Http.decStr n, c.isDigit = true) ∧ decVal (Http.decStr n) = n := by
  induction n using Nat.strongRecOn with
  | ind n ih =>
    rw [Http.decStr]
    split
    · rename_i h
      have := digit_char h
      refine ⟨by simp, by simpa using this.1, ?_⟩
      simpa [decVal] using this.2
    · rename_i h
      obtain ⟨h1, h2, h3⟩ := ih (n / 10) (by omega)
      have := digit_char (Nat.mod_lt n (by decide : 0 < 10))
      refine ⟨by simp, ?_, ?_⟩
      · intro c hc
        rcases List.mem_append.1 hc with hc | hc
        · exact h2 c hc
        · rw [List.mem_singleton.1 hc]; exact this.1
      · rw [decVal_snoc, h3, this.2]; omega

theorem decStr_small {n : Nat} (h : n < 10) : Http.decStr n = [Char.ofNat (48 + n)] := by rw [Http.decStr, if_pos h]

theorem num_dec (n : Nat) : Num (Http.decStr n) n := by
  obtain ⟨h1, h2, h3⟩ := decStr_ok n
  exact ⟨_, h1, h2, .inl ⟨rfl, by rw [h3]⟩⟩

theorem floor_toNat {x : Rat} (h : 0 ≤ x) : ((x.floor.toNat : Nat) : Rat) ≤ x ∧ x < ((x.floor.toNat : Nat) : Rat) + 1 := by
  have h0 : (0 : Int) ≤ x.floor := Rat.le_floor_iff.2 (by simpa using h)
  have e : ((x.floor.toNat : Nat) : Rat) = ((x.floor : Int) : Rat) := by
    rw [← Rat.intCast_natCast, Int.toNat_of_nonneg h0]
  rw [e]
  exact ⟨Rat.floor_le x, by have := Rat.lt_floor (x := x); grind⟩

theorem nearest_within {x : Rat} (h : 0 ≤ x) : Within (1 / 2) x (nearest x) := by
  obtain ⟨h1, h2⟩ := floor_toNat (x := x + 1 / 2) (by grind)
  unfold Within nearest
  constructor <;> grind

theorem num_fixed0 {x : Rat} (h : 0 ≤ x) : ∃ y, Num (fixed0 x) y ∧ Within (1 / 2) x y := ⟨_, num_dec _, nearest_within h⟩

theorem num_fixed1 {x : Rat} (h : 0 ≤ x) : ∃ y, Num (fixed1 x) y ∧ Within (1 / 20) x y := by
  have hw := nearest_within (x := x * 10) (by grind)
  refine ⟨(nearest (x * 10) : Rat) / 10, ?_, ?_⟩
  · obtain ⟨h1, h2, h3⟩ := decStr_ok (nearest (x * 10) / 10)
    have hd := digit_char (Nat.mod_lt (nearest (x * 10)) (by decide : 0 < 10))
    refine ⟨_, h1, h2, .inr ⟨_, hd.1, ?_, ?_⟩⟩
    · unfold fixed1
      rw [decStr_small (Nat.mod_lt _ (by decide))]
    · rw [decVal_snoc, h3, hd.2, Nat.div_add_mod']
      grind
  · unfold Within at hw ⊢
    constructor <;> grind

theorem div_pos_nonneg {x f : Rat} (hx : 0 ≤ x) (hf : 0 < f) : 0 ≤ x / f := by
  rw [Rat.div_def]
  exact Rat.mul_nonneg hx (Rat.le_of_lt (Rat.inv_pos.2 hf))

theorem within_scale {x y f e : Rat} (hf : 0 < f) (h : Within e (x / f) y) : Within (e * f) x (y * f) := by
  obtain ⟨h1, h2⟩ := h
  have hx : x / f * f = x := Rat.div_mul_cancel (by grind)
  have a := Rat.mul_le_mul_of_nonneg_right h1 (Rat.le_of_lt hf)
  have b := Rat.mul_le_mul_of_nonneg_right h2 (Rat.le_of_lt hf)
  constructor <;> grind

theorem amount_fixed1 {units : List (List Char × Rat)} {u : List Char} {f x : Rat} (hu : (u, f) ∈ units) (hf : 0 < f) (hx : 0 ≤ x) :
    ∃ y, Amount units (fixed1 (x / f) ++ u) y ∧ Within (1 / 20 * f) x y := by
  obtain ⟨z, h1, h2⟩ := num_fixed1 (x := x / f) (div_pos_nonneg hx hf)
  exact ⟨_, ⟨_, z, u, f, hu, h1, rfl, rfl⟩, within_scale hf h2⟩

theorem nat_rat_le {a b : Nat} : (a : Rat) ≤ b ↔ a ≤ b := by
  rw [← Rat.intCast_natCast, ← Rat.intCast_natCast, Rat.intCast_le_intCast]; omega

theorem nat_rat_lt {a b : Nat} : (a : Rat) < b ↔ a < b := by
  rw [← Rat.intCast_natCast, ← Rat.intCast_natCast, Rat.intCast_lt_intCast]; omega

theorem whole {x : Rat} (hx : 0 ≤ x) {n : Nat} (h1 : (n : Rat) ≤ x) (h2 : x < (n : Rat) + 1) : x.floor.toNat = n := by
  obtain ⟨h3, h4⟩ := floor_toNat hx
  have a : (n : Rat) < ((x.floor.toNat + 1 : Nat) : Rat) := by rw [Rat.natCast_add]; grind
  have b : ((x.floor.toNat : Nat) : Rat) < ((n + 1 : Nat) : Rat) := by rw [Rat.natCast_add]; grind
  rw [nat_rat_lt] at a b
  omega

theorem amount_dec {units : List (List Char × Rat)} {u : List Char} {f : Rat} (hu : (u, f) ∈ units) (n : Nat) :
    Amount units (Http.decStr n ++ u) (n * f) := ⟨_, _, u, f, hu, num_dec n, rfl, rfl⟩

theorem amount_fixed0 {units : List (List Char × Rat)} {u : List Char} {x : Rat} (hu : (u, 1) ∈ units) (hx : 0 ≤ x) :
    ∃ y, Amount units (fixed0 x ++ u) y ∧ Within (1 / 2) x y := by
  obtain ⟨z, h1, h2⟩ := num_fixed0 hx
  exact ⟨_, ⟨_, z, u, 1, hu, h1, rfl, rfl⟩, by rwa [Rat.mul_one]⟩

theorem within_mono {e e' x y : Rat} (he : e ≤ e') (h : Within e x y) : Within e' x y :=
  ⟨Rat.le_trans h.1 he, Rat.le_trans h.2 he⟩

/-- an hour and more -/
theorem time_hours {x : Rat} (h : 3600 ≤ x) : ∃ y, Dur (formatTimeAxis x) y ∧ y ≤ x ∧ x < y + 60 := by
  have h0 : 0 ≤ x := by grind
  obtain ⟨a1, a2⟩ := floor_toNat (div_pos_nonneg h0 (show (0 : Rat) < 3600 by decide))
  generalize hH : (x / 3600).floor.toNat = H at a1 a2
  have hx : x / 3600 * 3600 = x := Rat.div_mul_cancel (by decide)
  have hH1 : 0 < H := by
    have : ((0 : Nat) : Rat) < (H : Rat) := by grind
    exact nat_rat_lt.1 this
  have hr : 0 ≤ x - 3600 * (H : Rat) := by grind
  obtain ⟨b1, b2⟩ := floor_toNat (div_pos_nonneg hr (show (0 : Rat) < 60 by decide))
  have hy : (x - 3600 * (H : Rat)) / 60 * 60 = x - 3600 * (H : Rat) := Rat.div_mul_cancel (by decide)
  unfold formatTimeAxis
  rw [if_neg (by grind)]
  simp only [hH]
  generalize ((x - 3600 * (H : Rat)) / 60).floor.toNat = M at b1 b2
  rw [if_pos hH1, if_neg (show ¬ (_ ∧ H = 0) from fun h => by omega)]
  have hd := amount_dec (units := timeUnits) (u := ['h']) (f := 3600) (by simp [timeUnits]) H
  have md := amount_dec (units := timeUnits) (u := ['m']) (f := 60) (by simp [timeUnits]) M
  by_cases hM : M > 0
  · refine ⟨(H : Rat) * 3600 + (M : Rat) * 60, ?_, by grind, by grind⟩
    rw [if_pos hM]
    exact .more hd (.one md)
  · refine ⟨(H : Rat) * 3600, ?_, by grind, ?_⟩
    · rw [if_neg hM]
      exact .one hd
    · have : M = 0 := by omega
      subst this
      grind

/-- between a minute and an hour -/
theorem time_minutes {x : Rat} (h : 60 ≤ x) (h' : x < 3600) : ∃ y, Dur (formatTimeAxis x) y ∧ Within (1 / 2) x y := by
  have h0 : 0 ≤ x := by grind
  have hx : x / 3600 * 3600 = x := Rat.div_mul_cancel (by decide)
  have hx6 : x / 60 * 60 = x := Rat.div_mul_cancel (by decide)
  have hH : (x / 3600).floor.toNat = 0 := whole (div_pos_nonneg h0 (by decide)) (by grind) (by grind)
  obtain ⟨b1, b2⟩ := floor_toNat (div_pos_nonneg h0 (show (0 : Rat) < 60 by decide))
  unfold formatTimeAxis
  rw [if_neg (by grind)]
  simp only [hH]
  rw [show (x - 3600 * ((0 : Nat) : Rat)) / 60 = x / 60 from by grind]
  generalize (x / 60).floor.toNat = M at b1 b2
  have hM : M > 0 := by
    have : ((0 : Nat) : Rat) < (M : Rat) := by grind
    exact nat_rat_lt.1 this
  rw [if_neg (show ¬ (0 : Nat) > 0 by decide), if_pos hM]
  have md := amount_dec (units := timeUnits) (u := ['m']) (f := 60) (by simp [timeUnits]) M
  by_cases hs : x - 60 * (M : Rat) > 0
  · obtain ⟨y, h1, h2⟩ := amount_fixed0 (units := timeUnits) (u := ['s']) (by simp [timeUnits]) (Rat.le_of_lt hs)
    refine ⟨(M : Rat) * 60 + y, ?_, ?_⟩
    · rw [if_pos (show x - 60 * (M : Rat) > 0 ∧ True from ⟨hs, trivial⟩)]
      exact .more md (.one h1)
    · unfold Within at h2 ⊢
      constructor <;> grind
  · refine ⟨(M : Rat) * 60, ?_, ?_⟩
    · rw [if_neg (show ¬ (x - 60 * (M : Rat) > 0 ∧ True) from fun h => hs h.1)]
      exact .one md
    · unfold Within
      constructor <;> grind

/-- less than a minute -/
theorem time_seconds {x : Rat} (h0 : 0 ≤ x) (h : x < 60) : ∃ y, Dur (formatTimeAxis x) y ∧ Within (1 / 20) x y := by
  obtain ⟨y, h1, h2⟩ := num_fixed1 h0
  unfold formatTimeAxis
  rw [if_pos h]
  exact ⟨y, .one ⟨_, y, ['s'], 1, by simp [timeUnits], h1, rfl, by grind⟩, h2⟩

theorem foldl_min_mem (ys : List Rat) : ∀ y, ys.foldl min y ∈ y :: ys := by
  induction ys with
  | nil => intro y; simp
  | cons z ys ih =>
    intro y
    rw [List.foldl_cons]
    have h := ih (min y z)
    rcases List.mem_cons.1 h with h | h
    · rw [h]
      by_cases e : y ≤ z
      · rw [show min y z = y from by grind]; simp
      · rw [show min y z = z from by grind]; simp
    · simp [h]

theorem foldl_max_mem (ys : List Rat) : ∀ y, ys.foldl max y ∈ y :: ys := by
  induction ys with
  | nil => intro y; simp
  | cons z ys ih =>
    intro y
    rw [List.foldl_cons]
    have h := ih (max y z)
    rcases List.mem_cons.1 h with h | h
    · rw [h]
      by_cases e : y ≤ z
      · rw [show max y z = z from by grind]; simp
      · rw [show max y z = y from by grind]; simp
    · simp [h]

theorem foldl_min_le (ys : List Rat) : ∀ y, ys.foldl min y ≤ y ∧ ∀ z ∈ ys, ys.foldl min y ≤ z := by
  induction ys with
  | nil => intro y; simp
  | cons z ys ih =>
    intro y
    obtain ⟨h1, h2⟩ := ih (min y z)
    simp only [List.foldl_cons, List.mem_cons, forall_eq_or_imp]
    exact ⟨by grind, by grind, h2⟩

theorem le_foldl_max (ys : List Rat) : ∀ y, y ≤ ys.foldl max y ∧ ∀ z ∈ ys, z ≤ ys.foldl max y := by
  induction ys with
  | nil => intro y; simp
  | cons z ys ih =>
    intro y
    obtain ⟨h1, h2⟩ := ih (max y z)
    simp only [List.foldl_cons, List.mem_cons, forall_eq_or_imp]
    exact ⟨by grind, by grind, h2⟩

end Plot
end Blobd
