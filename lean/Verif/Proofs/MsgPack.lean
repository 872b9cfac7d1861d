import Verif.Model.MsgPack
namespace Blobd
namespace MP

theorem takeN_append (a b : Bytes) : takeN a.length (a ++ b) = some (a, b) := by
  simp [takeN]

theorem takeN_append' {n : Nat} {a : Bytes} (h : a.length = n) (b : Bytes) : takeN n (a ++ b) = some (a, b) := by
  subst h; exact takeN_append a b

theorem getUint_uint {n : Nat} (h : n < 2 ^ 64) (r : Bytes) : getUint (uint n ++ r) = some (n, r) := by
  unfold uint
  split
  · rename_i h1
    simp only [List.cons_append, List.nil_append, getUint, UInt8.toNat_ofNat']
    rw [Nat.mod_eq_of_lt (by omega), if_pos h1]
  split
  · rename_i h1 h2
    simp only [List.cons_append, List.nil_append, getUint]
    have : takeN 1 (UInt8.ofNat n :: r) = some ([UInt8.ofNat n], r) := takeN_append [UInt8.ofNat n] r
    simp [this, beVal, leVal]
    omega
  split
  · rename_i h1 h2 h3
    simp only [List.cons_append, getUint]
    simp [takeN_append' (length_beBytes 2 n), beVal_beBytes]
    omega
  split
  · simp only [List.cons_append, getUint]
    simp [takeN_append' (length_beBytes 4 n), beVal_beBytes]
    omega
  · simp only [List.cons_append, getUint]
    simp [takeN_append' (length_beBytes 8 n), beVal_beBytes]
    omega

theorem getArr_arr {n : Nat} (h : n < 2 ^ 32) (r : Bytes) : getArr (arr n ++ r) = some (n, r) := by
  unfold arr
  split
  · rename_i h1
    simp only [List.cons_append, List.nil_append, getArr, UInt8.toNat_ofNat']
    rw [Nat.mod_eq_of_lt (by omega), if_pos (by omega)]
    simp
  split
  · simp only [List.cons_append, getArr]
    simp [takeN_append' (length_beBytes 2 n), beVal_beBytes]
    omega
  · simp only [List.cons_append, getArr]
    simp [takeN_append' (length_beBytes 4 n), beVal_beBytes]
    omega

theorem getStr_str {s : Bytes} (h : s.length < 32) (r : Bytes) : getStr (str s ++ r) = some (s, r) := by
  simp only [str, List.cons_append, getStr, UInt8.toNat_ofNat']
  rw [Nat.mod_eq_of_lt (by omega), if_pos (by omega)]
  simp [takeN_append]

theorem getU128_u128 {n : Nat} (h : n < 2 ^ 128) (r : Bytes) : getU128 (u128 n ++ r) = some (n, r) := by
  simp only [u128, List.cons_append, getU128]
  simp [takeN_append' (length_beBytes 16 n), beVal_beBytes]
  omega

theorem getUints_flatMap (k r : Bytes) :
    getUints k.length (k.flatMap (fun b => uint b.toNat) ++ r) = some (k, r) := by
  induction k with
  | nil => simp [getUints]
  | cons b k ih =>
    have hb := b.toNat_lt
    simp only [List.length_cons, getUints, List.flatMap_cons, List.append_assoc]
    rw [getUint_uint (by omega)]
    simp only [ih]
    simp

theorem getBytes_bytes {k : Bytes} (h : k.length < 2 ^ 32) (r : Bytes) : getBytes (bytes k ++ r) = some (k, r) := by
  simp only [bytes, getBytes, List.append_assoc]
  rw [getArr_arr h]
  exact getUints_flatMap k r

end MP
end Blobd
