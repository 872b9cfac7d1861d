import Verif.Spec.Mem
/-!
# Fixed-width integers in byte arrays (the `off64` dependency, by its contract)

`create_uNN_be/le`, `write_uNN_be_at`, `read_uNN_be_at`, ...: the low `NN/8` bytes of the integer, most
significant first (`be`) or last (`le`). Higher bytes are dropped on write.
-/
namespace Blobd

def leBytes : Nat → Nat → List Byte
  | 0, _ => []
  | n + 1, x => UInt8.ofNat x :: leBytes n (x / 256)

def leVal : List Byte → Nat
  | [] => 0
  | b :: bs => b.toNat + 256 * leVal bs

def beBytes (n x : Nat) : List Byte := (leBytes n x).reverse

def beVal (l : List Byte) : Nat := leVal l.reverse

@[simp] theorem length_leBytes (n x : Nat) : (leBytes n x).length = n := by
  induction n generalizing x with
  | zero => rfl
  | succ n ih => simp [leBytes, ih]

@[simp] theorem length_beBytes (n x : Nat) : (beBytes n x).length = n := by simp [beBytes]

theorem leVal_leBytes (n x : Nat) : leVal (leBytes n x) = x % 256 ^ n := by
  induction n generalizing x with
  | zero => simp [leBytes, leVal, Nat.mod_one]
  | succ n ih =>
    simp only [leBytes, leVal, ih, UInt8.toNat_ofNat', Nat.reducePow]
    rw [Nat.pow_succ, Nat.mul_comm (256 ^ n), Nat.mod_mul]

theorem beVal_beBytes (n x : Nat) : beVal (beBytes n x) = x % 256 ^ n := by
  simp [beVal, beBytes, leVal_leBytes]

theorem leVal_leBytes_of_lt {n x : Nat} (h : x < 256 ^ n) : leVal (leBytes n x) = x := by
  rw [leVal_leBytes, Nat.mod_eq_of_lt h]

theorem beVal_beBytes_of_lt {n x : Nat} (h : x < 256 ^ n) : beVal (beBytes n x) = x := by
  rw [beVal_beBytes, Nat.mod_eq_of_lt h]

theorem leVal_lt (l : List Byte) : leVal l < 256 ^ l.length := by
  induction l with
  | nil => simp [leVal]
  | cons b l ih =>
    have := b.toNat_lt
    simp only [leVal, List.length_cons, Nat.pow_succ]
    omega

theorem beVal_lt (l : List Byte) : beVal l < 256 ^ l.length := by
  have := leVal_lt l.reverse
  simpa [beVal] using this

theorem leBytes_leVal (l : List Byte) : leBytes l.length (leVal l) = l := by
  induction l with
  | nil => rfl
  | cons b l ih =>
    have hb := b.toNat_lt
    simp only [leVal, List.length_cons, leBytes]
    congr 1
    · apply UInt8.toNat_inj.1
      simp
    · rw [show (b.toNat + 256 * leVal l) / 256 = leVal l by omega, ih]

theorem beBytes_beVal (l : List Byte) : beBytes l.length (beVal l) = l := by
  have := leBytes_leVal l.reverse
  simp only [List.length_reverse] at this
  simp [beBytes, beVal, this]

end Blobd
