import Verif.Spec.BinLayout
import Verif.Lemmas.Bin
/-! The model's byte helpers agree with the specification's. -/
namespace NS

theorem littleEndian_eq (bs : List Byte) : littleEndian bs = leVal bs := by
  induction bs with
  | nil => rfl
  | cons b bs ih =>
    rw [leVal, ← ih, littleEndian, littleEndian, List.length_cons, List.range_succ_eq_map]
    simp only [List.map_cons, List.map_map, List.sum_cons, List.getD_cons_zero, Nat.pow_zero, Nat.mul_one,
      Function.comp_def, List.getD_cons_succ, Nat.pow_succ]
    congr 1
    generalize List.range bs.length = is
    induction is with
    | nil => rfl
    | cons i is ih2 =>
      simp only [List.map_cons, List.sum_cons, ih2, Nat.mul_add]
      congr 1
      rw [← Nat.mul_assoc, Nat.mul_comm]

theorem lenAt_eq (d : List Byte) (o : Nat) : lenAt d o = leVal ((d.drop o).take 8) := littleEndian_eq _

theorem leBytes_byteOf (n x : Nat) : leBytes n x = (List.range n).map fun j => byteOf x j := by
  induction n generalizing x with
  | zero => rfl
  | succ n ih =>
    rw [leBytes, ih, List.range_succ_eq_map]
    simp only [List.map_cons, List.map_map, Function.comp_def]
    congr 1
    apply List.map_congr_left
    intro j _
    have h : ((x / 256 : Nat) : Int) / ((2 ^ (8 * j) : Nat) : Int) = (x : Int) / ((2 ^ (8 * (j + 1)) : Nat) : Int) := by
      rw [Nat.mul_succ, Nat.pow_add, Nat.mul_comm (2 ^ (8 * j))]
      norm_cast
      rw [Nat.div_div_eq_div_mul]
    simp only [byteOf, Int.shiftRight_eq_div_pow, h]

theorem durBytes_eq (s n : Nat) : durBytes s n = leBytes 8 s ++ leBytes 4 n := by
  rw [leBytes_byteOf, leBytes_byteOf]; rfl

end NS
