import Verif.Spec.Bin
/-! Specification vocabulary for layout properties (C08, C12, C13, C14). -/
namespace NS

/-- Size in bytes of the fixed-size primitives. -/
def primSize : Ty → Option Nat
  | .bool => some 1
  | .int k => some k.bytes
  | .f32 => some 4
  | .f64 => some 8
  | _ => none

/-- Byte `j` of an integer: bits `8j .. 8j+7` (`>>>` is the arithmetic shift, so negative
numbers are read in two's complement). -/
def byteOf (i : Int) (j : Nat) : Byte := UInt8.ofNat (((i >>> (8 * j)) % 256).toNat)

/-- The little-endian bytes of a 64-bit length. -/
def lenBytes (n : Nat) : List Byte := (List.range 8).map fun j => byteOf n j

/-- The number that the bytes denote, least significant first: the sum of `byte i * 256 ^ i`. -/
def littleEndian (bs : List Byte) : Nat :=
  ((List.range bs.length).map fun i => (bs.getD i 0).toNat * 256 ^ i).sum

/-- The 64-bit length at offset `o`. -/
def lenAt (d : List Byte) (o : Nat) : Nat := littleEndian ((d.drop o).take 8)

/-- The little-endian bytes of the seconds and nanoseconds of a duration. -/
def durBytes (s n : Nat) : List Byte :=
  lenBytes s ++ (List.range 4).map fun j => byteOf n j

/-- UTF-8, taken from Lean's own library. -/
def stdUtf8 (s : List Char) : List Byte := s.flatMap String.utf8EncodeChar

end NS
