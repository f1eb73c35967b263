import Verif.Model.Base
/-!
# Bytes: little-endian integers, UTF-8

The primitives of `core` that `src/serde_bin.rs` uses: `to_le_bytes`, `from_le_bytes`,
`str::as_bytes`, `core::str::from_utf8`.
-/
namespace NS

/-- A byte. -/
abbrev Byte := UInt8

/-- The first `n` base-256 digits of `x`, least significant first
(`to_le_bytes` of an `8 n`-bit unsigned integer; used in src/serde_bin.rs:124, 169). -/
def leBytes : Nat → Nat → List Byte
  | 0, _ => []
  | n + 1, x => UInt8.ofNat (x % 256) :: leBytes n (x / 256)

/-- The number with the given base-256 digits (`from_le_bytes` of an unsigned integer;
src/serde_bin.rs:145, 179). -/
def leVal : List Byte → Nat
  | [] => 0
  | b :: bs => b.toNat + 256 * leVal bs

/-- Two's complement representation of `i` in `8 n` bits. -/
def toTwos (n : Nat) (i : Int) : Nat := (i % (2 ^ (8 * n) : Nat)).toNat

/-- The integer whose `8 n`-bit representation is `x`, read as signed or unsigned. -/
def ofTwos (signed : Bool) (n : Nat) (x : Nat) : Int :=
  if signed ∧ 2 ^ (8 * n - 1) ≤ x then (x : Int) - (2 ^ (8 * n) : Nat) else x

/-- `str::as_bytes` (src/serde_bin.rs:250): the UTF-8 encoding, character by character. -/
def utf8Char (c : Char) : List Byte :=
  let v := c.toNat
  if v < 0x80 then [UInt8.ofNat v]
  else if v < 0x800 then [UInt8.ofNat (0xC0 + v / 64), UInt8.ofNat (0x80 + v % 64)]
  else if v < 0x10000 then
    [UInt8.ofNat (0xE0 + v / 4096), UInt8.ofNat (0x80 + v / 64 % 64), UInt8.ofNat (0x80 + v % 64)]
  else
    [UInt8.ofNat (0xF0 + v / 262144), UInt8.ofNat (0x80 + v / 4096 % 64),
     UInt8.ofNat (0x80 + v / 64 % 64), UInt8.ofNat (0x80 + v % 64)]

/-- UTF-8 bytes of a string. -/
def utf8 (s : List Char) : List Byte := s.flatMap utf8Char

/-- A UTF-8 continuation byte `10xxxxxx`. -/
def isCont (b : Byte) : Bool := 0x80 ≤ b.toNat && b.toNat ≤ 0xBF

/-- `core::str::from_utf8` (called at src/serde_bin.rs:266).  The second-byte ranges are the
ones of std's validator (the table of the Unicode standard, which excludes overlong forms,
surrogates and values above U+10FFFF). -/
def fromUtf8 : List Byte → Option (List Char)
  | [] => some []
  | a :: r =>
    if a.toNat < 0x80 then (fromUtf8 r).map (Char.ofNat a.toNat :: ·)
    else if 0xC2 ≤ a.toNat ∧ a.toNat ≤ 0xDF then
      match r with
      | b :: r =>
        if isCont b then
          (fromUtf8 r).map (Char.ofNat ((a.toNat - 0xC0) * 64 + (b.toNat - 0x80)) :: ·)
        else none
      | _ => none
    else if 0xE0 ≤ a.toNat ∧ a.toNat ≤ 0xEF then
      match r with
      | b :: c :: r =>
        if isCont b ∧ isCont c ∧ (a.toNat = 0xE0 → 0xA0 ≤ b.toNat) ∧
            (a.toNat = 0xED → b.toNat ≤ 0x9F) then
          (fromUtf8 r).map (Char.ofNat ((a.toNat - 0xE0) * 4096 + (b.toNat - 0x80) * 64
            + (c.toNat - 0x80)) :: ·)
        else none
      | _ => none
    else if 0xF0 ≤ a.toNat ∧ a.toNat ≤ 0xF4 then
      match r with
      | b :: c :: d :: r =>
        if isCont b ∧ isCont c ∧ isCont d ∧ (a.toNat = 0xF0 → 0x90 ≤ b.toNat) ∧
            (a.toNat = 0xF4 → b.toNat ≤ 0x8F) then
          (fromUtf8 r).map (Char.ofNat ((a.toNat - 0xF0) * 262144 + (b.toNat - 0x80) * 4096
            + (c.toNat - 0x80) * 64 + (d.toNat - 0x80)) :: ·)
        else none
      | _ => none
    else none

end NS
