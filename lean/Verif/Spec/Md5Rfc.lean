import Verif.Go.Utf8

/-!
# MD5, after RFC 1321

What `crypto/md5` computes. The message is a list of bytes; words are little-endian.
-/

namespace Verif.Md5Rfc

abbrev Word := BitVec 32

/-- The four registers (3.3). -/
structure Regs where
  a : Word
  b : Word
  c : Word
  d : Word
deriving DecidableEq

def init : Regs := ⟨0x67452301, 0xefcdab89, 0x98badcfe, 0x10325476⟩

/-- The table T of 3.4: the whole part of 4294967296 times abs(sin(i + 1)), i in radians. -/
def table : List Word := [
  0xd76aa478, 0xe8c7b756, 0x242070db, 0xc1bdceee, 0xf57c0faf, 0x4787c62a, 0xa8304613, 0xfd469501,
  0x698098d8, 0x8b44f7af, 0xffff5bb1, 0x895cd7be, 0x6b901122, 0xfd987193, 0xa679438e, 0x49b40821,
  0xf61e2562, 0xc040b340, 0x265e5a51, 0xe9b6c7aa, 0xd62f105d, 0x02441453, 0xd8a1e681, 0xe7d3fbc8,
  0x21e1cde6, 0xc33707d6, 0xf4d50d87, 0x455a14ed, 0xa9e3e905, 0xfcefa3f8, 0x676f02d9, 0x8d2a4c8a,
  0xfffa3942, 0x8771f681, 0x6d9d6122, 0xfde5380c, 0xa4beea44, 0x4bdecfa9, 0xf6bb4b60, 0xbebfbc70,
  0x289b7ec6, 0xeaa127fa, 0xd4ef3085, 0x04881d05, 0xd9d4d039, 0xe6db99e5, 0x1fa27cf8, 0xc4ac5665,
  0xf4292244, 0x432aff97, 0xab9423a7, 0xfc93a039, 0x655b59c3, 0x8f0ccc92, 0xffeff47d, 0x85845dd1,
  0x6fa87e4f, 0xfe2ce6e0, 0xa3014314, 0x4e0811a1, 0xf7537e82, 0xbd3af235, 0x2ad7d2bb, 0xeb86d391]

/-- The shifts of the four rounds. -/
def shifts : List Nat := [7, 12, 17, 22, 5, 9, 14, 20, 4, 11, 16, 23, 6, 10, 15, 21]

/-- The auxiliary functions F, G, H, I, by round. -/
def aux (i : Nat) (x y z : Word) : Word :=
  if i < 16 then (x &&& y) ||| (~~~x &&& z)
  else if i < 32 then (x &&& z) ||| (y &&& ~~~z)
  else if i < 48 then x ^^^ y ^^^ z
  else y ^^^ (x ||| ~~~z)

/-- The word of the block that operation `i` uses. -/
def index (i : Nat) : Nat :=
  if i < 16 then i else if i < 32 then (5 * i + 1) % 16 else if i < 48 then (3 * i + 5) % 16 else 7 * i % 16

/-- Operation `i`: `a = b + ((a + f(b,c,d) + X[k] + T[i]) <<< s)`, and the registers change their places. -/
def operation (block : List Word) (r : Regs) (i : Nat) : Regs :=
  let sum := r.a + aux i r.b r.c r.d + block.getD (index i) 0 + table.getD i 0
  ⟨r.d, r.b + sum.rotateLeft (shifts.getD (4 * (i / 16) + i % 4) 0), r.b, r.c⟩

/-- The words of a block. -/
def words : List Nat → List Word
  | a :: b :: c :: d :: s => BitVec.ofNat 32 (a + 256 * b + 65536 * c + 16777216 * d) :: words s
  | _ => []

/-- One block of 64 bytes (3.4). -/
def compress (r : Regs) (block : List Nat) : Regs :=
  let ws := words block
  let r' := (List.range 64).foldl (operation ws) r
  ⟨r.a + r'.a, r.b + r'.b, r.c + r'.c, r.d + r'.d⟩

/-- The first `n` blocks of 64 bytes. -/
def blocks (f : Regs → List Nat → Regs) : Nat → Regs → List Nat → Regs
  | 0, r, _ => r
  | n + 1, r, m => blocks f n (f r (m.take 64)) (m.drop 64)

/-- `n` bytes, little-endian. -/
def littleEndian : Nat → Nat → List Nat
  | 0, _ => []
  | n + 1, v => v % 256 :: littleEndian n (v / 256)

/-- Padding (3.1, 3.2): a byte 0x80, zeros until the length is 56 modulo 64, and the length in bits, modulo 2^64. -/
def padded (m : List Nat) : List Nat :=
  m ++ [0x80] ++ List.replicate ((119 - m.length % 64) % 64) 0 ++ littleEndian 8 (8 * m.length % 2 ^ 64)

/-- The digest (3.5). -/
def output (r : Regs) : List Nat :=
  littleEndian 4 r.a.toNat ++ littleEndian 4 r.b.toNat ++ littleEndian 4 r.c.toNat ++ littleEndian 4 r.d.toNat

/-- MD5. -/
def md5 (m : List Nat) : List Nat := output (blocks compress ((padded m).length / 64) init (padded m))

end Verif.Md5Rfc
