import Verif.Model.Aes

/-!
# AES, after FIPS-197

The block cipher behind `aes.NewCipher` (help/utils/md5.go:47, 60). `crypto/aes` is not part of the repository; its functions compute
what the standard says, and this is the standard. A block is 16 bytes, column by column.
-/

namespace Verif.Aes

abbrev Word := BitVec 32

/-- Multiplication by x modulo x^8 + x^4 + x^3 + x + 1 (4.2.1, `xTimes`). -/
def xtime (b : Byte) : Byte := if b.getLsbD 7 then (b <<< 1) ^^^ 0x1b else b <<< 1

/-- Multiplication in the field of 256 elements, by the first `n` digits of the first factor. -/
def gmulLoop : Nat → Byte → Byte → Byte
  | 0, _, _ => 0
  | n + 1, a, b => (if a.getLsbD 0 then b else 0) ^^^ gmulLoop n (a >>> 1) (xtime b)

def gmul (a b : Byte) : Byte := gmulLoop 8 a b

/-- The S-box (5.1.1, table 4). -/
def sboxTable : List Byte := [
  0x63, 0x7c, 0x77, 0x7b, 0xf2, 0x6b, 0x6f, 0xc5, 0x30, 0x01, 0x67, 0x2b, 0xfe, 0xd7, 0xab, 0x76,
  0xca, 0x82, 0xc9, 0x7d, 0xfa, 0x59, 0x47, 0xf0, 0xad, 0xd4, 0xa2, 0xaf, 0x9c, 0xa4, 0x72, 0xc0,
  0xb7, 0xfd, 0x93, 0x26, 0x36, 0x3f, 0xf7, 0xcc, 0x34, 0xa5, 0xe5, 0xf1, 0x71, 0xd8, 0x31, 0x15,
  0x04, 0xc7, 0x23, 0xc3, 0x18, 0x96, 0x05, 0x9a, 0x07, 0x12, 0x80, 0xe2, 0xeb, 0x27, 0xb2, 0x75,
  0x09, 0x83, 0x2c, 0x1a, 0x1b, 0x6e, 0x5a, 0xa0, 0x52, 0x3b, 0xd6, 0xb3, 0x29, 0xe3, 0x2f, 0x84,
  0x53, 0xd1, 0x00, 0xed, 0x20, 0xfc, 0xb1, 0x5b, 0x6a, 0xcb, 0xbe, 0x39, 0x4a, 0x4c, 0x58, 0xcf,
  0xd0, 0xef, 0xaa, 0xfb, 0x43, 0x4d, 0x33, 0x85, 0x45, 0xf9, 0x02, 0x7f, 0x50, 0x3c, 0x9f, 0xa8,
  0x51, 0xa3, 0x40, 0x8f, 0x92, 0x9d, 0x38, 0xf5, 0xbc, 0xb6, 0xda, 0x21, 0x10, 0xff, 0xf3, 0xd2,
  0xcd, 0x0c, 0x13, 0xec, 0x5f, 0x97, 0x44, 0x17, 0xc4, 0xa7, 0x7e, 0x3d, 0x64, 0x5d, 0x19, 0x73,
  0x60, 0x81, 0x4f, 0xdc, 0x22, 0x2a, 0x90, 0x88, 0x46, 0xee, 0xb8, 0x14, 0xde, 0x5e, 0x0b, 0xdb,
  0xe0, 0x32, 0x3a, 0x0a, 0x49, 0x06, 0x24, 0x5c, 0xc2, 0xd3, 0xac, 0x62, 0x91, 0x95, 0xe4, 0x79,
  0xe7, 0xc8, 0x37, 0x6d, 0x8d, 0xd5, 0x4e, 0xa9, 0x6c, 0x56, 0xf4, 0xea, 0x65, 0x7a, 0xae, 0x08,
  0xba, 0x78, 0x25, 0x2e, 0x1c, 0xa6, 0xb4, 0xc6, 0xe8, 0xdd, 0x74, 0x1f, 0x4b, 0xbd, 0x8b, 0x8a,
  0x70, 0x3e, 0xb5, 0x66, 0x48, 0x03, 0xf6, 0x0e, 0x61, 0x35, 0x57, 0xb9, 0x86, 0xc1, 0x1d, 0x9e,
  0xe1, 0xf8, 0x98, 0x11, 0x69, 0xd9, 0x8e, 0x94, 0x9b, 0x1e, 0x87, 0xe9, 0xce, 0x55, 0x28, 0xdf,
  0x8c, 0xa1, 0x89, 0x0d, 0xbf, 0xe6, 0x42, 0x68, 0x41, 0x99, 0x2d, 0x0f, 0xb0, 0x54, 0xbb, 0x16]

/-- The inverse S-box (5.3.2, table 6). -/
def invSboxTable : List Byte := [
  0x52, 0x09, 0x6a, 0xd5, 0x30, 0x36, 0xa5, 0x38, 0xbf, 0x40, 0xa3, 0x9e, 0x81, 0xf3, 0xd7, 0xfb,
  0x7c, 0xe3, 0x39, 0x82, 0x9b, 0x2f, 0xff, 0x87, 0x34, 0x8e, 0x43, 0x44, 0xc4, 0xde, 0xe9, 0xcb,
  0x54, 0x7b, 0x94, 0x32, 0xa6, 0xc2, 0x23, 0x3d, 0xee, 0x4c, 0x95, 0x0b, 0x42, 0xfa, 0xc3, 0x4e,
  0x08, 0x2e, 0xa1, 0x66, 0x28, 0xd9, 0x24, 0xb2, 0x76, 0x5b, 0xa2, 0x49, 0x6d, 0x8b, 0xd1, 0x25,
  0x72, 0xf8, 0xf6, 0x64, 0x86, 0x68, 0x98, 0x16, 0xd4, 0xa4, 0x5c, 0xcc, 0x5d, 0x65, 0xb6, 0x92,
  0x6c, 0x70, 0x48, 0x50, 0xfd, 0xed, 0xb9, 0xda, 0x5e, 0x15, 0x46, 0x57, 0xa7, 0x8d, 0x9d, 0x84,
  0x90, 0xd8, 0xab, 0x00, 0x8c, 0xbc, 0xd3, 0x0a, 0xf7, 0xe4, 0x58, 0x05, 0xb8, 0xb3, 0x45, 0x06,
  0xd0, 0x2c, 0x1e, 0x8f, 0xca, 0x3f, 0x0f, 0x02, 0xc1, 0xaf, 0xbd, 0x03, 0x01, 0x13, 0x8a, 0x6b,
  0x3a, 0x91, 0x11, 0x41, 0x4f, 0x67, 0xdc, 0xea, 0x97, 0xf2, 0xcf, 0xce, 0xf0, 0xb4, 0xe6, 0x73,
  0x96, 0xac, 0x74, 0x22, 0xe7, 0xad, 0x35, 0x85, 0xe2, 0xf9, 0x37, 0xe8, 0x1c, 0x75, 0xdf, 0x6e,
  0x47, 0xf1, 0x1a, 0x71, 0x1d, 0x29, 0xc5, 0x89, 0x6f, 0xb7, 0x62, 0x0e, 0xaa, 0x18, 0xbe, 0x1b,
  0xfc, 0x56, 0x3e, 0x4b, 0xc6, 0xd2, 0x79, 0x20, 0x9a, 0xdb, 0xc0, 0xfe, 0x78, 0xcd, 0x5a, 0xf4,
  0x1f, 0xdd, 0xa8, 0x33, 0x88, 0x07, 0xc7, 0x31, 0xb1, 0x12, 0x10, 0x59, 0x27, 0x80, 0xec, 0x5f,
  0x60, 0x51, 0x7f, 0xa9, 0x19, 0xb5, 0x4a, 0x0d, 0x2d, 0xe5, 0x7a, 0x9f, 0x93, 0xc9, 0x9c, 0xef,
  0xa0, 0xe0, 0x3b, 0x4d, 0xae, 0x2a, 0xf5, 0xb0, 0xc8, 0xeb, 0xbb, 0x3c, 0x83, 0x53, 0x99, 0x61,
  0x17, 0x2b, 0x04, 0x7e, 0xba, 0x77, 0xd6, 0x26, 0xe1, 0x69, 0x14, 0x63, 0x55, 0x21, 0x0c, 0x7d]

def sbox (b : Byte) : Byte := sboxTable.getD b.toNat 0

def invSbox (b : Byte) : Byte := invSboxTable.getD b.toNat 0

def subBytes (s : List Byte) : List Byte := s.map sbox

def invSubBytes (s : List Byte) : List Byte := s.map invSbox

/-- Row r moves r places to the left (5.1.2): the byte that comes to each place. -/
def shiftRows (s : List Byte) : List Byte := [0, 5, 10, 15, 4, 9, 14, 3, 8, 13, 2, 7, 12, 1, 6, 11].map (s.getD · 0)

def invShiftRows (s : List Byte) : List Byte := [0, 13, 10, 7, 4, 1, 14, 11, 8, 5, 2, 15, 12, 9, 6, 3].map (s.getD · 0)

/-- One column multiplied by the circulant matrix with first row `m0 m1 m2 m3`. -/
def column (m0 m1 m2 m3 a b c d : Byte) : List Byte :=
  [gmul m0 a ^^^ gmul m1 b ^^^ gmul m2 c ^^^ gmul m3 d,
   gmul m3 a ^^^ gmul m0 b ^^^ gmul m1 c ^^^ gmul m2 d,
   gmul m2 a ^^^ gmul m3 b ^^^ gmul m0 c ^^^ gmul m1 d,
   gmul m1 a ^^^ gmul m2 b ^^^ gmul m3 c ^^^ gmul m0 d]

def columns (m0 m1 m2 m3 : Byte) : List Byte → List Byte
  | a :: b :: c :: d :: s => column m0 m1 m2 m3 a b c d ++ columns m0 m1 m2 m3 s
  | s => s

/-- 5.1.3 -/
def mixColumns (s : List Byte) : List Byte := columns 2 3 1 1 s

/-- 5.3.3 -/
def invMixColumns (s : List Byte) : List Byte := columns 0x0e 0x0b 0x0d 0x09 s

/-- 5.1.4 -/
def addRoundKey (k s : List Byte) : List Byte := xor s k

/-! ## Key expansion (5.2) -/

def wordOf (a b c d : Byte) : Word := a ++ b ++ c ++ d

def bytesOf (w : Word) : List Byte := [w.extractLsb' 24 8, w.extractLsb' 16 8, w.extractLsb' 8 8, w.extractLsb' 0 8]

def keyWords : List Byte → List Word
  | a :: b :: c :: d :: s => wordOf a b c d :: keyWords s
  | _ => []

def subWord (w : Word) : Word :=
  wordOf (sbox (w.extractLsb' 24 8)) (sbox (w.extractLsb' 16 8)) (sbox (w.extractLsb' 8 8)) (sbox (w.extractLsb' 0 8))

def rotWord (w : Word) : Word := w.rotateLeft 8

/-- The powers of x. -/
def rcon : Nat → Byte
  | 0 => 1
  | n + 1 => xtime (rcon n)

/-- `n` more words. -/
def expandLoop (nk : Nat) : Nat → List Word → List Word
  | 0, ws => ws
  | n + 1, ws =>
    let i := ws.length
    let t := ws.getD (i - 1) 0
    let t := if i % nk = 0 then subWord (rotWord t) ^^^ wordOf (rcon (i / nk - 1)) 0 0 0
      else if 6 < nk ∧ i % nk = 4 then subWord t else t
    expandLoop nk n (ws ++ [ws.getD (i - nk) 0 ^^^ t])

/-- The number of rounds. -/
def rounds (key : List Byte) : Nat := key.length / 4 + 6

def expandKey (key : List Byte) : List Word :=
  expandLoop (key.length / 4) (4 * (rounds key + 1) - key.length / 4) (keyWords key)

/-- The key of round `r`. -/
def roundKey (ws : List Word) (r : Nat) : List Byte := [0, 1, 2, 3].flatMap (fun c => bytesOf (ws.getD (4 * r + c) 0))

/-! ## The cipher and its inverse -/

def encRound (s k : List Byte) : List Byte := addRoundKey k (mixColumns (shiftRows (subBytes s)))

def decRound (s k : List Byte) : List Byte := invMixColumns (addRoundKey k (invSubBytes (invShiftRows s)))

/-- The keys of the rounds in the middle. -/
def middleKeys (key : List Byte) : List (List Byte) := (List.range (rounds key - 1)).map (fun r => roundKey (expandKey key) (r + 1))

/-- `Cipher`, 5.1. -/
def aesEnc (key block : List Byte) : List Byte :=
  let s := (middleKeys key).foldl encRound (addRoundKey (roundKey (expandKey key) 0) block)
  addRoundKey (roundKey (expandKey key) (rounds key)) (shiftRows (subBytes s))

/-- `InvCipher`, 5.3. -/
def aesDec (key block : List Byte) : List Byte :=
  let s := (middleKeys key).reverse.foldl decRound (addRoundKey (roundKey (expandKey key) (rounds key)) block)
  addRoundKey (roundKey (expandKey key) 0) (invSubBytes (invShiftRows s))

/-- AES. -/
def aes : Cipher := ⟨aesEnc, aesDec⟩

end Verif.Aes
