import Verif.Go.Prelude

/-!
# Model of the AES helpers, `help/utils/md5.go:46-88`

Bytes are `BitVec 8`. The block cipher is a parameter (`crypto/aes` is not modelled); the CBC mode of `crypto/cipher` is.
-/

namespace Verif.Aes

abbrev Byte := BitVec 8

/-- A block cipher with blocks of 16 bytes: encryption and decryption under a key. -/
structure Cipher where
  enc : List Byte → List Byte → List Byte
  dec : List Byte → List Byte → List Byte

/-- What is assumed of the cipher: blocks of 16 bytes go to such blocks, and decryption undoes encryption. -/
structure Cipher.Ok (c : Cipher) : Prop where
  enc_length : ∀ k b, b.length = 16 → (c.enc k b).length = 16
  dec_length : ∀ k b, b.length = 16 → (c.dec k b).length = 16
  dec_enc : ∀ k b, b.length = 16 → c.dec k (c.enc k b) = b

/-- `subtle.XORBytes` of two blocks. -/
def xor (a b : List Byte) : List Byte := List.zipWith (· ^^^ ·) a b

/-- `cbcEncrypter.CryptBlocks` over `n` blocks. -/
def cbcEnc (c : Cipher) (key : List Byte) : Nat → List Byte → List Byte → List Byte
  | 0, _, _ => []
  | n + 1, iv, src =>
    let out := c.enc key (xor (src.take 16) iv)
    out ++ cbcEnc c key n out (src.drop 16)

/-- `cbcDecrypter.CryptBlocks` over `n` blocks (the library goes backwards; the blocks are the same). -/
def cbcDec (c : Cipher) (key : List Byte) : Nat → List Byte → List Byte → List Byte
  | 0, _, _ => []
  | n + 1, iv, src => xor (c.dec key (src.take 16)) iv ++ cbcDec c key n (src.take 16) (src.drop 16)

/-- `CryptBlocks` panics unless the input is made of whole blocks. -/
def cryptBlocks (mode : Nat → List Byte → List Byte → List Byte) (iv src : List Byte) : Go (List Byte) :=
  if src.length % 16 ≠ 0 then .error (.explicit "crypto/cipher: input not full blocks")
  else .ok (mode (src.length / 16) iv src)

/-- `aes.NewCipher` fails for keys of other lengths. -/
def keyOk (key : List Byte) : Bool := key.length == 16 || key.length == 24 || key.length == 32

/-- The errors. -/
inductive Err
  | keySize
  | encrypt       -- "encrypt error"
deriving DecidableEq

/-- `pkcs7Padding`, md5.go:75-79, as a value (for the memory see `padMem`). -/
def pkcs7Padding (data : List Byte) (blockSize : Nat) : List Byte :=
  let padding := blockSize - data.length % blockSize
  data ++ List.replicate padding (BitVec.ofNat 8 padding)

/-- `pkcs7UnPadding`, md5.go:81-88. -/
def pkcs7UnPadding (data : List Byte) : Go (Except Err (List Byte)) :=
  if h : data.length = 0 then .ok (.error .encrypt)
  else
    let unPadding := (data[data.length - 1]'(by omega)).toNat
    if unPadding ≤ data.length then .ok (.ok (data.take (data.length - unPadding))) else .error .slice

/-- `AesEncrypt`, md5.go:46-57. -/
def aesEncrypt (c : Cipher) (data key : List Byte) : Go (Except Err (List Byte)) :=
  if keyOk key then do
    let encryptBytes := pkcs7Padding data 16
    let crypted ← cryptBlocks (cbcEnc c key) (key.take 16) encryptBytes
    return .ok crypted
  else .ok (.error .keySize)

/-- `AesDecrypt`, md5.go:59-73. -/
def aesDecrypt (c : Cipher) (data key : List Byte) : Go (Except Err (List Byte)) :=
  if keyOk key then do
    let crypted ← cryptBlocks (cbcDec c key) (key.take 16) data
    pkcs7UnPadding crypted
  else .ok (.error .keySize)

/-! ## Memory: `append` may write behind the slice -/

/-- A slice of a backing array: `back[off : off+len : off+cap]`. -/
structure Slice where
  back : List Byte
  off : Nat
  len : Nat
  cap : Nat

/-- The slice lies in its array. -/
def Slice.Ok (s : Slice) : Prop := s.len ≤ s.cap ∧ s.off + s.cap ≤ s.back.length

/-- The content. -/
def Slice.val (s : Slice) : List Byte := (s.back.drop s.off).take s.len

/-- `append(data, padText...)` of `pkcs7Padding`: the content of the result, and the backing array of the caller afterwards. If the
capacity suffices, the bytes go behind the slice; otherwise a new array is made. -/
def padMem (s : Slice) (blockSize : Nat) : List Byte × List Byte :=
  let padding := blockSize - s.len % blockSize
  let padText := List.replicate padding (BitVec.ofNat 8 padding)
  if s.len + padding ≤ s.cap then
    let back := s.back.take (s.off + s.len) ++ padText ++ s.back.drop (s.off + s.len + padding)
    ((back.drop s.off).take (s.len + padding), back)
  else (s.val ++ padText, s.back)

/-- `AesEncrypt` with the memory of the caller: the result and the backing array afterwards. -/
def aesEncryptMem (c : Cipher) (s : Slice) (key : List Byte) : Go (Except Err (List Byte) × List Byte) :=
  if keyOk key then do
    let (encryptBytes, back) := padMem s 16
    let crypted ← cryptBlocks (cbcEnc c key) (key.take 16) encryptBytes
    return (.ok crypted, back)
  else .ok (.error .keySize, s.back)

end Verif.Aes
