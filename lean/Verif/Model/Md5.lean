import Verif.Go.Utf8

/-!
# Model of the MD5 helpers, `help/utils/md5.go:18-44`, `help/utils/breakpoint_continue.go:37-44, 92-96`

The hash function is a parameter `md5 : Bytes → Bytes`; the state of a `hash.Hash` is what was written to it so far.
-/

namespace Verif.Md5

/-- A `hash.Hash`: the bytes written. -/
structure Hash where
  written : Bytes

/-- `md5.New` -/
def Hash.new : Hash := ⟨[]⟩

/-- `Write` -/
def Hash.write (h : Hash) (b : Bytes) : Hash := ⟨h.written ++ b⟩

/-- `Sum(b)` appends the digest to `b`. -/
def Hash.sum (md5 : Bytes → Bytes) (h : Hash) (b : Bytes) : Bytes := b ++ md5 h.written

/-- A lower-case hexadecimal digit. -/
def hexDigit (n : Nat) : Nat := if n < 10 then 48 + n else 97 + (n - 10)

/-- `hex.EncodeToString`, and `%x` of bytes. -/
def hex : Bytes → Bytes
  | [] => []
  | b :: bs => hexDigit (b / 16) :: hexDigit (b % 16) :: hex bs

/-- `Md5Crypt`, md5.go:18-23. -/
def md5Crypt (md5 : Bytes → Bytes) (str : Bytes) : Bytes := hex ((Hash.new.write str).sum md5 [])

/-- `Md5`, md5.go:39-44. -/
def md5String (md5 : Bytes → Bytes) (s : Bytes) : Bytes := hex (md5 s)

/-- `io.Copy` into the hash: the reader delivers its pieces one after the other, until its end or an error. -/
def copy : List Bytes → Hash → Hash
  | [], h => h
  | p :: ps, h => copy ps (h.write p)

/-- `ComputeFileMD5`, md5.go:29-33; the error of the reader is dropped. -/
def computeFileMD5 (md5 : Bytes → Bytes) (pieces : List Bytes) : Bytes := hex ((copy pieces .new).sum md5 [])

/-- `MD5V`, breakpoint_continue.go:92-96. -/
def md5V (md5 : Bytes → Bytes) (str b : Bytes) : Bytes := hex ((Hash.new.write str).sum md5 b)

/-- `CheckMd5`, breakpoint_continue.go:37-44. -/
def checkMd5 (md5 : Bytes → Bytes) (content chunkMd5 : Bytes) : Bool :=
  let fileMd5 := md5V md5 content []
  if fileMd5 = chunkMd5 then true else false

end Verif.Md5
