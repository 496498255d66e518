import Verif.Go.Prelude

/-!
# Model of `common/filter/bloom/bloom.go`

`uint64` is `BitVec 64`.  The two floating point computations of `New` (bloom.go:24-25 and 29) and the random seeds are
arguments of the model (see Model/BloomSize).  That `make` fails for want of memory is not modelled.
-/

namespace Verif.Bloom

/-- `type Filter struct`, bloom.go:16-20. -/
structure Filter where
  bits : List (BitVec 64)
  bitCnt : BitVec 64
  seeds : List (BitVec 64)
deriving DecidableEq, Repr

/-- `const uint64Bits`, bloom.go:11. -/
def uint64Bits : BitVec 64 := 64#64

/-- bloom.go:27: the bit count rounded up, in 64-bit arithmetic. -/
def roundUp (bitCnt : BitVec 64) : BitVec 64 := (bitCnt + uint64Bits - 1#64) / uint64Bits * uint64Bits

/-- `New`, bloom.go:22-40: `bitCnt` is the value computed in line 25, `seedCnt` that of line 29, `random` the values of
`source.Uint64()` in order. -/
def new (bitCnt : BitVec 64) (seedCnt : Int) (random : Nat → BitVec 64) : Go Filter :=
  if seedCnt < 0 then .error .makeLen
  else .ok ⟨List.replicate (roundUp bitCnt / uint64Bits).toNat 0#64, roundUp bitCnt,
    (List.range seedCnt.toNat).map random⟩

/-- `pos`, bloom.go:100-108. -/
def pos (f : Filter) (h seed : BitVec 64) : Go (BitVec 64 × BitVec 64) :=
  if f.bitCnt = 0#64 then .error .divZero
  else
    let bitsIndex := (h ^^^ seed) % f.bitCnt
    .ok (bitsIndex / uint64Bits, bitsIndex % uint64Bits)

/-- The loop of `Add`, bloom.go:44-47. -/
def addLoop (hash : BitVec 64) : List (BitVec 64) → Filter → Go Filter
  | [], f => .ok f
  | seed :: rest, f => do
    let (index, offset) ← pos f hash seed
    let b ← Go.idx f.bits index.toNat
    let bits ← Go.set f.bits index.toNat (b ||| 1#64 <<< offset)
    addLoop hash rest { f with bits := bits }

/-- `Add`, bloom.go:43-48. -/
def add (f : Filter) (hash : BitVec 64) : Go Filter := addLoop hash f.seeds f

/-- The loop of `Contains`, bloom.go:64-72. -/
def containsLoop (f : Filter) (hash : BitVec 64) : List (BitVec 64) → Go Bool
  | [] => .ok true
  | seed :: rest => do
    let (index, offset) ← pos f hash seed
    let mask := 1#64 <<< offset
    let b ← Go.idx f.bits index.toNat
    if (b &&& mask) ≠ mask then .ok false else containsLoop f hash rest

/-- `Contains`, bloom.go:63-73. -/
def contains (f : Filter) (hash : BitVec 64) : Go Bool := containsLoop f hash f.seeds

/-- `Clear`, bloom.go:88-92. -/
def clear (f : Filter) : Filter := { f with bits := f.bits.map fun _ => 0#64 }

/-- `Len`, bloom.go:95-97. -/
def len (f : Filter) : BitVec 64 := f.bitCnt

/-- One byte of `Write` of `fnv.New64` (64-bit FNV-1, `hash/fnv`): multiply by the prime, then xor. -/
def fnvByte (h : BitVec 64) (b : BitVec 8) : BitVec 64 := (h * 1099511628211#64) ^^^ b.zeroExtend 64

/-- `hash`, bloom.go:111-115. -/
def hash (b : List (BitVec 8)) : BitVec 64 := b.foldl fnvByte 14695981039346656037#64

/-- `AddBytes`, bloom.go:51-53. -/
def addBytes (f : Filter) (b : List (BitVec 8)) : Go Filter := add f (hash b)

/-- `AddString`, bloom.go:57-59; a string is its bytes. -/
def addString (f : Filter) (s : List (BitVec 8)) : Go Filter := addBytes f s

/-- `ContainsBytes`, bloom.go:77-79. -/
def containsBytes (f : Filter) (b : List (BitVec 8)) : Go Bool := contains f (hash b)

/-- `ContainsString`, bloom.go:83-85. -/
def containsString (f : Filter) (s : List (BitVec 8)) : Go Bool := containsBytes f s

/-- The operations that change a filter. -/
inductive Op
  | add (h : BitVec 64)
  | addBytes (b : List (BitVec 8))
  | addString (s : List (BitVec 8))
  | clear
deriving DecidableEq, Repr

def step (f : Filter) : Op → Go Filter
  | .add h => add f h
  | .addBytes b => addBytes f b
  | .addString s => addString f s
  | .clear => .ok (clear f)

def run (f : Filter) : List Op → Go Filter
  | [] => .ok f
  | op :: ops => do
    let f' ← step f op
    run f' ops

end Verif.Bloom
