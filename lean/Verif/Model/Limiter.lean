import Verif.Go.Prelude
import Verif.Go.Int64

/-!
# Models of `common/limiter`: fixed window, leaky bucket, token bucket

`time.Now()` is an argument: the monotonic clock reading in nanoseconds.  The mutex is modelled in
`Verif.Model.Mutex`; here a call of `TryAcquire` is one step.
-/

namespace Verif.Limiter

namespace Fixed

/-- `type FixedWindowLimiter struct`, fixed_window/fixed_window.go:8-14. -/
structure Lim where
  limit : Int
  window : Int
  counter : Int
  lastTime : Int
deriving DecidableEq, Repr

/-- `NewFixedWindowLimiter`, fixed_window/fixed_window.go:20-26. -/
def new (limit window now : Int) : Lim := ⟨limit, window, 0, now⟩

/-- fixed_window/fixed_window.go:40-43: opens a new window if the current one is over. -/
def reset (l : Lim) (now : Int) : Lim :=
  if timeSub now l.lastTime > l.window then { l with counter := 0, lastTime := now } else l

/-- `TryAcquire`, fixed_window/fixed_window.go:34-51. -/
def tryAcquire (l : Lim) (now : Int) : Lim × Bool :=
  let l := reset l now
  if l.counter ≥ l.limit then (l, false)
  else ({ l with counter := wrap64 (l.counter + 1) }, true)

end Fixed

namespace Leaky

/-- `type LeakyBucketLimiter struct`, leaky_bucket/leaky_bucket_limiter.go:9-15. -/
structure Lim where
  peakLevel : Int
  currentLevel : Int
  currentVelocity : Int
  lastTime : Int
deriving DecidableEq, Repr

/-- `NewLeakyBucketLimiter`, leaky_bucket/leaky_bucket_limiter.go:17-23. -/
def new (peakLevel currentVelocity now : Int) : Lim := ⟨peakLevel, 0, currentVelocity, now⟩

/-- `maxInt`, leaky_bucket/leaky_bucket_limiter.go:48-53. -/
def maxInt (a b : Int) : Int := if a > b then a else b

/-- leaky_bucket/leaky_bucket_limiter.go:32-37: lets water out. -/
def drain (l : Lim) (now : Int) : Lim :=
  let interval := timeSub now l.lastTime
  if interval ≥ second then
    { l with
      currentLevel := maxInt 0 (wrap64 (l.currentLevel - wrap64 (interval.tdiv second * l.currentVelocity)))
      lastTime := now }
  else l

/-- `TryAcquire`, leaky_bucket/leaky_bucket_limiter.go:25-46. -/
def tryAcquire (l : Lim) (now : Int) : Lim × Bool :=
  let l := drain l now
  if l.currentLevel ≥ l.peakLevel then (l, false)
  else ({ l with currentLevel := wrap64 (l.currentLevel + 1) }, true)

end Leaky

namespace Token

/-- `type TokenBucketLimiter struct`, token_bucket/token_bucket.go:9-15. -/
structure Lim where
  capacity : Int
  currentTokens : Int
  rate : Int
  lastTime : Int
deriving DecidableEq, Repr

/-- `NewTokenBucketLimiter`, token_bucket/token_bucket.go:17-23. -/
def new (capacity rate now : Int) : Lim := ⟨capacity, 0, rate, now⟩

/-- `minInt`, token_bucket/token_bucket.go:48-53. -/
def minInt (a b : Int) : Int := if a < b then a else b

/-- token_bucket/token_bucket.go:32-37: issues tokens. -/
def refill (l : Lim) (now : Int) : Lim :=
  let interval := timeSub now l.lastTime
  if interval ≥ second then
    { l with
      currentTokens := minInt l.capacity (wrap64 (l.currentTokens + wrap64 (interval.tdiv second * l.rate)))
      lastTime := now }
  else l

/-- `TryAcquire`, token_bucket/token_bucket.go:25-46. -/
def tryAcquire (l : Lim) (now : Int) : Lim × Bool :=
  let l := refill l now
  if l.currentTokens = 0 then (l, false)
  else ({ l with currentTokens := wrap64 (l.currentTokens - 1) }, true)

end Token

/-- One answered call. -/
structure Event where
  time : Int
  ok : Bool
deriving DecidableEq, Repr

/-- A sequence of calls at the given times: the limiter afterwards and the answers in order. -/
def run {L : Type} (f : L → Int → L × Bool) (l : L) : List Int → L × List Event
  | [] => (l, [])
  | t :: ts =>
    let (l', b) := f l t
    let (l'', es) := run f l' ts
    (l'', ⟨t, b⟩ :: es)

end Verif.Limiter
