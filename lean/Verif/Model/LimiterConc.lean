import Verif.Model.Mutex
import Verif.Model.Sliding

/-!
# The bodies of `TryAcquire`, statement by statement

The atomic actions between `Lock` and `Unlock` (the clock has been read, see `Verif.Model.Mutex`).  Every read and write of
a field of the limiter is an action of its own (or part of the evaluation of one condition), so other goroutines, if they
could get in, would see the limiter half updated.  `sliding_window.go` and `sliding_log.go` read the clock in their first
statement as well.
-/

namespace Verif.Limiter

open Mutex

namespace Fixed

/-- Positions in `TryAcquire`, fixed_window/fixed_window.go:38-50. -/
inductive Loc
  | check (now : Int)
  | zero (now : Int)
  | stamp (now : Int)
  | test
  | bump
  | ret (b : Bool)

inductive Act : Lim × Loc → Lim × Loc → Prop
  /-- fixed_window/fixed_window.go:40 -/
  | over (s now) : timeSub now s.lastTime > s.window → Act (s, .check now) (s, .zero now)
  | same (s now) : ¬ timeSub now s.lastTime > s.window → Act (s, .check now) (s, .test)
  /-- fixed_window/fixed_window.go:41 -/
  | zero (s now) : Act (s, .zero now) ({ s with counter := 0 }, .stamp now)
  /-- fixed_window/fixed_window.go:42 -/
  | stamp (s now) : Act (s, .stamp now) ({ s with lastTime := now }, .test)
  /-- fixed_window/fixed_window.go:45 -/
  | full (s) : s.counter ≥ s.limit → Act (s, .test) (s, .ret false)
  | free (s) : ¬ s.counter ≥ s.limit → Act (s, .test) (s, .bump)
  /-- fixed_window/fixed_window.go:49 -/
  | bump (s) : Act (s, .bump) ({ s with counter := wrap64 (s.counter + 1) }, .ret true)

def final : Loc → Option Bool
  | .ret b => some b
  | _ => none

def body : Body Lim Unit Loc Bool := ⟨fun _ now l => l = .check now, Act, final⟩

end Fixed

namespace Leaky

/-- Positions in `TryAcquire`, leaky_bucket/leaky_bucket_limiter.go:31-45. -/
inductive Loc
  | check (now : Int)
  | drop (now interval : Int)
  | stamp (now : Int)
  | test
  | bump
  | ret (b : Bool)

inductive Act : Lim × Loc → Lim × Loc → Prop
  /-- leaky_bucket/leaky_bucket_limiter.go:32-33 -/
  | late (s now) : timeSub now s.lastTime ≥ second → Act (s, .check now) (s, .drop now (timeSub now s.lastTime))
  | early (s now) : ¬ timeSub now s.lastTime ≥ second → Act (s, .check now) (s, .test)
  /-- leaky_bucket/leaky_bucket_limiter.go:35 -/
  | drop (s now interval) : Act (s, .drop now interval)
      ({ s with currentLevel := maxInt 0 (wrap64 (s.currentLevel - wrap64 (interval.tdiv second * s.currentVelocity))) },
        .stamp now)
  /-- leaky_bucket/leaky_bucket_limiter.go:36 -/
  | stamp (s now) : Act (s, .stamp now) ({ s with lastTime := now }, .test)
  /-- leaky_bucket/leaky_bucket_limiter.go:40 -/
  | full (s) : s.currentLevel ≥ s.peakLevel → Act (s, .test) (s, .ret false)
  | free (s) : ¬ s.currentLevel ≥ s.peakLevel → Act (s, .test) (s, .bump)
  /-- leaky_bucket/leaky_bucket_limiter.go:44 -/
  | bump (s) : Act (s, .bump) ({ s with currentLevel := wrap64 (s.currentLevel + 1) }, .ret true)

def final : Loc → Option Bool
  | .ret b => some b
  | _ => none

def body : Body Lim Unit Loc Bool := ⟨fun _ now l => l = .check now, Act, final⟩

end Leaky

namespace Token

/-- Positions in `TryAcquire`, token_bucket/token_bucket.go:31-45. -/
inductive Loc
  | check (now : Int)
  | issue (now interval : Int)
  | stamp (now : Int)
  | test
  | take
  | ret (b : Bool)

inductive Act : Lim × Loc → Lim × Loc → Prop
  /-- token_bucket/token_bucket.go:32-33 -/
  | late (s now) : timeSub now s.lastTime ≥ second → Act (s, .check now) (s, .issue now (timeSub now s.lastTime))
  | early (s now) : ¬ timeSub now s.lastTime ≥ second → Act (s, .check now) (s, .test)
  /-- token_bucket/token_bucket.go:35 -/
  | issue (s now interval) : Act (s, .issue now interval)
      ({ s with currentTokens := minInt s.capacity (wrap64 (s.currentTokens + wrap64 (interval.tdiv second * s.rate))) },
        .stamp now)
  /-- token_bucket/token_bucket.go:36 -/
  | stamp (s now) : Act (s, .stamp now) ({ s with lastTime := now }, .test)
  /-- token_bucket/token_bucket.go:40 -/
  | empty (s) : s.currentTokens = 0 → Act (s, .test) (s, .ret false)
  | some (s) : ¬ s.currentTokens = 0 → Act (s, .test) (s, .take)
  /-- token_bucket/token_bucket.go:44 -/
  | take (s) : Act (s, .take) ({ s with currentTokens := wrap64 (s.currentTokens - 1) }, .ret true)

def final : Loc → Option Bool
  | .ret b => Option.some b
  | _ => none

def body : Body Lim Unit Loc Bool := ⟨fun _ now l => l = .check now, Act, final⟩

end Token

namespace Window

/-- Positions in `TryAcquire`, sliding_window/sliding_window.go:39-59. -/
inductive Loc
  | begin (now : Int)
  | range (cur start : Int)
  | loop (cur start : Int) (rest : List (Int × Int)) (count : Int)
  | bump (cur : Int)
  | ret (b : Bool)

inductive Act : Lim × Loc → Lim × Loc → Prop
  /-- sliding_window/sliding_window.go:39-41 -/
  | begin (s now cur) : smallWindowOf now s.smallWindow = .ok cur → Act (s, .begin now)
      (s, .range cur (wrap64 (cur - wrap64 (s.smallWindow * wrap64 (s.smallWindows - 1)))))
  /-- sliding_window/sliding_window.go:45: the runtime chooses an order. -/
  | range (s cur start order) : order.Perm s.counters → Act (s, .range cur start) (s, .loop cur start order 0)
  /-- sliding_window/sliding_window.go:46-47 -/
  | drop (s cur start w c rest n) : w < start →
      Act (s, .loop cur start ((w, c) :: rest) n) ({ s with counters := s.counters.del w }, .loop cur start rest n)
  /-- sliding_window/sliding_window.go:49 -/
  | add (s cur start w c rest n) : ¬ w < start →
      Act (s, .loop cur start ((w, c) :: rest) n) (s, .loop cur start rest (wrap64 (n + c)))
  /-- sliding_window/sliding_window.go:54 -/
  | full (s cur start n) : n ≥ s.limit → Act (s, .loop cur start [] n) (s, .ret false)
  | free (s cur start n) : ¬ n ≥ s.limit → Act (s, .loop cur start [] n) (s, .bump cur)
  /-- sliding_window/sliding_window.go:58 -/
  | bump (s cur) : Act (s, .bump cur) ({ s with counters := s.counters.incr cur }, .ret true)

def final : Loc → Option Bool
  | .ret b => some b
  | _ => none

def body : Body Lim Unit Loc Bool := ⟨fun _ now l => l = .begin now, Act, final⟩

end Window

namespace Log

/-- Positions in `TryAcquire`, sliding_log/sliding_log.go:87-120. -/
inductive Loc
  | begin (now : Int)
  | range (cur : Int) (starts : List Int)
  | loop (cur : Int) (starts : List Int) (rest : List (Int × Int)) (counts : List Int)
  | bump (cur : Int)
  | ret (r : Option (Int × Int))

/-- The actions; the strategy objects `st` do not change. -/
inductive Act (st : Store) : Lim × Loc → Lim × Loc → Prop
  /-- sliding_log/sliding_log.go:87-92 -/
  | begin (s now cur ss) : smallWindowOf now s.smallWindow = .ok cur → starts st s.smallWindow cur s.strategies = .ok ss →
      Act st (s, .begin now) (s, .range cur ss)
  /-- sliding_log/sliding_log.go:95-96: the runtime chooses an order. -/
  | range (s cur ss order) : order.Perm s.counters →
      Act st (s, .range cur ss) (s, .loop cur ss order (List.replicate s.strategies.length 0))
  /-- sliding_log/sliding_log.go:97-99 -/
  | drop (s cur ss s0 w c rest n) : Go.idx ss 0 = .ok s0 → w < s0 →
      Act st (s, .loop cur ss ((w, c) :: rest) n) ({ s with counters := s.counters.del w }, .loop cur ss rest n)
  /-- sliding_log/sliding_log.go:101-105 -/
  | add (s cur ss s0 w c rest n) : Go.idx ss 0 = .ok s0 → ¬ w < s0 →
      Act st (s, .loop cur ss ((w, c) :: rest) n) (s, .loop cur ss rest (addCounts w c ss n))
  /-- sliding_log/sliding_log.go:109-116 -/
  | full (s cur ss n v) : violated st s.strategies n = .ok (some v) → Act st (s, .loop cur ss [] n) (s, .ret (some v))
  | free (s cur ss n) : violated st s.strategies n = .ok none → Act st (s, .loop cur ss [] n) (s, .bump cur)
  /-- sliding_log/sliding_log.go:119 -/
  | bump (s cur) : Act st (s, .bump cur) ({ s with counters := s.counters.incr cur }, .ret none)

def final : Loc → Option (Option (Int × Int))
  | .ret r => some r
  | _ => none

def body (st : Store) : Body Lim Unit Loc (Option (Int × Int)) := ⟨fun _ now l => l = .begin now, Act st, final⟩

end Log
end Verif.Limiter
