import Verif.Model.Strconv

/-!
# Model of the error of `common/limiter/sliding_log/sliding_log.go`
-/

namespace Verif.Limiter.Log

open Utf8

/-- `type ViolationStrategyError struct`, sliding_log/sliding_log.go:12-15. -/
structure Violation where
  limit : Int
  window : Int
deriving DecidableEq

/-- `(*ViolationStrategyError).Error`, sliding_log/sliding_log.go:17-19. (`%d` of a duration is the number of nanoseconds.) -/
def Violation.error (e : Violation) : Bytes :=
  lit "violation strategy that limit = " ++ Strconv.formatInt e.limit ++ lit " and window = " ++ Strconv.formatInt e.window

end Verif.Limiter.Log
