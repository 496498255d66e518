import Verif.Model.TimingFine
import Verif.Go.Int64

/-!
# The timing wheel with 64-bit times (`common/timer/timingwheel/timing_wheel.go`)

The machine of Model/TimingFine, in which `int64` is unbounded, with arithmetic that wraps around.
-/

namespace Verif.TimingFine

open Mutex (put)
open TimingWheel (Ref Bucket Wheel Timer Tw Start newBucket bucketAt setBucket less rem quo curTime)

/-- `truncate`, timing_wheel.go:191-193. -/
def truncate64 (time tick : Int) : Go Int := do
  let r ← rem time tick
  .ok (wrap64 (time - r))

/-- `newTimingWheel`, timing_wheel.go:26-39. -/
def newWheel64 (tick wheelSize currentTime : Int) : Go Wheel := do
  let cur ← truncate64 currentTime tick
  if wheelSize < 0 then .error .makeLen
  else .ok ⟨tick, wheelSize, wrap64 (tick * wheelSize), cur, List.replicate wheelSize.toNat newBucket⟩

/-- `New`, timing_wheel.go:40-43. -/
def new64 (tick wheelSize now : Int) : Go Tw := do
  let w ← newWheel64 tick wheelSize now
  .ok ⟨[w], [], fun _ => ⟨0, none, false⟩⟩

/-- `addStep`, timing_wheel.go:121-146; the smallest number divided by -1 is itself. -/
def addStep64 (lk : Option Ref) (tw : Tw) (t : Nat) : Pc → Go (Tw × Pc)
  | .loaded l cur =>
    match tw.wheels[l]? with
    | none => .error .nilDeref
    | some w =>
      if (tw.timer t).exp < wrap64 (cur + w.tick) then .ok (tw, .returned false)
      else if (tw.timer t).exp < wrap64 (cur + w.interval) then do
        let ticks ← quo (tw.timer t).exp w.tick
        let ticks := wrap64 ticks
        let i ← rem ticks w.wheelSize
        if i < 0 then .error .index
        else do
          let b ← Go.idx w.buckets i.toNat
          if lk = some ⟨l, i.toNat⟩ then .error .diverge
          else .ok (⟨setBucket tw.wheels ⟨l, i.toNat⟩ ⟨b.exp, b.timers ++ [t]⟩, tw.queue,
            put tw.timer t { tw.timer t with bucket := some ⟨l, i.toNat⟩ }⟩, .inBucket ⟨l, i.toNat⟩ (wrap64 (ticks * w.tick)))
      else if l + 1 < tw.wheels.length then .ok (tw, .enter (l + 1))
      else do
        let o ← newWheel64 w.interval w.wheelSize cur
        .ok ({ tw with wheels := tw.wheels ++ [o] }, .enter (l + 1))
  | pc => addStep lk tw t pc

/-- `advance`, timing_wheel.go:166-177. -/
def advance64 (exp : Int) : List Wheel → Go (List Wheel)
  | [] => .ok []
  | w :: ws =>
    if exp ≥ wrap64 (w.cur + w.tick) then do
      let c ← truncate64 exp w.tick
      let ws ← advance64 c ws
      .ok ({ w with cur := c } :: ws)
    else .ok (w :: ws)

/-- The effect of an action, see `exec`; `UnixMilli` (timing_wheel.go:78, 98, 104) wraps around too. -/
def exec64 (s : State) : Act → Option State
  | .after delay => exec s (.after (wrap64 (s.clock + delay) - s.clock))
  | .schedule e => exec s (.schedule (wrap64 e))
  | .again t e => exec s (.again t (wrap64 e))
  | .act i =>
    match s.adders[i]? with
    | none => none
    | some ⟨t, runs, .returned ok⟩ =>
      let s := { s with adders := s.adders.eraseIdx i }
      if ok then some s else if runs then some (start s t) else some { s with dropped := s.dropped ++ [t] }
    | some ⟨t, runs, pc⟩ =>
      match addStep64 (locked s.run) s.tw t pc with
      | .ok (tw, pc) => some { s with tw := tw, adders := s.adders.set i ⟨t, runs, pc⟩ }
      | .error _ => none
  | .advance =>
    match s.run, s.chan with
    | .idle, r :: rest =>
      match advance64 (bucketAt s.tw.wheels r).exp s.tw.wheels with
      | .ok ws => some { s with tw := { s.tw with wheels := ws }, chan := rest, run := .advanced r }
      | .error _ => none
    | _, _ => none
  | .move =>
    match s.run with
    | .moving r t (.returned ok) =>
      let s := { s with run := .flushing r }
      if ok then some s else some (start s t)
    | .moving r t pc =>
      match addStep64 (some r) s.tw t pc with
      | .ok (tw, pc) => some { s with tw := tw, run := .moving r t pc }
      | .error _ => none
    | _ => none
  | a => exec s a

/-- The states reachable from `s0` by the actions `ex` that `g` admits. -/
inductive FromG (ex : State → Act → Option State) (g : State → Act → Prop) (s0 : State) : State → Prop
  | refl : FromG ex g s0 s0
  | step {s s' : State} (a : Act) : FromG ex g s0 s → g s a → ex s a = some s' → FromG ex g s0 s'

end Verif.TimingFine
