import Verif.Props.LimiterLog
import Verif.Props.LimiterSet

/-!
# C173: the sliding log when the clock is set

`TryAcquire` reads `time.Now().UnixNano()` (sliding_log/sliding_log.go:87), the clock on the wall. C41 and C42 suppose that it never runs backwards; here
it may show anything at every call.
-/

namespace Verif.Limiter

open WindowSpec LogSpec

namespace LogSpec

/-- The answers of a limiter with the given rules, the longest window being `longest`, that forgets accepted calls for good once they are too old for every
rule. -/
def forgettingLog (rules : List Rule) (longest small : Int) (mem : List Int) : List Int → List Event
  | [] => []
  | t :: ts =>
    if ∀ r ∈ rules, ¬ exhausted small (remembered longest small mem t) t r then
      ⟨t, true⟩ :: forgettingLog rules longest small (t :: remembered longest small mem t) ts
    else ⟨t, false⟩ :: forgettingLog rules longest small (remembered longest small mem t) ts

/-- Whether each call was accepted. -/
def verdicts (es : List Log.Ans) : List Event := es.map fun e => ⟨e.time, e.res.isNone⟩

end LogSpec

namespace Log

open Counters

/-- What is known about a limiter that remembers the calls at the times `mem`. -/
structure Holds (st : Store) (ps : List Nat) (small : Int) (l : Lim) (mem : List Int) : Prop where
  str : l.strategies = ps
  sw : l.smallWindow = small
  rep : Rep l.counters (mem.map (slot small)) (-(2 ^ 64))
  bound : ∀ p ∈ ps.head?, (mem.length : Int) ≤ max (rule st p).limit 0

/-- One call at any time. -/
theorem step_any {st : Store} {ps : List Nat} {small : Int} (C : Conf st ps small) {l : Lim} {mem : List Int} {t : Int} {p0 : Nat}
    (hp0 : ps.head? = some p0) (g : Holds st ps small l mem) (h0 : 0 ≤ t) (h1 : t < 2 ^ 63) {order : List (Int × Int)} (hp : order.Perm l.counters) :
    ∃ l', tryAcquire st l order t = .ok (l', firstExhausted st small (remembered (rule st p0).window small mem t) t ps) ∧
      Holds st ps small l' (if firstExhausted st small (remembered (rule st p0).window small mem t) t ps = none then
        t :: remembered (rule st p0).window small mem t else remembered (rule st p0).window small mem t) := by
  have hs := C.s
  have hslot0 := slot_nonneg hs h0
  have hslot1 := slot_le (t := t) hs
  obtain ⟨ps', hps⟩ : ∃ ps', ps = p0 :: ps' := by
    cases h : ps with
    | nil => rw [h] at hp0; cases hp0
    | cons a b => rw [h] at hp0; cases hp0; exact ⟨b, rfl⟩
  have hp0 : p0 ∈ ps := by rw [hps]; simp
  have hmax : ∀ p ∈ ps, (rule st p).window ≤ (rule st p0).window := by
    intro p hpp
    have := C.sorted
    rw [hps] at this hpp
    rcases List.mem_cons.1 hpp with h | h
    · rw [h]
    · exact (List.pairwise_cons.1 this).1 p h
  have hsmall : ∀ p ∈ ps, small ≤ (rule st p).window := fun p hpp => Int.le_of_dvd (C.w p hpp).1 (C.w p hpp).2.2
  have hstart_le : ∀ p ∈ ps, startOf st small (slot small t) p0 ≤ startOf st small (slot small t) p := by
    intro p hpp
    have := hmax p hpp
    unfold startOf; omega
  have hlow : ∀ p ∈ ps, -(2 ^ 64) ≤ startOf st small (slot small t) p := by
    intro p hpp
    have := C.w p hpp
    unfold startOf; omega
  have hb := g.bound p0 (by rw [hps]; rfl)
  have hl2 := (C.l p0 hp0).2
  generalize hrem : remembered (rule st p0).window small mem t = mem'
  have hle : mem'.length ≤ mem.length := by rw [← hrem]; exact List.length_filter_le _ _
  have hmap : ((mem.map (slot small)).filter fun w => decide (startOf st small (slot small t) p0 ≤ w)) = mem'.map (slot small) := by
    rw [← hrem, List.filter_map]; rfl
  have hfil := Window.rep_filter (s := startOf st small (slot small t) p0) g.rep
  rw [hmap] at hfil
  -- the counts
  let cnt : Nat → Int := fun p => ((mem'.countP fun a => decide (startOf st small (slot small t) p ≤ slot small a) : Nat) : Int)
  have hsum : ∀ p ∈ ps, wrap64 (sumFrom (startOf st small (slot small t) p) order) = cnt p := by
    intro p hpp
    have h := (g.rep.perm hp).sum (s := startOf st small (slot small t) p) (hlow p hpp)
    have hc : (mem.map (slot small)).countP (fun w => decide (startOf st small (slot small t) p ≤ w)) =
        mem'.countP fun a => decide (startOf st small (slot small t) p ≤ slot small a) := by
      rw [List.countP_map, ← hrem]
      unfold remembered
      rw [List.countP_filter]
      apply List.countP_congr
      intro a _
      have := hstart_le p hpp
      unfold startOf at this ⊢
      simp only [Function.comp_apply, Bool.and_eq_true, decide_eq_true_eq]
      omega
    rw [hc] at h
    rw [h]
    have hcl : mem'.countP (fun a => decide (startOf st small (slot small t) p ≤ slot small a)) ≤ mem'.length := List.countP_le_length
    exact wrap64_of_in (x := cnt p) (by
      have : 0 ≤ cnt p := Int.natCast_nonneg _
      have : cnt p ≤ mem'.length := Int.ofNat_le.2 hcl
      unfold InI64; omega)
  have hlen : ∀ p ∈ ps, p < st.length := by
    intro p hpp
    obtain ⟨s, hs1, _⟩ := C.obj p hpp
    exact (List.getElem?_eq_some_iff.1 hs1).1
  have hviol : violated st ps ((ps.map (startOf st small (slot small t))).map fun s => wrap64 (sumFrom s order)) =
      .ok (firstExhausted st small mem' t ps) := by
    rw [List.map_map]
    have : ps.map ((fun s => wrap64 (sumFrom s order)) ∘ startOf st small (slot small t)) = ps.map cnt :=
      List.map_congr_left fun p hpp => hsum p hpp
    rw [this, violated_eq cnt ps hlen]
    rfl
  unfold tryAcquire
  rw [g.sw, g.str, smallWindowOf_ok hs h0 h1]
  simp only [Go.bind_ok]
  rw [starts_ok hs hslot0 (by omega) ps C.obj C.w]
  simp only [Go.bind_ok]
  have hss : (ps.map (startOf st small (slot small t)))[0]? = some (startOf st small (slot small t) p0) := by
    rw [hps]; rfl
  have hscan := scan_map hss (by
    intro s hs'
    obtain ⟨p, hpp, rfl⟩ := List.mem_map.1 hs'
    exact hstart_le p hpp) hp
  rw [List.length_map] at hscan
  rw [hscan]
  simp only [Go.bind_ok, hviol]
  have hhead : ∀ p ∈ ps.head?, p = p0 := by
    intro p hpp
    rw [hps] at hpp
    simp only [List.head?_cons, Option.mem_def, Option.some.injEq] at hpp
    exact hpp.symm
  cases hfe : firstExhausted st small mem' t ps with
  | some v =>
    refine ⟨_, rfl, ?_⟩
    rw [if_neg (by simp)]
    exact ⟨rfl, rfl, hfil, fun p hpp => by rw [hhead p hpp]; omega⟩
  | none =>
    refine ⟨_, rfl, ?_⟩
    rw [if_pos rfl]
    have hn0 : cnt p0 < (rule st p0).limit := by
      unfold firstExhausted at hfe
      rw [Option.map_eq_none_iff, List.find?_eq_none] at hfe
      have : ¬ exhausted small mem' t (rule st p0) := by simpa using hfe p0 hp0
      exact Int.not_le.1 this
    have hall : cnt p0 = mem'.length := by
      have : mem'.countP (fun a => decide (startOf st small (slot small t) p0 ≤ slot small a)) = mem'.length := by
        rw [List.countP_eq_length]
        intro a ha
        rw [← hrem] at ha
        simp only [remembered, List.mem_filter] at ha
        exact ha.2
      simp only [cnt, this]
    have hcnt : (mem'.map (slot small)).count (slot small t) ≤ mem'.length := by
      have := List.count_le_length (a := slot small t) (l := mem'.map (slot small))
      rwa [List.length_map] at this
    refine ⟨rfl, rfl, hfil.incr (w := slot small t) (by omega) (by omega), fun p hpp => ?_⟩
    rw [hhead p hpp, List.length_cons]
    push_cast
    omega

theorem firstExhausted_none {st : Store} {small t : Int} {mem : List Int} {ps : List Nat} :
    firstExhausted st small mem t ps = none ↔ ∀ r ∈ ps.map (rule st), ¬ exhausted small mem t r := by
  unfold firstExhausted
  rw [Option.map_eq_none_iff, List.find?_eq_none]
  simp

theorem run_any {st : Store} {ps : List Nat} {small : Int} (C : Conf st ps small) {p0 : Nat} (hp0 : ps.head? = some p0) {l l' : Lim} {ts : List Int}
    {es : List Ans} (hr : Runs st l ts es l') : ∀ {mem : List Int}, Holds st ps small l mem → (∀ t ∈ ts, 0 ≤ t ∧ t < 2 ^ 63) →
      verdicts es = forgettingLog (ps.map (rule st)) (rule st p0).window small mem ts := by
  induction hr with
  | nil l => intros; rfl
  | cons order hp he hr ih =>
    rename_i l l1 l2 t ts b es
    intro mem g ht
    obtain ⟨l3, e1, g1⟩ := step_any C hp0 g (ht t (by simp)).1 (ht t (by simp)).2 hp
    rw [he] at e1
    simp only [Except.ok.injEq, Prod.mk.injEq] at e1
    obtain ⟨rfl, rfl⟩ := e1
    have := ih g1 (fun x hx => ht x (by simp [hx]))
    rw [forgettingLog, verdicts, List.map_cons]
    unfold verdicts at this
    rw [this]
    by_cases hc : firstExhausted st small (remembered (rule st p0).window small mem t) t ps = none
    · rw [if_pos (firstExhausted_none.1 hc), if_pos hc, hc]
      rfl
    · rw [if_neg fun h => hc (firstExhausted_none.2 h), if_neg hc]
      cases hx : firstExhausted st small (remembered (rule st p0).window small mem t) t ps with
      | none => exact absurd hx hc
      | some v => rfl

theorem forgetting_congr {rules rules' : List Rule} (h : ∀ r, r ∈ rules ↔ r ∈ rules') (longest small : Int) : ∀ (ts mem : List Int),
    forgettingLog rules longest small mem ts = forgettingLog rules' longest small mem ts
  | [], _ => rfl
  | t :: ts, mem => by
    rw [forgettingLog, forgettingLog, forgetting_congr h longest small ts, forgetting_congr h longest small ts]
    simp only [h]

/-- **C173 (exact answers).** Every run, whatever the clock shows at each call and whatever the iteration order of the map, accepts the calls that a limiter
accepts which forgets accepted calls for good once they are too old for the rule with the longest window. -/
theorem C173_exact {st : Store} {small : Int} {ptrs : List Nat} {st' : Store} {l l' : Lim} {ts : List Int} {es : List Ans} (S : Start st small ptrs st' l)
    (hr : Runs st' l ts es l') (ht : ∀ t ∈ ts, 0 ≤ t ∧ t < 2 ^ 63) {longest : Int} (hmem : ∃ p ∈ ptrs, (rule st p).window = longest)
    (hmax : ∀ p ∈ ptrs, (rule st p).window ≤ longest) : verdicts es = forgettingLog (ptrs.map (rule st)) longest small [] ts := by
  obtain ⟨C, hperm, hsame, h1, h2⟩ := start_conf S
  obtain ⟨p0, ps', hps⟩ : ∃ p0 ps', l.strategies = p0 :: ps' := by
    cases h : l.strategies with
    | nil => exact absurd h C.ne
    | cons a b => exact ⟨a, b, rfl⟩
  have hw : (rule st' p0).window = longest := by
    obtain ⟨p, hp, rfl⟩ := hmem
    have hle := hmax p0 (hperm.mem_iff.1 (by rw [hps]; simp))
    rw [hsame.rule]
    have hpm := hperm.mem_iff.2 hp
    have hso := C.sorted
    rw [hps] at hpm hso
    rcases List.mem_cons.1 hpm with rfl | hpm
    · rfl
    · have := (List.pairwise_cons.1 hso).1 p hpm
      rw [hsame.rule, hsame.rule] at this
      omega
  have := run_any C (p0 := p0) (by rw [hps]; rfl) hr (mem := []) ⟨rfl, h1, by rw [h2]; exact rep_nil _, fun p _ => by simp⟩ ht
  rw [this, hw]
  apply forgetting_congr
  intro r
  simp only [List.mem_map, hsame.rule, hperm.mem_iff]

/-! ### How much is let through -/

theorem forgetting_le {rules : List Rule} {longest small : Int} (hs : 0 < small) (hw : 0 < longest) (hd : small ∣ longest)
    (hlim : ∀ r ∈ rules, 1 ≤ r.limit) {r : Rule} (hr : r ∈ rules) (hrw : r.window ≤ longest) (hrd : small ∣ r.window) (hr0 : 0 < r.window)
    {A : Int} (hA : small ∣ A) : ∀ (ts mem : List Int) (prev : Int),
    (prev < A + longest → accepted (fun t => A ≤ t ∧ t < A + r.window) (forgettingLog rules longest small mem ts) +
      min ((mem.countP (fun a => decide (A ≤ a)) : Nat) : Int) r.limit ≤ r.limit + setBacks prev ts * (r.limit - 1)) ∧
    (A + longest ≤ prev → mem ≠ [] → (∀ a ∈ mem, A ≤ a) →
      accepted (fun t => A ≤ t ∧ t < A + r.window) (forgettingLog rules longest small mem ts) ≤ setBacks prev ts * (r.limit - 1))
  | [], mem, prev => by
    simp only [forgettingLog, accepted_nil, setBacks]
    have := hlim r hr
    constructor
    · intro _; push_cast; omega
    · intros; simp
  | t :: ts, mem, prev => by
    have hl := hlim r hr
    have key : (t < A + longest → accepted (fun t => A ≤ t ∧ t < A + r.window) (forgettingLog rules longest small mem (t :: ts)) +
          min ((mem.countP (fun a => decide (A ≤ a)) : Nat) : Int) r.limit ≤ r.limit + setBacks t ts * (r.limit - 1)) ∧
        (A + longest ≤ t → accepted (fun t => A ≤ t ∧ t < A + r.window) (forgettingLog rules longest small mem (t :: ts)) ≤
          setBacks t ts * (r.limit - 1)) := by
      rw [forgettingLog]
      split
      · rename_i hadm
        obtain ⟨i1, i2⟩ := forgetting_le hs hw hd hlim hr hrw hrd hr0 hA ts (t :: remembered longest small mem t) t
        rw [accepted_cons]
        constructor
        · intro h
          have i1 := i1 h
          rw [List.countP_cons, Window.kept hs hw hd hA h] at i1
          by_cases hat : A ≤ t
          · rw [if_pos (by simpa using hat)] at i1
            push_cast at i1
            by_cases hin : t < A + r.window
            · rw [if_pos ⟨rfl, hat, hin⟩]
              have hx := hadm r hr
              unfold exhausted at hx
              have hcnt : mem.countP (fun a => decide (A ≤ a)) ≤
                  (remembered longest small mem t).countP fun a => decide (slot small t - (r.window - small) ≤ slot small a) := by
                rw [← Window.kept hs hw hd hA h]
                apply List.countP_mono_left
                intro a _ ha
                simp only [decide_eq_true_eq] at ha ⊢
                have h1 := Window.slot_ge hs hA ha
                have h2 := slot_le (t := t) hs
                have h3 := aligned_le hs hA (slot_dvd small t) hrd (by omega)
                omega
              omega
            · rw [if_neg (by simp; omega)]
              omega
          · rw [if_neg (by simpa using hat)] at i1
            rw [if_neg (by simp [hat])]
            simpa using i1
        · intro h
          rw [if_neg (by simp; omega), Int.add_zero]
          refine i2 h (by simp) fun a ha => ?_
          rcases List.mem_cons.1 ha with rfl | ha
          · omega
          · exact Window.all_kept hs hw hd hA h mem ha
      · rename_i hadm
        obtain ⟨i1, i2⟩ := forgetting_le hs hw hd hlim hr hrw hrd hr0 hA ts (remembered longest small mem t) t
        rw [accepted_cons, if_neg (by simp), Int.add_zero]
        constructor
        · intro h
          have i1 := i1 h
          rwa [Window.kept hs hw hd hA h] at i1
        · intro h
          refine i2 h (fun e => hadm fun q hq hx => ?_) fun a ha => Window.all_kept hs hw hd hA h mem ha
          have := hlim q hq
          rw [e] at hx
          unfold exhausted at hx
          simp at hx
          omega
    have hnn : 0 ≤ (setBacks t ts : Int) * (r.limit - 1) := Int.mul_nonneg (by omega) (by omega)
    rw [setBacks]
    obtain ⟨k1, k2⟩ := key
    by_cases hb : t < prev
    · rw [if_pos hb]
      push_cast
      rw [Int.add_mul, Int.one_mul]
      constructor
      · intro hp
        have := k1 (by omega)
        omega
      · intro hp hne hall
        by_cases ht : t < A + longest
        · have h1 := k1 ht
          rw [Window.countP_all hall] at h1
          have h2 : 0 < mem.length := List.length_pos_iff.2 hne
          omega
        · have := k2 (by omega)
          omega
    · rw [if_neg hb]
      push_cast
      rw [Int.zero_add]
      constructor
      · intro hp
        by_cases ht : t < A + longest
        · exact k1 ht
        · have := k2 (by omega)
          omega
      · intro hp _ _
        exact k2 (by omega)

/-- **C173 (bound).** If the clock runs backwards `k` times, at most `limit + k (limit - 1)` calls are accepted, for every rule, in an interval
`[A, A + window)` whose start is a multiple of the small window. -/
theorem C173_bound {st : Store} {small : Int} {ptrs : List Nat} {st' : Store} {l l' : Lim} {ts : List Int} {es : List Ans} (S : Start st small ptrs st' l)
    (hr : Runs st' l ts es l') (ht : ∀ t ∈ ts, 0 ≤ t ∧ t < 2 ^ 63) (hlim : ∀ p ∈ ptrs, 1 ≤ (rule st p).limit) (p : Nat) (hp : p ∈ ptrs)
    (A : Int) (hA : small ∣ A) :
    accepted (fun t => A ≤ t ∧ t < A + (rule st p).window) (verdicts es) ≤ (rule st p).limit + setBacks 0 ts * ((rule st p).limit - 1) := by
  obtain ⟨C, hperm, hsame, _, _⟩ := start_conf S
  obtain ⟨p0, ps', hps⟩ : ∃ p0 ps', l.strategies = p0 :: ps' := by
    cases h : l.strategies with
    | nil => exact absurd h C.ne
    | cons a b => exact ⟨a, b, rfl⟩
  have hp0 : p0 ∈ l.strategies := by rw [hps]; simp
  have hmax : ∀ q ∈ ptrs, (rule st q).window ≤ (rule st p0).window := by
    intro q hq
    have hqm := hperm.mem_iff.2 hq
    have hso := C.sorted
    rw [hps] at hqm hso
    rcases List.mem_cons.1 hqm with rfl | hqm
    · exact le_refl _
    · have := (List.pairwise_cons.1 hso).1 q hqm
      rwa [hsame.rule, hsame.rule] at this
  have hw : ∀ q ∈ ptrs, 0 < (rule st q).window ∧ (rule st q).window < 2 ^ 63 ∧ small ∣ (rule st q).window := by
    intro q hq
    have := C.w q (hperm.mem_iff.2 hq)
    rwa [hsame.rule] at this
  have hq0 := hperm.mem_iff.1 hp0
  rw [C173_exact S hr ht ⟨p0, hq0, rfl⟩ hmax]
  have hl1 := hlim p hp
  have hlim' : ∀ r ∈ ptrs.map (rule st), 1 ≤ r.limit := by
    intro r hr
    obtain ⟨q, hq, rfl⟩ := List.mem_map.1 hr
    exact hlim q hq
  by_cases h0 : 0 < A + (rule st p0).window
  · have := (forgetting_le S.pos (hw p0 hq0).1 (hw p0 hq0).2.2 hlim' (List.mem_map.2 ⟨p, hp, rfl⟩) (hmax p hp) (hw p hp).2.2 (hw p hp).1 hA ts [] 0).1 h0
    simp only [List.countP_nil] at this
    push_cast at this
    omega
  · have hz : ∀ (ts mem : List Int), (∀ t ∈ ts, 0 ≤ t ∧ t < 2 ^ 63) →
        accepted (fun t => A ≤ t ∧ t < A + (rule st p).window) (forgettingLog (ptrs.map (rule st)) (rule st p0).window small mem ts) = 0 := by
      intro ts
      induction ts with
      | nil => intro mem _; rfl
      | cons t ts ih =>
        intro mem h
        have h1 := h t (by simp)
        have h2 := hmax p hp
        rw [forgettingLog]
        split <;> rw [accepted_cons, if_neg (by rintro ⟨_, h2, h3⟩; dsimp only at h2 h3; omega), ih _ fun x hx => h x (by simp [hx])] <;> rfl
    rw [hz ts [] ht]
    have : 0 ≤ (setBacks 0 ts : Int) * ((rule st p).limit - 1) := Int.mul_nonneg (by omega) (by omega)
    omega

/-- One call per 10 ns and two per 40 ns; without a setting back the third call would have to wait until 40. -/
example : forgettingLog [⟨1, 10⟩, ⟨2, 40⟩] 40 10 [] [0, 10, 20, 40, 0, 0] =
    [⟨0, true⟩, ⟨10, true⟩, ⟨20, false⟩, ⟨40, true⟩, ⟨0, false⟩, ⟨0, false⟩] := by decide

/-- Two calls per 10 ns and three per 40 ns: the clock is set forth to 40 and back, and four calls are accepted in the first 10 ns. -/
example : forgettingLog [⟨2, 10⟩, ⟨3, 40⟩] 40 10 [] [0, 0, 40, 0, 80, 0] =
    [⟨0, true⟩, ⟨0, true⟩, ⟨40, true⟩, ⟨0, true⟩, ⟨80, true⟩, ⟨0, true⟩] := by decide

/-- Every sequence of calls has a run. -/
theorem runs_any {st : Store} {ps : List Nat} {small : Int} (C : Conf st ps small) {p0 : Nat} (hp0 : ps.head? = some p0) :
    ∀ (ts : List Int) {l : Lim} {mem : List Int}, Holds st ps small l mem → (∀ t ∈ ts, 0 ≤ t ∧ t < 2 ^ 63) → ∃ es l', Runs st l ts es l'
  | [], l, mem, _, _ => ⟨[], l, .nil l⟩
  | t :: ts, l, mem, g, ht => by
    obtain ⟨l1, e1, g1⟩ := step_any C hp0 g (ht t (by simp)).1 (ht t (by simp)).2 (List.Perm.refl _)
    obtain ⟨es, l', hr⟩ := runs_any C hp0 ts g1 (fun x hx => ht x (by simp [hx]))
    exact ⟨_, l', .cons _ (List.Perm.refl _) e1 hr⟩

/-- With one rule the log is a sliding window. -/
theorem forgettingLog_one (limit window small : Int) : ∀ (ts mem : List Int),
    forgettingLog [⟨limit, window⟩] window small mem ts = WindowSpec.forgetting limit window small mem ts
  | [], _ => rfl
  | t :: ts, mem => by
    have hc : (remembered window small mem t).countP (fun a => decide (slot small t - (window - small) ≤ slot small a)) =
        (remembered window small mem t).length := by
      rw [List.countP_eq_length]
      intro a ha
      simp only [remembered, List.mem_filter] at ha
      exact ha.2
    have hiff : (∀ r ∈ [(⟨limit, window⟩ : Rule)], ¬ exhausted small (remembered window small mem t) t r) ↔
        ((remembered window small mem t).length : Int) < limit := by
      simp only [List.mem_singleton, forall_eq, exhausted, hc]
      omega
    rw [forgettingLog, WindowSpec.forgetting, forgettingLog_one limit window small ts, forgettingLog_one limit window small ts]
    by_cases h : ((remembered window small mem t).length : Int) < limit
    · rw [if_pos h, if_pos (hiff.2 h)]
    · rw [if_neg h, if_neg fun x => h (hiff.1 x)]

/-- **C173 (the limit is exceeded).** For every limit of at least 2, every window and every number of times `k` there is a limiter with this rule and a history
in which the clock is set back `k` times and `limit + k (limit - 1)` calls are accepted in `[0, window)`. -/
theorem C173_exceeded_refuted (limit k : Nat) (window small : Int) (hl : InI64 limit) (hl2 : 2 ≤ limit) (hs : 0 < small) (hw : 0 < window)
    (hd : small ∣ window) (hk : ((k : Int) + 1) * window < 2 ^ 63) :
    ∃ st' l ts, Start [newStrategy limit window] small [0] st' l ∧ (∀ t ∈ ts, 0 ≤ t ∧ t < 2 ^ 63) ∧ setBacks 0 ts = k ∧
      (∃ es l', Runs st' l ts es l') ∧
      ∀ es l', Runs st' l ts es l' → accepted (fun t => 0 ≤ t ∧ t < window) (verdicts es) = limit + k * ((limit : Int) - 1) := by
  obtain ⟨lw, ts, hnew, ht, hb, ⟨ew, lw', hrw⟩, hacc⟩ := Window.C172_exceeded_refuted limit k window small hl hl2 hs hw hd hk
  have hw2 : window < 2 ^ 63 := by
    have : 0 ≤ (k : Int) * window := Int.mul_nonneg (by omega) (by omega)
    rw [Int.add_mul, Int.one_mul] at hk
    omega
  have hm : window.tmod small = 0 := Int.tmod_eq_zero_of_dvd hd
  have S : Start [newStrategy limit window] small [0] [⟨limit, window, wrap64 (window.tdiv small)⟩] ⟨[0], small, []⟩ := by
    refine ⟨hs, by simp, ?_, ?_, [0], ⟨List.Perm.refl _, List.pairwise_singleton _ _⟩, ?_⟩
    · intro p hp; rw [List.mem_singleton.1 hp]; exact hl
    · intro p hp; rw [List.mem_singleton.1 hp]; exact ⟨hw, hw2⟩
    · have h0 : small ≠ 0 := by omega
      simp [new, check, deref, notSmaller, newStrategy, hm, h0, Go.bind_ok]
  obtain ⟨C, _, _, _, _⟩ := start_conf S
  refine ⟨_, _, ts, S, ht, hb, runs_any C (p0 := 0) rfl ts (mem := []) ⟨rfl, rfl, rep_nil _, fun p _ => by simp⟩ ht, fun es l' hr => ?_⟩
  rw [C173_exact S hr ht (longest := window) ⟨0, by simp, rfl⟩ (fun p hp => by rw [List.mem_singleton.1 hp]; exact le_refl _)]
  have h1 : [0].map (rule [newStrategy limit window]) = [⟨limit, window⟩] := rfl
  rw [h1, forgettingLog_one, ← Window.C172_exact hl hs hw hw2 hnew hrw ht]
  exact hacc ew lw' hrw

end Log

end Verif.Limiter
