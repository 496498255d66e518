import Verif.Props.LimiterToken

/-! # C195: how much of its rate the token bucket grants

C37 and C38 bound what is accepted from above. Here is what a caller can rely on: as `lastTime = time.Now()` drops the
fraction of a second (token_bucket/token_bucket.go:32-37), only half of the rate. -/

namespace Verif.Limiter.Token

theorem timeSub_eq {t u : Int} (h : u ≤ t) (h2 : t - u < 2 ^ 63) : timeSub t u = t - u := by
  unfold timeSub
  split
  · omega
  · split <;> omega

/-- What was issued (accepted calls and tokens left) since `t0`: at most the rate, and at least half of it up to the
last time tokens were issued. -/
structure Half (t0 : Int) (l : Lim) (acc : Int) : Prop where
  up : acc + l.currentTokens ≤ l.rate * ((l.lastTime - t0) / second)
  low : l.rate * (l.lastTime - t0) ≤ 2 * second * (acc + l.currentTokens)

theorem half_refill {t0 cur e : Int} {l : Lim} {now acc : Int} (g : Good t0 l cur) (h : Half t0 l acc) (ha : 0 ≤ acc)
    (hn : cur ≤ now) (hne : now ≤ e) (he : e - t0 < 2 ^ 63) (hf : Fits l.capacity l.rate t0 now)
    (hcap : l.rate * ((e - t0) / second) ≤ l.capacity) : Half t0 (refill l now) acc := by
  have hb0 := g.b0
  have hb1 := g.b1
  have hts : timeSub now l.lastTime = now - l.lastTime := timeSub_eq (by omega) (by omega)
  obtain ⟨_, q, c⟩ := refill_spec g hn hf
  rcases c with ⟨_, c⟩ | ⟨c0, c, d⟩
  · rw [c]; exact h
  · rw [hts] at c0 d
    have h1 : (l.lastTime - t0) / second + (now - l.lastTime) / second ≤ (now - t0) / second := by
      unfold second; omega
    have h2 : (now - t0) / second ≤ (e - t0) / second := by unfold second; omega
    have h3 : now - l.lastTime ≤ 2 * second * ((now - l.lastTime) / second) := by unfold second at *; omega
    have m1 := Int.mul_le_mul_of_nonneg_left h1 g.r0
    have m2 := Int.mul_le_mul_of_nonneg_left h2 g.r0
    have m3 := Int.mul_le_mul_of_nonneg_left h3 g.r0
    rw [Int.mul_add] at m1
    have hu := h.up
    have hl := h.low
    have hd : (refill l now).currentTokens = l.currentTokens + l.rate * ((now - l.lastTime) / second) := by
      rw [d]; omega
    constructor
    · rw [q, c, hd]; omega
    · rw [q, c, hd]
      have e1 : l.rate * (now - t0) = l.rate * (l.lastTime - t0) + l.rate * (now - l.lastTime) := by
        rw [← Int.mul_add]; congr 1; omega
      have e2 : l.rate * (2 * second * ((now - l.lastTime) / second)) =
          2 * second * (l.rate * ((now - l.lastTime) / second)) := Int.mul_left_comm _ _ _
      rw [e2] at m3
      rw [e1, ← Int.add_assoc, Int.mul_add (2 * second)]
      omega

theorem fits_le {capacity rate t0 t e : Int} (hr : 0 ≤ rate) (h : Fits capacity rate t0 e) (ht : t ≤ e) :
    Fits capacity rate t0 t := by
  have h2 : (t - t0) / second ≤ (e - t0) / second := by unfold second; omega
  have := Int.mul_le_mul_of_nonneg_left h2 hr
  unfold Fits at *
  omega

theorem half_run {t0 e : Int} (he : e - t0 < 2 ^ 63) : ∀ (ts : List Int) {l : Lim} {cur acc : Int}, Good t0 l cur →
    Half t0 l acc → 0 ≤ acc → Mono cur ts → (∀ t ∈ ts, t ≤ e) → Fits l.capacity l.rate t0 e →
    l.rate * ((e - t0) / second) ≤ l.capacity →
    Half t0 (run tryAcquire l ts).1 (acc + total (run tryAcquire l ts).2)
  | [], l, cur, acc, _, h, _, _, _, _, _ => by simpa [run, total_nil] using h
  | t :: ts, l, cur, acc, g, h, ha, hm, hts, hf, hcap => by
    obtain ⟨h1, h2⟩ := mono_tail hm
    have hte := hts t (by simp)
    have hft := fits_le g.r0 hf hte
    have hh := half_refill g h ha h1 hte he hft hcap
    obtain ⟨g', a, b⟩ := good_try g h1 hft
    have ih := fun acc' (h' : Half t0 (tryAcquire l t).1 acc') (ha' : 0 ≤ acc') =>
      half_run he ts g' h' ha' h2 (fun x hx => hts x (by simp [hx])) (by rw [a, b]; exact hf) (by rw [a, b]; exact hcap)
    simp only [run, total_cons]
    rcases tryAcquire_cases g h1 hft with ⟨_, q⟩ | ⟨_, q⟩
    · have := ih acc (by rw [q]; exact hh) ha
      rw [q] at this ⊢
      simpa using this
    · have := ih (acc + 1) (by
        rw [q]
        have u := hh.up
        have v := hh.low
        constructor
        · show acc + 1 + ((refill l t).currentTokens - 1) ≤ (refill l t).rate * (((refill l t).lastTime - t0) / second)
          omega
        · show _ ≤ 2 * second * (acc + 1 + ((refill l t).currentTokens - 1))
          rw [show acc + 1 + ((refill l t).currentTokens - 1) = acc + (refill l t).currentTokens by omega]
          exact v) (by omega)
      rw [q] at this ⊢
      simp only [if_true]
      rw [show ∀ x : Int, acc + (x + 1) = acc + 1 + x by intro x; omega]
      exact this

/-- **C195 (half of the rate).** In a bucket large enough for all tokens up to time `t`: if a call at `t` is rejected,
then before it at least half of `rate` calls per second were accepted, not counting the last second. -/
theorem C195_half_partial (capacity rate t0 t : Int) (ts : List Int) (hr : 0 ≤ rate) (hm : Mono t0 (ts ++ [t]))
    (ht : t - t0 < 2 ^ 63) (hc2 : InI64 capacity) (hf : Fits capacity rate t0 t)
    (hcap : rate * ((t - t0) / second) ≤ capacity)
    (hrej : (tryAcquire (run tryAcquire (new capacity rate t0) ts).1 t).2 = false) :
    rate * (t - t0 - second) ≤ 2 * second * total (run tryAcquire (new capacity rate t0) ts).2 := by
  have hm' : ((t0 :: ts) ++ [t]).Pairwise (· ≤ ·) := hm
  have hle : ∀ x ∈ t0 :: ts, x ≤ t := fun x hx => (List.pairwise_append.1 hm').2.2 x hx t (by simp)
  have h0 : t0 ≤ t := hle t0 (by simp)
  have hc : 0 ≤ capacity := by
    have : 0 ≤ rate * ((t - t0) / second) := Int.mul_nonneg hr (by unfold second; omega)
    omega
  have g0 := good_new capacity rate t0 hc hc2 hr
  obtain ⟨g, e1, e2⟩ := good_run ts g0 (mono_append hm)
    (fun x hx => fits_le hr hf (hle x (List.mem_cons_of_mem _ hx)))
  have hh := half_run ht ts g0 (acc := 0) ⟨by simp [new], by simp [new]⟩ (Int.le_refl 0) (mono_append hm)
    (fun x hx => hle x (List.mem_cons_of_mem _ hx)) hf hcap
  rw [Int.zero_add] at hh
  have hacc : 0 ≤ total (run tryAcquire (new capacity rate t0) ts).2 := by unfold total; omega
  have hlast : lastOf t0 ts ≤ t := hle _ (List.getLast_mem _)
  generalize (run tryAcquire (new capacity rate t0) ts).1 = l at *
  generalize total (run tryAcquire (new capacity rate t0) ts).2 = acc at *
  change l.capacity = capacity at e1
  change l.rate = rate at e2
  have hft : Fits l.capacity l.rate t0 t := by rw [e1, e2]; exact hf
  have h1 := half_refill g hh hacc hlast (Int.le_refl t) ht hft (by rw [e1, e2]; exact hcap)
  have h2 := refill_recent g hlast hft
  obtain ⟨_, q, _⟩ := refill_spec g hlast hft
  rcases tryAcquire_cases g hlast hft with ⟨z, _⟩ | ⟨_, w⟩
  · have low := h1.low
    rw [q, e2, z, Int.add_zero] at low
    exact Int.le_trans (Int.mul_le_mul_of_nonneg_left (by omega) hr) low
  · rw [w] at hrej; simp at hrej

/-- A caller who comes every two seconds less a nanosecond, and then calls `2 * r` times. -/
def hungry (r : Nat) (last : Int) : Nat → List Int
  | 0 => []
  | n + 1 => List.replicate (2 * r) (last + (2 * second - 1)) ++ hungry r (last + (2 * second - 1)) n

theorem spend_all (capacity rate t : Int) (n : Nat) : ∀ c : Nat, c ≤ n → (c : Int) < 2 ^ 63 →
    run tryAcquire ⟨capacity, c, rate, t⟩ (List.replicate n t) =
      (⟨capacity, 0, rate, t⟩, List.replicate c ⟨t, true⟩ ++ List.replicate (n - c) ⟨t, false⟩) := by
  have h : ¬ timeSub t t ≥ second := by rw [timeSub_eq (Int.le_refl t) (by omega)]; unfold second; omega
  induction n with
  | zero =>
    intro c h1 _
    obtain rfl : c = 0 := by omega
    simp [run]
  | succ n ih =>
    intro c h1 h2
    simp only [List.replicate_succ, run, tryAcquire, refill, if_neg h]
    cases c with
    | zero =>
      have := ih 0 (Nat.zero_le _) h2
      simp only [Int.natCast_zero] at this ⊢
      simp [this, List.replicate_succ]
    | succ c =>
      rw [if_neg (by omega), wrap64_of_in (by unfold InI64; omega),
        show ((c + 1 : Nat) : Int) - 1 = (c : Int) by omega]
      have := ih c (by omega) (by omega)
      simp [this, List.replicate_succ]

/-- One visit: `r` calls are accepted and `r` rejected. -/
theorem visit (capacity last : Int) (r : Nat) (hr : 0 < r) (hc : (r : Int) ≤ capacity) (hc2 : capacity < 2 ^ 63) :
    run tryAcquire ⟨capacity, 0, r, last⟩ (List.replicate (2 * r) (last + (2 * second - 1))) =
      (⟨capacity, 0, r, last + (2 * second - 1)⟩,
        List.replicate r ⟨last + (2 * second - 1), true⟩ ++ List.replicate r ⟨last + (2 * second - 1), false⟩) := by
  generalize ht : last + (2 * second - 1) = t
  have e0 : timeSub t last = 2 * second - 1 := by
    rw [timeSub_eq] <;> unfold second at * <;> omega
  have e1 : refill ⟨capacity, 0, r, last⟩ t = ⟨capacity, r, r, t⟩ := by
    simp only [refill, e0]
    rw [if_pos (by decide), show (2 * second - 1).tdiv second = 1 by decide, Int.one_mul,
      wrap64_of_in (x := (r : Int)) (by unfold InI64; omega), Int.zero_add, wrap64_of_in (by unfold InI64; omega)]
    unfold minInt
    split
    · omega
    · rfl
  have e2 : refill ⟨capacity, r, r, t⟩ t = ⟨capacity, r, r, t⟩ := by
    have h : ¬ timeSub t t ≥ second := by rw [timeSub_eq (Int.le_refl t) (by omega)]; unfold second; omega
    simp only [refill, if_neg h]
  have := spend_all capacity r t (2 * r) r (by omega) (by omega)
  rw [show 2 * r - r = r by omega] at this
  rw [← this]
  obtain ⟨m, hm⟩ : ∃ m, 2 * r = m + 1 := ⟨2 * r - 1, by omega⟩
  rw [hm, List.replicate_succ]
  simp only [run, tryAcquire, e1, e2]

theorem hungry_run (capacity : Int) (r : Nat) (hr : 0 < r) (hc : (r : Int) ≤ capacity) (hc2 : capacity < 2 ^ 63) :
    ∀ (n : Nat) (last : Int), total (run tryAcquire ⟨capacity, 0, r, last⟩ (hungry r last n)).2 = n * r ∧
      (run tryAcquire ⟨capacity, 0, r, last⟩ (hungry r last n)).1 = ⟨capacity, 0, r, last + n * (2 * second - 1)⟩
  | 0, last => by simp [hungry, run, total_nil]
  | n + 1, last => by
    obtain ⟨h1, h2⟩ := hungry_run capacity r hr hc hc2 n (last + (2 * second - 1))
    have e : total (List.replicate r ⟨last + (2 * second - 1), true⟩ ++
        List.replicate r ⟨last + (2 * second - 1), false⟩) = r := by
      rw [total_append]
      unfold total
      rw [List.countP_replicate, List.countP_replicate]
      simp
    simp only [hungry, run_append, visit capacity last r hr hc hc2]
    rw [total_append, e, h1, h2]
    constructor
    · push_cast; rw [Int.add_mul]; omega
    · congr 1
      push_cast; rw [Int.add_mul]; omega

/-- **C195 refuted: the rate is not granted.** For every rate and every bucket that holds the tokens of one second: of a
caller who comes every two seconds less a nanosecond, `n` times, and asks for what the rate allows in two seconds, half of
the calls are rejected. A call is then rejected although only `n * r` calls were accepted in nearly `2 * n` seconds: from
the second visit on less than the rate, even without the last second. -/
theorem C195_rate_refuted (capacity t0 : Int) (r n : Nat) (hr : 0 < r) (hc : (r : Int) ≤ capacity)
    (hc2 : capacity < 2 ^ 63) (hn : 2 ≤ n) :
    (hungry r t0 n).length = 2 * (n * r) ∧
    total (run tryAcquire (new capacity r t0) (hungry r t0 n)).2 = n * r ∧
    (tryAcquire (run tryAcquire (new capacity r t0) (hungry r t0 n)).1 (t0 + n * (2 * second - 1))).2 = false ∧
    ¬ (r : Int) * (t0 + n * (2 * second - 1) - t0 - second) ≤
      second * total (run tryAcquire (new capacity r t0) (hungry r t0 n)).2 := by
  obtain ⟨h1, h2⟩ := hungry_run capacity r hr hc hc2 n t0
  refine ⟨?_, h1, ?_, ?_⟩
  · rw [← run_length tryAcquire (hungry r t0 n) (new capacity r t0), run_length]
    clear h1 h2 hn
    induction n generalizing t0 with
    | zero => simp [hungry]
    | succ n ih => simp only [hungry, List.length_append, List.length_replicate, ih, Nat.add_mul]; omega
  · change (tryAcquire (run tryAcquire ⟨capacity, 0, r, t0⟩ (hungry r t0 n)).1 _).2 = false
    rw [h2]
    have h : ∀ t : Int, ¬ timeSub t t ≥ second := by
      intro t; rw [timeSub_eq (Int.le_refl t) (by omega)]; unfold second; omega
    simp only [tryAcquire, refill, if_neg (h _), if_true]
  · change ¬ _ ≤ second * total (run tryAcquire ⟨capacity, 0, r, t0⟩ (hungry r t0 n)).2
    rw [h1, Int.not_le, show second * ((n : Int) * r) = (r : Int) * (n * second) by
      rw [← Int.mul_assoc, Int.mul_comm second, Int.mul_comm]]
    apply Int.mul_lt_mul_of_pos_left _ (by omega)
    unfold second
    omega

/-- Two tokens per second: of the twelve calls at three visits six are accepted, and the bound of `C195_half_partial`
(four per three seconds) is kept. -/
example : (run tryAcquire (new 100 2 0) (hungry 2 0 3)).2.map (·.ok) =
    [true, true, false, false, true, true, false, false, true, true, false, false] := by decide

example : Mono 0 (hungry 2 0 3 ++ [6 * second]) ∧ Fits 100 2 0 (6 * second) ∧ 2 * ((6 * second - 0) / second) ≤ 100 ∧
    (tryAcquire (run tryAcquire (new 100 2 0) (hungry 2 0 3)).1 (6 * second)).2 = false ∧
    2 * (6 * second - 0 - second) ≤ 2 * second * total (run tryAcquire (new 100 2 0) (hungry 2 0 3)).2 := by decide

end Verif.Limiter.Token
