import Verif.Props.Limiter

/-! # C37, C38: the token bucket -/

namespace Verif.Limiter.Token

/-- The conditions on the limiter and the clock kept by all calls. `t0` is the time of creation. -/
structure Good (t0 : Int) (l : Lim) (cur : Int) : Prop where
  r0 : 0 ≤ l.rate
  c1 : l.capacity < 2 ^ 63
  k0 : 0 ≤ l.currentTokens
  k1 : l.currentTokens ≤ l.capacity
  b0 : t0 ≤ l.lastTime
  b1 : l.lastTime ≤ cur

/-- The tokens issued since the creation, together with a full bucket, fit into an `int`. -/
def Fits (capacity rate t0 t : Int) : Prop := capacity + rate * ((t - t0) / second) < 2 ^ 63

instance (capacity rate t0 t : Int) : Decidable (Fits capacity rate t0 t) := by unfold Fits; infer_instance

/-- The tokens and clock after a refill, without machine arithmetic. -/
theorem refill_spec {t0 cur : Int} {l : Lim} {now : Int} (g : Good t0 l cur) (hn : cur ≤ now)
    (hf : Fits l.capacity l.rate t0 now) :
    (refill l now).capacity = l.capacity ∧ (refill l now).rate = l.rate ∧
    ((timeSub now l.lastTime < second ∧ refill l now = l) ∨
     (second ≤ timeSub now l.lastTime ∧ (refill l now).lastTime = now ∧
      (refill l now).currentTokens = min l.capacity (l.currentTokens + l.rate * (timeSub now l.lastTime / second)))) := by
  have ht := g.b1
  have hb := g.b0
  obtain ⟨h1, h2, h3, h4⟩ := tdiv_second (show l.lastTime ≤ now by omega)
  have h5 : 0 ≤ l.rate * (timeSub now l.lastTime / second) := Int.mul_nonneg g.r0 h2
  have h6 : timeSub now l.lastTime / second ≤ (now - t0) / second := by unfold second at *; omega
  have h7 := Int.mul_le_mul_of_nonneg_left h6 g.r0
  have h8 := g.k0
  have h9 := g.k1
  unfold Fits at hf
  unfold refill
  by_cases hi : timeSub now l.lastTime ≥ second
  · simp only [if_pos hi, true_and]
    right
    refine ⟨hi, ?_⟩
    rw [h1, Int.mul_comm (_ / _), wrap64_of_in (x := _ * _) (by unfold InI64; omega),
      wrap64_of_in (by unfold InI64; omega)]
    unfold minInt
    split <;> omega
  · simp only [if_neg hi, true_and]
    left
    exact ⟨by omega, trivial⟩

theorem good_refill {t0 cur : Int} {l : Lim} {now : Int} (g : Good t0 l cur) (hn : cur ≤ now)
    (hf : Fits l.capacity l.rate t0 now) : Good t0 (refill l now) now := by
  have hb0 := g.b0
  have hb1 := g.b1
  obtain ⟨a, b, c⟩ := refill_spec g hn hf
  rcases c with ⟨_, c⟩ | ⟨_, c, d⟩
  · rw [c]; exact { g with b1 := by omega }
  · obtain ⟨_, h5, _, _⟩ := tdiv_second (show l.lastTime ≤ now by omega)
    have h6 := Int.mul_nonneg g.r0 h5
    have h7 := g.k0
    have h8 := g.k1
    refine ⟨b ▸ g.r0, a ▸ g.c1, ?_, ?_, ?_, ?_⟩
    · rw [d]; omega
    · rw [d, a]; omega
    · omega
    · omega

theorem tryAcquire_cases {t0 cur : Int} {l : Lim} {now : Int} (g : Good t0 l cur) (hn : cur ≤ now)
    (hf : Fits l.capacity l.rate t0 now) :
    ((refill l now).currentTokens = 0 ∧ tryAcquire l now = (refill l now, false)) ∨
    (0 < (refill l now).currentTokens ∧
      tryAcquire l now = ({ refill l now with currentTokens := (refill l now).currentTokens - 1 }, true)) := by
  have g' := good_refill g hn hf
  have h1 := g'.k0
  have h2 := g'.k1
  have h3 := g'.c1
  unfold tryAcquire
  by_cases hc : (refill l now).currentTokens = 0
  · left; simp only [if_pos hc, and_true]; exact hc
  · right
    simp only [if_neg hc]
    rw [wrap64_of_in (by unfold InI64; omega)]
    exact ⟨by omega, rfl⟩

theorem good_try {t0 cur : Int} {l : Lim} {now : Int} (g : Good t0 l cur) (hn : cur ≤ now)
    (hf : Fits l.capacity l.rate t0 now) : Good t0 (tryAcquire l now).1 now ∧
      (tryAcquire l now).1.capacity = l.capacity ∧ (tryAcquire l now).1.rate = l.rate := by
  have g' := good_refill g hn hf
  obtain ⟨a, b, _⟩ := refill_spec g hn hf
  rcases tryAcquire_cases g hn hf with ⟨_, e⟩ | ⟨hlt, e⟩
  · rw [e]; exact ⟨g', a, b⟩
  · rw [e]
    have := g'.k1
    exact ⟨⟨g'.r0, g'.c1, by show 0 ≤ (refill l now).currentTokens - 1; omega,
      by show (refill l now).currentTokens - 1 ≤ (refill l now).capacity; omega, g'.b0, g'.b1⟩, a, b⟩

theorem good_run {t0 : Int} : ∀ (ts : List Int) {l : Lim} {cur : Int}, Good t0 l cur → Mono cur ts →
    (∀ t ∈ ts, Fits l.capacity l.rate t0 t) → Good t0 (run tryAcquire l ts).1 (lastOf cur ts) ∧
      (run tryAcquire l ts).1.capacity = l.capacity ∧ (run tryAcquire l ts).1.rate = l.rate
  | [], l, cur, h, _, _ => by simpa [run, lastOf] using h
  | t :: ts, l, cur, h, hm, hf => by
    obtain ⟨h1, h2⟩ := mono_tail hm
    obtain ⟨g, a, b⟩ := good_try h h1 (hf t (by simp))
    simp only [run, lastOf_cons]
    have := good_run ts g h2 (fun x hx => by rw [a, b]; exact hf x (by simp [hx]))
    rw [a, b] at this
    exact this

theorem refill_budget {t0 cur : Int} {l : Lim} {t b : Int} (g : Good t0 l cur) (h1 : cur ≤ t)
    (hf : Fits l.capacity l.rate t0 t) (htb : t ≤ b) :
    (refill l t).currentTokens + l.rate * ((b - (refill l t).lastTime) / second) ≤
      l.currentTokens + l.rate * ((b - l.lastTime) / second) := by
  have h3 := g.b1
  obtain ⟨_, _, c⟩ := refill_spec g h1 hf
  rcases c with ⟨_, c⟩ | ⟨_, c, d⟩
  · rw [c]
  · obtain ⟨_, h5, h6, _⟩ := tdiv_second (show l.lastTime ≤ t by omega)
    rw [c, d]
    have h7 : timeSub t l.lastTime / second + (b - t) / second ≤ (b - l.lastTime) / second := by
      unfold second at *; omega
    have h8 := Int.mul_le_mul_of_nonneg_left h7 g.r0
    rw [Int.mul_add] at h8
    omega

theorem budget {t0 : Int} : ∀ (ts : List Int) {l : Lim} {cur b : Int}, Good t0 l cur → Mono cur ts → cur ≤ b →
    (∀ t ∈ ts, Fits l.capacity l.rate t0 t) → (∀ t ∈ ts, t ≤ b) →
    total (run tryAcquire l ts).2 ≤ l.currentTokens + l.rate * ((b - l.lastTime) / second)
  | [], l, cur, b, g, _, hb, _, _ => by
    have := g.k0
    have h2 := g.b1
    have : 0 ≤ l.rate * ((b - l.lastTime) / second) := Int.mul_nonneg g.r0 (by unfold second; omega)
    simp only [run, total_nil]
    omega
  | t :: ts, l, cur, b, g, hm, hb, hf, hts => by
    obtain ⟨h1, h2⟩ := mono_tail hm
    have htb := hts t (by simp)
    have hft := hf t (by simp)
    obtain ⟨g', a, b'⟩ := good_try g h1 hft
    have ih := budget ts g' h2 htb (fun x hx => by rw [a, b']; exact hf x (by simp [hx]))
      (fun x hx => hts x (by simp [hx]))
    have hd := refill_budget g h1 hft htb
    rw [b'] at ih
    rcases tryAcquire_cases g h1 hft with ⟨h4, e⟩ | ⟨h4, e⟩
    · simp only [run, total_cons]
      rw [e] at ih ⊢
      simp only [Bool.false_eq_true, if_false]
      simp only at ih
      omega
    · simp only [run, total_cons]
      rw [e] at ih ⊢
      simp only [if_true]
      simp only at ih
      omega

theorem refill_idem {t0 cur : Int} {l : Lim} {t : Int} (g : Good t0 l cur) (h1 : cur ≤ t)
    (hf : Fits l.capacity l.rate t0 t) : refill (refill l t) t = refill l t := by
  obtain ⟨_, _, c⟩ := refill_spec g h1 hf
  rcases c with ⟨_, c⟩ | ⟨_, c, d⟩
  · rw [c, c]
  · have : ¬ timeSub t (refill l t).lastTime ≥ second := by
      rw [c]; unfold timeSub second; split <;> (try split) <;> omega
    show (if timeSub t (refill l t).lastTime ≥ second then _ else _) = _
    rw [if_neg this]

theorem refill_recent {t0 cur : Int} {l : Lim} {t : Int} (g : Good t0 l cur) (h1 : cur ≤ t)
    (hf : Fits l.capacity l.rate t0 t) : t - second < (refill l t).lastTime := by
  have h3 := g.b1
  obtain ⟨_, _, c⟩ := refill_spec g h1 hf
  rcases c with ⟨d, c⟩ | ⟨_, c, d⟩
  · rw [c]
    unfold timeSub second at *
    split at d
    · omega
    · split at d <;> omega
  · rw [c]; unfold second; omega

theorem good_new (capacity rate t0 : Int) (hc : 0 ≤ capacity) (hc2 : InI64 capacity) (hr : 0 ≤ rate) :
    Good t0 (new capacity rate t0) t0 := ⟨hr, hc2.2, Int.le_refl 0, hc, Int.le_refl t0, Int.le_refl t0⟩

/-- **C37.** For every capacity, rate and history with a clock that does not run backwards, as long as the issued tokens fit
into an `int`: of the calls `ts` made between `a` and `b` at most `capacity + rate * (⌊(b - a) / 1s⌋ + 1)` are
accepted. -/
theorem C37_burst_and_rate (capacity rate t0 a b : Int) (before ts after : List Int) (hc : 0 ≤ capacity)
    (hc2 : InI64 capacity) (hr : 0 ≤ rate) (hm : Mono t0 (before ++ ts ++ after))
    (hf : ∀ t ∈ before ++ ts, Fits capacity rate t0 t) (hts : ∀ t ∈ ts, a ≤ t ∧ t ≤ b) (hab : a ≤ b) :
    total (((run tryAcquire (new capacity rate t0) (before ++ ts ++ after)).2.drop before.length).take ts.length) ≤
      capacity + rate * ((b - a) / second + 1) := by
  rw [run_middle]
  have g0 := good_new capacity rate t0 hc hc2 hr
  have hm1 : Mono t0 before := by rw [List.append_assoc] at hm; exact mono_append hm
  obtain ⟨g, e1, e2⟩ := good_run before g0 hm1 (fun x hx => hf x (by simp [hx]))
  generalize (run tryAcquire (new capacity rate t0) before).1 = l at *
  change l.capacity = capacity at e1
  change l.rate = rate at e2
  cases ts with
  | nil =>
    simp only [run, total_nil]
    have : 0 ≤ rate * ((b - a) / second + 1) := Int.mul_nonneg hr (by unfold second; omega)
    omega
  | cons t ts =>
    obtain ⟨_, hct, hmt⟩ := mono_middle hm
    have hft : Fits l.capacity l.rate t0 t := by rw [e1, e2]; exact hf t (by simp)
    have gd := good_refill g hct hft
    have hrun : run tryAcquire l (t :: ts) = run tryAcquire (refill l t) (t :: ts) := by
      simp only [run, tryAcquire, refill_idem g hct hft]
    rw [hrun]
    obtain ⟨p1, p2, _⟩ := refill_spec g hct hft
    have hbud := budget (b := b) (t :: ts) gd hmt (hts t (by simp)).2
      (fun x hx => by rw [p1, p2, e1, e2]; exact hf x (List.mem_append_right _ hx)) (fun x hx => (hts x hx).2)
    have hrec := refill_recent g hct hft
    have hk := gd.k1
    rw [p1, e1] at hk
    rw [p2, e2] at hbud
    have ha := (hts t (by simp)).1
    have hdiv : (b - (refill l t).lastTime) / second ≤ (b - a) / second + 1 := by
      unfold second at *; omega
    have := Int.mul_le_mul_of_nonneg_left hdiv hr
    omega

/-- **C37 (range).** The number of tokens stays between 0 and the capacity. -/
theorem C37_tokens_range (capacity rate t0 : Int) (ts : List Int) (hc : 0 ≤ capacity) (hc2 : InI64 capacity)
    (hr : 0 ≤ rate) (hm : Mono t0 ts) (hf : ∀ t ∈ ts, Fits capacity rate t0 t) :
    0 ≤ (run tryAcquire (new capacity rate t0) ts).1.currentTokens ∧
      (run tryAcquire (new capacity rate t0) ts).1.currentTokens ≤ capacity := by
  obtain ⟨g, e1, _⟩ := good_run ts (good_new capacity rate t0 hc hc2 hr) hm hf
  refine ⟨g.k0, ?_⟩
  have := g.k1
  rw [e1] at this
  exact this

/-- **C38.** At most `rate` calls per full second since the creation of the limiter are accepted. -/
theorem C38_total (capacity rate t0 b : Int) (ts : List Int) (hc : 0 ≤ capacity) (hc2 : InI64 capacity)
    (hr : 0 ≤ rate) (hm : Mono t0 ts) (hf : ∀ t ∈ ts, Fits capacity rate t0 t) (hb : ∀ t ∈ ts, t ≤ b) (hb0 : t0 ≤ b) :
    total (run tryAcquire (new capacity rate t0) ts).2 ≤ rate * ((b - t0) / second) := by
  have := budget ts (good_new capacity rate t0 hc hc2 hr) hm hb0 hf hb
  rw [show (new capacity rate t0).currentTokens = 0 from rfl, Int.zero_add] at this
  exact this

/-- **C38 (first second).** No call is accepted within the first second, whatever the capacity and rate. -/
theorem C38_first_second (capacity rate t0 : Int) : ∀ (ts : List Int), (∀ t ∈ ts, t - t0 < second) →
    ∀ e ∈ (run tryAcquire (new capacity rate t0) ts).2, e.ok = false
  | [], _, e, h => by simp [run] at h
  | t :: ts, ht, e, h => by
    have h1 : ¬ timeSub t t0 ≥ second := by
      have := ht t (by simp)
      unfold timeSub second at *
      split
      · omega
      · split <;> omega
    have hr : refill (new capacity rate t0) t = new capacity rate t0 := by
      unfold refill; rw [show (new capacity rate t0).lastTime = t0 from rfl]; simp only [if_neg h1]
    have ha : tryAcquire (new capacity rate t0) t = (new capacity rate t0, false) := by
      simp only [tryAcquire, hr]; rfl
    simp only [run, ha, List.mem_cons] at h
    rcases h with h | h
    · rw [h]
    · exact C38_first_second capacity rate t0 ts (fun x hx => ht x (by simp [hx])) e h

/-- Two tokens per second, at most three in the bucket. -/
example : (∀ t ∈ [5, 1000000000, 1000000000, 1000000001, 3000000000, 3000000000, 3000000000, 3000000000],
      Fits 3 2 0 t) ∧
    (run tryAcquire (new 3 2 0)
      [5, 1000000000, 1000000000, 1000000001, 3000000000, 3000000000, 3000000000, 3000000000]).2.map (·.ok) =
    [false, true, true, false, true, true, true, false] := by decide

theorem spend (capacity rate t last : Int) (h : ¬ timeSub t last ≥ second) : ∀ (n : Nat) (c : Int), (n : Int) ≤ c → c < 2 ^ 63 →
    (run tryAcquire ⟨capacity, c, rate, last⟩ (List.replicate n t)).2 = List.replicate n ⟨t, true⟩
  | 0, c, _, _ => by simp [run]
  | n + 1, c, h1, h2 => by
    have hc : ¬ c = 0 := by omega
    simp only [List.replicate_succ, run, tryAcquire, refill, if_neg h]
    rw [if_neg hc, wrap64_of_in (by unfold InI64; omega)]
    simp only [spend capacity rate t last h n (c - 1) (by omega) (by omega)]

/-- **C37/C38 need the bound**: with rate 2^62 the issued tokens overflow after two seconds, the number of tokens becomes
negative and then larger than any capacity: arbitrarily many calls (up to 2^63) are accepted at once. -/
theorem C38_overflow_refuted (capacity : Int) (hc : 0 ≤ capacity) (n : Nat) (hn : n < 2 ^ 63) :
    (run tryAcquire (new capacity (2 ^ 62) 0) (List.replicate (n + 1) (2 * second))).2 =
      List.replicate (n + 1) ⟨2 * second, true⟩ := by
  have h1 : refill (new capacity (2 ^ 62) 0) (2 * second) = ⟨capacity, -2 ^ 63, 2 ^ 62, 2 * second⟩ := by
    have e1 : timeSub (2 * second) 0 = 2 * second := by decide
    have e2 : wrap64 ((2 * second).tdiv second * 2 ^ 62) = -2 ^ 63 := by decide
    have e3 : wrap64 (0 + -2 ^ 63) = -2 ^ 63 := by decide
    simp only [refill, new, e1, e2, e3]
    rw [if_pos (by decide)]
    unfold minInt
    rw [if_neg (by omega)]
  have e4 : wrap64 (-2 ^ 63 - 1) = 2 ^ 63 - 1 := by decide
  simp only [List.replicate_succ, run, tryAcquire, h1]
  rw [if_neg (by decide), e4]
  simp only [spend capacity (2 ^ 62) (2 * second) (2 * second) (by decide) n (2 ^ 63 - 1) (by omega) (by omega)]

theorem spend_negative (capacity rate t last : Int) (h : ¬ timeSub t last ≥ second) : ∀ (n : Nat) (c : Int), c < 0 →
    -2 ^ 63 ≤ c - n →
    (run tryAcquire ⟨capacity, c, rate, last⟩ (List.replicate n t)).2 = List.replicate n ⟨t, true⟩
  | 0, c, _, _ => by simp [run]
  | n + 1, c, h1, h2 => by
    have hc : ¬ c = 0 := by omega
    simp only [List.replicate_succ, run, tryAcquire, refill, if_neg h]
    rw [if_neg hc, wrap64_of_in (by unfold InI64; omega)]
    simp only [spend_negative capacity rate t last h n (c - 1) (by omega) (by omega)]

/-- **C37 needs a capacity that is not negative**: with capacity -1 there is no limit at all: for every rate, arbitrarily
many calls (up to 2^63) at the first second are all accepted. -/
theorem C37_negative_capacity_refuted (rate : Int) (hr : 0 ≤ rate) (hr2 : rate < 2 ^ 63) (n : Nat) (hn : n + 2 ≤ 2 ^ 63) :
    (run tryAcquire (new (-1) rate 0) (List.replicate (n + 1) second)).2 = List.replicate (n + 1) ⟨second, true⟩ := by
  have e0 : timeSub second 0 = second := by decide
  have e1 : wrap64 (second.tdiv second * rate) = rate := by
    rw [show second.tdiv second = 1 by decide, Int.one_mul]; exact wrap64_of_in (by unfold InI64; omega)
  have h1 : refill (new (-1) rate 0) second = ⟨-1, -1, rate, second⟩ := by
    simp only [refill, new, e0, e1, Int.zero_add, ge_iff_le, Int.le_refl, if_true]
    rw [wrap64_of_in (by unfold InI64; omega)]
    unfold minInt
    rw [if_pos (by omega)]
  have e2 : wrap64 (-1 - 1) = -2 := by decide
  simp only [List.replicate_succ, run, tryAcquire, h1, e2]
  rw [if_neg (by decide)]
  simp only [spend_negative (-1) rate second second (by decide) n (-2) (by omega) (by omega)]

end Verif.Limiter.Token
