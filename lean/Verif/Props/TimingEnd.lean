import Verif.Props.TimingWhole

/-! # C168: how the goroutines of the timing wheel end -/

namespace Verif.TimingWhole

variable {tick t0 : Int} {W : Nat}

/-- The channel is open. -/
def Opened (s : State) : Prop := s.closed = false ∧ s.take ≠ .exited ∧ s.run ≠ .panicked

/-- The channel is closed. -/
def Shut (s : State) : Prop := s.closed = true ∧ s.take = .exited ∧ (s.run = .panicked → s.buf = [])

theorem opened_step {s s' : State} {a : Act} (h : Opened s) (e : exec s a = some s') : Opened s' ∨ Shut s' := by
  cases a with
  | take =>
    left
    simp only [exec, takeStep] at e
    split at e
    · split at e <;> cases e; exact ⟨h.1, by simp, h.2.2⟩
    · split at e
      · cases e; exact ⟨h.1, by simp, h.2.2⟩
      · split at e
        · split at e <;> cases e; exact ⟨h.1, by simp, h.2.2⟩
        · cases e; exact ⟨h.1, by simp, h.2.2⟩
    · cases e; exact ⟨h.1, by simp, h.2.2⟩
    · cases e; exact ⟨h.1, by simp, h.2.2⟩
    · cases e; exact ⟨h.1, by simp, h.2.2⟩
    · split at e <;> cases e <;> exact ⟨h.1, by simp, h.2.2⟩
    · split at e <;> cases e; exact ⟨h.1, by simp, h.2.2⟩
    · cases e
  | timer => simp only [exec] at e; split at e <;> cases e; exact .inl ⟨h.1, by simp, h.2.2⟩
  | wake o =>
    cases o <;> simp only [exec] at e <;> split at e
    · split at e <;> cases e; exact .inl ⟨h.1, by simp, by simp⟩
    · cases e
    · split at e <;> cases e; exact .inl ⟨h.1, by simp, h.2.2⟩
    · cases e
  | quit =>
    simp only [exec] at e
    split at e
    · split at e <;> cases e; exact .inr ⟨rfl, rfl, fun hp => absurd hp h.2.2⟩
    · cases e
  | advance =>
    simp only [exec] at e
    split at e
    · split at e <;> cases e; exact .inl ⟨h.1, h.2.1, by simp⟩
    · cases e
  | act i =>
    simp only [exec] at e
    split at e
    · cases e
    · split at e
      · cases e; exact .inl h
      · split at e <;> cases e <;> exact .inl h
    · split at e
      · cases e; exact .inl h
      · cases e
  | move =>
    simp only [exec] at e
    split at e
    · split at e <;> cases e <;> exact .inl ⟨h.1, h.2.1, by simp [start]⟩
    · split at e <;> cases e; exact .inl ⟨h.1, h.2.1, by simp⟩
    · cases e
  | unlink =>
    simp only [exec] at e
    split at e
    · split at e <;> cases e; exact .inl ⟨h.1, h.2.1, by simp⟩
    · cases e
  | stop t =>
    simp only [exec] at e
    split at e
    · cases e
    · split at e <;> cases e; exact .inl h
  | done =>
    simp only [exec] at e
    split at e
    · split at e <;> cases e; exact .inl ⟨h.1, h.2.1, by simp⟩
    · cases e
  | lock =>
    simp only [exec] at e
    split at e <;> cases e; exact .inl ⟨h.1, h.2.1, by simp⟩
  | leave => simp only [exec] at e; split at e <;> cases e; exact .inl ⟨h.1, h.2.1, by simp⟩
  | recvNil =>
    simp only [exec] at e
    split at e <;> cases e
    rename_i hc
    exact absurd hc.2.2 (by rw [h.1]; simp)
  | tick d => cases e; exact .inl h
  | after d => cases e; exact .inl h
  | schedule d => cases e; exact .inl h
  | cancel => cases e; exact .inl h
  | _ => simp only [exec] at e; split at e <;> cases e; exact .inl h

theorem shut_step {s s' : State} {a : Act} (h : Shut s) (e : exec s a = some s') : Shut s' := by
  cases a with
  | take => simp [exec, takeStep, h.2.1] at e
  | timer => simp [exec, h.2.1] at e
  | wake o =>
    cases o <;> simp only [exec] at e <;> split at e
    · simp [h.2.1, receives] at e
    · cases e
    · simp [h.2.1, receives] at e
    · cases e
  | quit => simp [exec, h.2.1] at e
  | advance =>
    simp only [exec] at e
    split at e
    · split at e <;> cases e; exact ⟨h.1, h.2.1, by simp⟩
    · cases e
  | act i =>
    simp only [exec] at e
    split at e
    · cases e
    · split at e
      · cases e; exact h
      · split at e <;> cases e <;> exact h
    · split at e
      · cases e; exact h
      · cases e
  | move =>
    simp only [exec] at e
    split at e
    · split at e <;> cases e <;> exact ⟨h.1, h.2.1, by simp [start]⟩
    · split at e <;> cases e; exact ⟨h.1, h.2.1, by simp⟩
    · cases e
  | unlink =>
    simp only [exec] at e
    split at e
    · split at e <;> cases e; exact ⟨h.1, h.2.1, by simp⟩
    · cases e
  | stop t =>
    simp only [exec] at e
    split at e
    · cases e
    · split at e <;> cases e; exact h
  | done =>
    simp only [exec] at e
    split at e
    · split at e <;> cases e; exact ⟨h.1, h.2.1, by simp⟩
    · cases e
  | lock =>
    simp only [exec] at e
    split at e <;> cases e; exact ⟨h.1, h.2.1, by simp⟩
  | leave => simp only [exec] at e; split at e <;> cases e; exact ⟨h.1, h.2.1, by simp⟩
  | recvNil => simp only [exec] at e; split at e <;> cases e; rename_i hc; exact ⟨h.1, h.2.1, fun _ => hc.2.1⟩
  | tick d => cases e; exact h
  | after d => cases e; exact h
  | schedule d => cases e; exact h
  | cancel => cases e; exact h
  | _ => simp only [exec] at e; split at e <;> cases e; exact h

theorem opened_or_shut {s : State} (h : Reach tick W t0 s) : Opened s ∨ Shut s := by
  obtain ⟨tw, _, h⟩ := h
  induction h with
  | refl => exact .inl ⟨rfl, by simp [init], by simp [init]⟩
  | step a _ e ih =>
    rcases ih with h | h
    · exact opened_step h e
    · exact .inr (shut_step h e)

/-- **C168.** The channel is closed exactly if its goroutine has ended: it never ends without closing it, and nothing is sent to a closed channel. -/
theorem C168_closed {s : State} (h : Reach tick W t0 s) : s.closed = true ↔ s.take = .exited := by
  rcases opened_or_shut h with h | h
  · rw [h.1]
    exact ⟨(fun hc => by cases hc), fun hc => absurd hc h.2.1⟩
  · exact ⟨fun _ => h.2.1, fun _ => h.1⟩

/-- **C168.** `Run` panics only after the cancellation, when the channel is closed and all buckets in it are used up. -/
theorem C168_panic_only {s : State} (h : Reach tick W t0 s) (hp : s.run = .panicked) : s.cancelled = true ∧ s.closed = true ∧ s.buf = [] := by
  refine ⟨?_, ?_⟩
  · by_contra hc
    exact (C168_not_before h (by simpa using hc)).2.2.2 hp
  · rcases opened_or_shut h with h | h
    · exact absurd hp h.2.2
    · exact ⟨h.1, h.2.2 hp⟩

/-- **C168 fails: `Run` does not always return when the context is cancelled, it can panic.** The goroutine of `channel` sees the cancellation and closes the channel before `Run` looks; of the two ready cases of its `select`,
`Run` takes the receive, and uses the nil bucket. -/
theorem C168_panic_refuted : ∃ s, Reach 1 20 0 s ∧ s.run = .panicked := by
  obtain ⟨s, h1, h2⟩ := runs_reach (tick := 1) (size := 20) (t0 := 0) (as := sleep ++ [.cancel, .quit, .recvNil]) (p := fun s => s.run == .panicked) (by decide +kernel)
  exact ⟨s, h1, by simpa using h2⟩

/-- **C168.** The step that panics is the receive of nil, after the last bucket: none is skipped for it. -/
theorem C168_rest {s : State} (h : Reach tick W t0 s) {a : Act} {s' : State} (e : exec s a = some s') (hp : s'.run = .panicked) (h0 : s.run ≠ .panicked) : s.buf = [] ∧ a = .recvNil := by
  have hb := (C168_panic_only (from_trans h (.step a .refl e)) hp).2.2
  cases a with
  | recvNil => simp only [exec] at e; split at e <;> cases e; rename_i hc; exact ⟨hc.2.1, rfl⟩
  | take =>
    exfalso
    simp only [exec, takeStep] at e
    split at e
    · split at e <;> cases e; exact h0 hp
    · split at e
      · cases e; exact h0 hp
      · split at e
        · split at e <;> cases e; exact h0 hp
        · cases e; exact h0 hp
    · cases e; exact h0 hp
    · cases e; exact h0 hp
    · cases e; exact h0 hp
    · split at e <;> cases e <;> exact h0 hp
    · split at e <;> cases e; exact h0 hp
    · cases e
  | wake o =>
    exfalso
    cases o <;> simp only [exec] at e <;> split at e
    · split at e <;> cases e; cases hp
    · cases e
    · split at e <;> cases e; exact h0 hp
    · cases e
  | quit =>
    exfalso
    simp only [exec] at e
    split at e
    · split at e <;> cases e; exact h0 hp
    · cases e
  | advance =>
    exfalso
    simp only [exec] at e
    split at e
    · split at e <;> cases e; cases hp
    · cases e
  | act i =>
    exfalso
    simp only [exec] at e
    split at e
    · cases e
    · split at e
      · cases e; exact h0 hp
      · split at e <;> cases e <;> exact h0 hp
    · split at e
      · cases e; exact h0 hp
      · cases e
  | move =>
    exfalso
    simp only [exec] at e
    split at e
    · split at e <;> cases e <;> cases hp
    · split at e <;> cases e; cases hp
    · cases e
  | unlink =>
    exfalso
    simp only [exec] at e
    split at e
    · split at e <;> cases e; cases hp
    · cases e
  | stop t =>
    exfalso
    simp only [exec] at e
    split at e
    · cases e
    · split at e <;> cases e; exact h0 hp
  | done =>
    exfalso
    simp only [exec] at e
    split at e
    · split at e <;> cases e; cases hp
    · cases e
  | lock => exfalso; simp only [exec] at e; split at e <;> cases e; cases hp
  | leave => exfalso; simp only [exec] at e; split at e <;> cases e; cases hp
  | tick d => cases e; exact absurd hp h0
  | after d => cases e; exact absurd hp h0
  | schedule d => cases e; exact absurd hp h0
  | cancel => cases e; exact absurd hp h0
  | _ => exfalso; simp only [exec] at e; split at e <;> cases e; exact h0 hp

end Verif.TimingWhole
