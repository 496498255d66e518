import Verif.Model.HeapCost

/-!
# Property C163, the counters: every call of `less` and `swap` is counted, once

The code again, as programs that do not mention counters: they only call `less` and `swap`, and these count themselves. Model/HeapCost, which adds up the counters by hand, arrives at the same numbers.
-/

namespace Verif.Heap.Count

variable {S : Type} (o : Ops S)

/-- A program on a container and the two counters. -/
abbrev P (S α : Type) := StateT (S × Cost) Go α

/-- `less`, counting itself. -/
def lessP (i j : Nat) : P S Bool := fun s => (o.less s.1 i j).map (fun b => (b, (s.1, s.2.add ⟨1, 0⟩)))

/-- `swap`, counting itself. -/
def swapP (i j : Nat) : P S Unit := fun s => (o.swap s.1 i j).map (fun h => ((), (h, s.2.add ⟨0, 1⟩)))

def fail {α : Type} (e : Panic) : P S α := fun _ => .error e

/-- The loop of `up`: heap.go:83-92, reap.go:99-108, maep.go:110-119. -/
def upP : Nat → Nat → P S Unit
  | 0, _ => fail .diverge
  | fuel + 1, j =>
    if (j - 1) / 2 = j then pure () else do
    if !(← lessP o j ((j - 1) / 2)) then pure () else do
    swapP o ((j - 1) / 2) j
    upP fuel ((j - 1) / 2)

/-- The loop of `down`: heap.go:96-110, reap.go:112-126, maep.go:123-137. -/
def downLoopP (n : Nat) : Nat → Nat → P S Nat
  | 0, _ => fail .diverge
  | fuel + 1, i =>
    if 2 * i + 1 ≥ n then pure i else do
    let right ← if 2 * i + 1 + 1 < n then lessP o (2 * i + 1 + 1) (2 * i + 1) else pure false
    let j := if right then 2 * i + 1 + 1 else 2 * i + 1
    if !(← lessP o j i) then pure i else do
    swapP o i j
    downLoopP n fuel j

/-- `down`: heap.go:94-112. -/
def downP (i0 n : Nat) : P S Bool := do
  let i ← downLoopP o n (n + 1) i0
  pure (decide (i > i0))

/-- `Fix`: heap.go:65-69. -/
def fixP (len i : Nat) : P S Unit := do
  if !(← downP o i len) then upP o (i + 1) i else pure ()

/-- The part of `Remove` before `pop`: heap.go:50-57. -/
def removeP (len i : Nat) : P S Unit :=
  if len - 1 ≠ i then do
    swapP o i (len - 1)
    if !(← downP o i (len - 1)) then upP o (i + 1) i else pure ()
  else pure ()

/-- The heapify loop, heap.go:78-80. -/
def initP (n : Nat) : Nat → P S Unit
  | 0 => pure ()
  | i + 1 => do
    let _ ← downP o i n
    initP n i

variable {T : Type} (lt : T → T → Bool)

/-- The inner loop of `HeapN.down`, heapn.go:91-95. -/
def scanP (n : Nat) : Nat → Nat → Nat → P S Nat
  | 0, _, j => pure j
  | w + 1, j1, j =>
    if j1 < n then do
      let b ← lessP o j1 j
      scanP n w (j1 + 1) (if b then j1 else j)
    else pure j

/-- The loop of `HeapN.down`, heapn.go:85-101. -/
def downLoopNP (d n : Nat) : Nat → Nat → P S Nat
  | 0, _ => fail .diverge
  | fuel + 1, i =>
    if d * i + 1 ≥ n then pure i else do
    let j ← scanP o n 3 (d * i + 1 + 1) (d * i + 1)
    if !(← lessP o j i) then pure i else do
    swapP o i j
    downLoopNP d n fuel j

/-- `HeapN.down`, heapn.go:83-103. -/
def downNP (d i0 n : Nat) : P S Bool := do
  let i ← downLoopNP o d n (n + 1) i0
  pure (decide (i > i0))

/-- `HeapN.up`, heapn.go:72-81. -/
def upNP (d : Nat) : Nat → Nat → P S Unit
  | 0, _ => fail .diverge
  | fuel + 1, j =>
    if (j - 1) / d = j then pure () else do
    if !(← lessP o j ((j - 1) / d)) then pure () else do
    swapP o ((j - 1) / d) j
    upNP d fuel ((j - 1) / d)

/-- `HeapN.Fix` and the end of `HeapN.Remove`, heapn.go:55-57, 67-69. -/
def settleNP (d i n : Nat) : P S Unit := do
  if !(← downNP o d i n) then upNP o d (i + 1) i else pure ()

/-- `HeapN.Remove` before `pop`, heapn.go:51-58. -/
def removeNP (d len i : Nat) : P S Unit :=
  if len - 1 ≠ i then do
    swapP o i (len - 1)
    settleNP o d i (len - 1)
  else pure ()

theorem add_assoc' (a b c : Cost) : (a.add b).add c = a.add (b.add c) := by simp [Cost.add, Nat.add_assoc]
theorem add_comm' (a b : Cost) : a.add b = b.add a := by simp [Cost.add, Nat.add_comm]
theorem add_zero' (a : Cost) : a.add ⟨0, 0⟩ = a := rfl

/-- How a function with explicit counters and a program agree. -/
def Agrees {α : Type} (p : P S α) (f : S → Go ((S × α) × Cost)) : Prop :=
  ∀ h c, p (h, c) = (f h).map (fun r => (r.1.2, (r.1.1, c.add r.2)))

def AgreesU (p : P S Unit) (f : S → Go (S × Cost)) : Prop :=
  ∀ h c, p (h, c) = (f h).map (fun r => ((), (r.1, c.add r.2)))

/-- A program after another one. -/
theorem seq {α β : Type} (p : P S α) (k : α → P S β) (s : S × Cost) : (p >>= k) s = (p s).bind (fun r => k r.1 r.2) := rfl

theorem cost3 (c a : Cost) (x y : Nat) : ((c.add ⟨x, 0⟩).add ⟨0, y⟩).add a = c.add (a.add ⟨x, y⟩) := by
  simp only [Cost.add, Cost.mk.injEq]
  omega

theorem upP_eq : ∀ (fuel j : Nat), AgreesU (upP o fuel j) (fun h => upLoopC o fuel h j)
  | 0, _ => fun _ _ => rfl
  | fuel + 1, j => by
    intro h c
    show upP o (fuel + 1) j (h, c) = (upLoopC o (fuel + 1) h j).map _
    unfold upP upLoopC
    dsimp only
    by_cases e : (j - 1) / 2 = j
    · rw [if_pos e, if_pos e]; rfl
    · rw [if_neg e, if_neg e, seq]
      unfold lessP
      dsimp only
      cases o.less h j ((j - 1) / 2) with
      | error x => rfl
      | ok b =>
        cases b with
        | false => rfl
        | true =>
          show (swapP o ((j - 1) / 2) j >>= fun _ => upP o fuel ((j - 1) / 2)) (h, c.add ⟨1, 0⟩) = Except.map _ (o.swap h ((j - 1) / 2) j >>= _)
          rw [seq]
          unfold swapP
          dsimp only
          cases o.swap h ((j - 1) / 2) j with
          | error x => rfl
          | ok h1 =>
            show upP o fuel ((j - 1) / 2) (h1, (c.add ⟨1, 0⟩).add ⟨0, 1⟩) = Except.map _ (upLoopC o fuel h1 ((j - 1) / 2) >>= _)
            rw [upP_eq fuel ((j - 1) / 2) h1 ((c.add ⟨1, 0⟩).add ⟨0, 1⟩)]
            dsimp only
            cases upLoopC o fuel h1 ((j - 1) / 2) with
            | error x => rfl
            | ok r =>
              obtain ⟨r1, r2⟩ := r
              show Except.ok ((), (r1, ((c.add ⟨1, 0⟩).add ⟨0, 1⟩).add r2)) = Except.ok ((), (r1, c.add (r2.add ⟨1, 1⟩)))
              rw [cost3]

theorem upNP_eq (d : Nat) : ∀ (fuel j : Nat), AgreesU (upNP (listOps lt) d fuel j) (fun h => upLoopNC lt d fuel h j)
  | 0, _ => fun _ _ => rfl
  | fuel + 1, j => by
    intro h c
    show upNP (listOps lt) d (fuel + 1) j (h, c) = (upLoopNC lt d (fuel + 1) h j).map _
    unfold upNP upLoopNC
    dsimp only
    by_cases e : (j - 1) / d = j
    · rw [if_pos e, if_pos e]; rfl
    · rw [if_neg e, if_neg e, seq]
      unfold lessP
      dsimp only [listOps]
      cases less lt h j ((j - 1) / d) with
      | error x => rfl
      | ok b =>
        cases b with
        | false => rfl
        | true =>
          show (swapP (listOps lt) ((j - 1) / d) j >>= fun _ => upNP (listOps lt) d fuel ((j - 1) / d)) (h, c.add ⟨1, 0⟩) = Except.map _ (swap h ((j - 1) / d) j >>= _)
          rw [seq]
          unfold swapP
          dsimp only [listOps]
          cases swap h ((j - 1) / d) j with
          | error x => rfl
          | ok h1 =>
            show upNP (listOps lt) d fuel ((j - 1) / d) (h1, (c.add ⟨1, 0⟩).add ⟨0, 1⟩) = Except.map _ (upLoopNC lt d fuel h1 ((j - 1) / d) >>= _)
            rw [upNP_eq d fuel ((j - 1) / d) h1 ((c.add ⟨1, 0⟩).add ⟨0, 1⟩)]
            dsimp only
            cases upLoopNC lt d fuel h1 ((j - 1) / d) with
            | error x => rfl
            | ok r =>
              obtain ⟨r1, r2⟩ := r
              show Except.ok ((), (r1, ((c.add ⟨1, 0⟩).add ⟨0, 1⟩).add r2)) = Except.ok ((), (r1, c.add (r2.add ⟨1, 1⟩)))
              rw [cost3]

/-- The end of a round of `down`: compare with the parent, swap, go on. -/
theorem round_eq (i j : Nat) (k : Cost) (rest : P S Nat) (f : S → Go ((S × Nat) × Cost)) (hr : Agrees rest f) (h : S) (c : Cost) :
    (do if !(← lessP o j i) then pure i else do
          swapP o i j
          rest : P S Nat) (h, c.add k) =
    (do if !(← o.less h j i) then pure ((h, i), k.add ⟨1, 0⟩) else
          let h ← o.swap h i j
          let (r, c') ← f h
          pure (r, (k.add c').add ⟨1, 1⟩) : Go ((S × Nat) × Cost)).map (fun r => (r.1.2, (r.1.1, c.add r.2))) := by
  rw [seq]
  unfold lessP
  dsimp only
  cases o.less h j i with
  | error x => rfl
  | ok b =>
    cases b with
    | false =>
      show Except.ok (i, (h, (c.add k).add ⟨1, 0⟩)) = Except.ok (i, (h, c.add (k.add ⟨1, 0⟩)))
      rw [add_assoc']
    | true =>
      show (swapP o i j >>= fun _ => rest) (h, (c.add k).add ⟨1, 0⟩) = Except.map _ (o.swap h i j >>= _)
      rw [seq]
      unfold swapP
      dsimp only
      cases o.swap h i j with
      | error x => rfl
      | ok h1 =>
        show rest (h1, ((c.add k).add ⟨1, 0⟩).add ⟨0, 1⟩) = Except.map _ (f h1 >>= _)
        rw [hr h1]
        cases f h1 with
        | error x => rfl
        | ok r =>
          obtain ⟨⟨r1, r2⟩, r3⟩ := r
          show Except.ok (r2, (r1, (((c.add k).add ⟨1, 0⟩).add ⟨0, 1⟩).add r3)) = Except.ok (r2, (r1, c.add ((k.add r3).add ⟨1, 1⟩)))
          rw [cost3, add_assoc', add_assoc']

theorem downLoopP_eq (n : Nat) : ∀ (fuel i : Nat), Agrees (downLoopP o n fuel i) (fun h => downLoopC o n fuel h i)
  | 0, _ => fun _ _ => rfl
  | fuel + 1, i => by
    intro h c
    show downLoopP o n (fuel + 1) i (h, c) = (downLoopC o n (fuel + 1) h i).map _
    unfold downLoopP downLoopC
    dsimp only
    by_cases e : 2 * i + 1 ≥ n
    · rw [if_pos e, if_pos e]; rfl
    · rw [if_neg e, if_neg e]
      by_cases e2 : 2 * i + 1 + 1 < n
      · simp only [if_pos e2]
        rw [seq]
        unfold lessP
        dsimp only
        cases o.less h (2 * i + 1 + 1) (2 * i + 1) with
        | error x => rfl
        | ok b =>
          have := round_eq o i (if b then 2 * i + 1 + 1 else 2 * i + 1) ⟨1, 0⟩ _ _ (downLoopP_eq n fuel (if b then 2 * i + 1 + 1 else 2 * i + 1)) h c
          refine Eq.trans this ?_
          show Except.map _ _ = Except.map _ _
          congr 1
          show (o.less h (if b then 2 * i + 1 + 1 else 2 * i + 1) i >>= _) = (o.less h (if b then 2 * i + 1 + 1 else 2 * i + 1) i >>= _)
          congr 1
          funext x
          cases x with
          | false => rfl
          | true =>
            show (o.swap h i _ >>= _) = (o.swap h i _ >>= _)
            congr 1
            funext h1
            show (downLoopC o n fuel h1 _ >>= _) = (downLoopC o n fuel h1 _ >>= _)
            congr 1
            funext r
            obtain ⟨r1, r2⟩ := r
            show Except.ok _ = Except.ok _
            congr 2
            simp only [Cost.add, Cost.mk.injEq]
            omega
      · simp only [if_neg e2]
        have := round_eq o i (2 * i + 1) ⟨0, 0⟩ _ _ (downLoopP_eq n fuel (2 * i + 1)) h c
        refine Eq.trans this ?_
        show Except.map _ _ = Except.map _ _
        congr 1
        show (o.less h (2 * i + 1) i >>= _) = (o.less h (2 * i + 1) i >>= _)
        congr 1
        funext x
        cases x with
        | false => rfl
        | true =>
          show (o.swap h i _ >>= _) = (o.swap h i _ >>= _)
          congr 1
          funext h1
          show (downLoopC o n fuel h1 _ >>= _) = (downLoopC o n fuel h1 _ >>= _)
          congr 1
          funext r
          obtain ⟨r1, r2⟩ := r
          show Except.ok _ = Except.ok _
          congr 2
          simp only [Cost.add, Cost.mk.injEq]
          omega

theorem downP_eq (i n : Nat) : Agrees (downP o i n) (fun h => downC o h i n) := by
  intro h c
  unfold downP
  rw [seq, downLoopP_eq o n (n + 1) i h c]
  show _ = (downC o h i n).map _
  unfold downC
  dsimp only
  cases downLoopC o n (n + 1) h i with
  | error x => rfl
  | ok r => rfl

/-- `down`, then `up` if nothing moved. -/
theorem settle_eq (p : P S Bool) (f : S → Go ((S × Bool) × Cost)) (hp : Agrees p f) (q : P S Unit) (g : S → Go (S × Cost)) (hq : AgreesU q g) :
    AgreesU (do if !(← p) then q else pure ()) (fun h => do
      let ((h, moved), c) ← f h
      if !moved then do
        let (h, c') ← g h
        pure (h, c.add c')
      else pure (h, c)) := by
  intro h c
  rw [seq, hp h c]
  dsimp only
  cases f h with
  | error x => rfl
  | ok r =>
    obtain ⟨⟨r1, b⟩, r2⟩ := r
    cases b with
    | true => rfl
    | false =>
      show q (r1, c.add r2) = Except.map _ (g r1 >>= _)
      rw [hq r1 (c.add r2)]
      cases g r1 with
      | error x => rfl
      | ok y =>
        show Except.ok ((), (y.1, (c.add r2).add y.2)) = Except.ok ((), (y.1, c.add (r2.add y.2)))
        rw [add_assoc']

theorem fixP_eq (len i : Nat) : AgreesU (fixP o len i) (fun h => fixAtC o h len i) :=
  settle_eq _ _ (downP_eq o i len) _ _ (upP_eq o (i + 1) i)

theorem removeP_eq (len i : Nat) : AgreesU (removeP o len i) (fun h => removeAtC o h len i) := by
  intro h c
  show removeP o len i (h, c) = (removeAtC o h len i).map _
  unfold removeP removeAtC
  dsimp only
  by_cases e : len - 1 ≠ i
  · rw [if_pos e, if_pos e, seq]
    unfold swapP
    dsimp only
    cases o.swap h i (len - 1) with
    | error x => rfl
    | ok h1 =>
      have hs := settle_eq _ _ (downP_eq o i (len - 1)) _ _ (upP_eq o (i + 1) i) h1 (c.add ⟨0, 1⟩)
      refine Eq.trans hs ?_
      show Except.map _ (downC o h1 i (len - 1) >>= _) = Except.map _ (downC o h1 i (len - 1) >>= _)
      cases downC o h1 i (len - 1) with
      | error x => rfl
      | ok r =>
        obtain ⟨⟨r1, b⟩, r2⟩ := r
        cases b with
        | true =>
          show Except.ok ((), (r1, (c.add ⟨0, 1⟩).add r2)) = Except.ok ((), (r1, c.add (r2.add ⟨0, 1⟩)))
          rw [add_assoc', add_comm' ⟨0, 1⟩]
        | false =>
          show Except.map _ (upLoopC o (i + 1) r1 i >>= _) = Except.map _ (upLoopC o (i + 1) r1 i >>= _)
          cases upLoopC o (i + 1) r1 i with
          | error x => rfl
          | ok y =>
            show Except.ok ((), (y.1, (c.add ⟨0, 1⟩).add (r2.add y.2))) = Except.ok ((), (y.1, c.add ((r2.add y.2).add ⟨0, 1⟩)))
            rw [add_assoc', add_comm' ⟨0, 1⟩]
  · rw [if_neg e, if_neg e]; rfl

theorem initP_eq (n : Nat) : ∀ i, AgreesU (initP (listOps lt) n i) (fun h => initLoopC lt n i h)
  | 0 => fun _ _ => rfl
  | i + 1 => by
    intro h c
    show initP (listOps lt) n (i + 1) (h, c) = (initLoopC lt n (i + 1) h).map _
    unfold initP initLoopC
    rw [seq, downP_eq (listOps lt) i n h c]
    dsimp only
    cases downC (listOps lt) h i n with
    | error x => rfl
    | ok r =>
      obtain ⟨⟨r1, b⟩, r2⟩ := r
      show initP (listOps lt) n i (r1, c.add r2) = Except.map _ (initLoopC lt n i r1 >>= _)
      rw [initP_eq n i r1 (c.add r2)]
      dsimp only
      cases initLoopC lt n i r1 with
      | error x => rfl
      | ok y =>
        show Except.ok ((), (y.1, (c.add r2).add y.2)) = Except.ok ((), (y.1, c.add (r2.add y.2)))
        rw [add_assoc']

theorem scanP_eq (n : Nat) : ∀ (w j1 j : Nat) (h : List T) (c : Cost),
    scanP (listOps lt) n w j1 j (h, c) = (scanC lt n w h j1 j).map (fun r => (r.1, (h, c.add r.2)))
  | 0, _, _, _, _ => rfl
  | w + 1, j1, j, h, c => by
    unfold scanP scanC
    by_cases e : j1 < n
    · rw [if_pos e, if_pos e, seq]
      unfold lessP
      dsimp only [listOps]
      cases less lt h j1 j with
      | error x => rfl
      | ok b =>
        show scanP (listOps lt) n w (j1 + 1) (if b then j1 else j) (h, c.add ⟨1, 0⟩) = Except.map _ (scanC lt n w h (j1 + 1) (if b then j1 else j) >>= _)
        rw [scanP_eq n w]
        cases scanC lt n w h (j1 + 1) (if b then j1 else j) with
        | error x => rfl
        | ok y =>
          show Except.ok (y.1, (h, (c.add ⟨1, 0⟩).add y.2)) = Except.ok (y.1, (h, c.add (y.2.add ⟨1, 0⟩)))
          rw [add_assoc', add_comm' ⟨1, 0⟩]
    · rw [if_neg e, if_neg e]; rfl

theorem downLoopNP_eq (d n : Nat) : ∀ (fuel i : Nat), Agrees (downLoopNP (listOps lt) d n fuel i) (fun h => downLoopNC lt d n fuel h i)
  | 0, _ => fun _ _ => rfl
  | fuel + 1, i => by
    intro h c
    show downLoopNP (listOps lt) d n (fuel + 1) i (h, c) = (downLoopNC lt d n (fuel + 1) h i).map _
    unfold downLoopNP downLoopNC
    dsimp only
    by_cases e : d * i + 1 ≥ n
    · rw [if_pos e, if_pos e]; rfl
    · rw [if_neg e, if_neg e, seq, scanP_eq]
      cases scanC lt n 3 h (d * i + 1 + 1) (d * i + 1) with
      | error x => rfl
      | ok r =>
        obtain ⟨j, k⟩ := r
        exact round_eq (listOps lt) i j k _ _ (downLoopNP_eq d n fuel j) h c

theorem downNP_eq (d i n : Nat) : Agrees (downNP (listOps lt) d i n) (fun h => downNC lt d h i n) := by
  intro h c
  unfold downNP
  rw [seq, downLoopNP_eq lt d n (n + 1) i h c]
  show _ = (downNC lt d h i n).map _
  unfold downNC
  dsimp only
  cases downLoopNC lt d n (n + 1) h i with
  | error x => rfl
  | ok r => rfl

theorem settleNP_eq (d i n : Nat) : AgreesU (settleNP (listOps lt) d i n) (fun h => settleNC lt d h i n) :=
  settle_eq _ _ (downNP_eq lt d i n) _ _ (upNP_eq lt d (i + 1) i)

/-- `pop`, which calls neither. -/
def takeP : P (List T) T := fun s => (popRaw s.1).map (fun r => (r.1, (r.2, s.2)))

/-- `Pop`, heap.go:20-25. -/
def popP (len : Nat) : P (List T) T := do
  swapP (listOps lt) 0 (len - 1)
  let _ ← downP (listOps lt) 0 (len - 1)
  takeP

/-- `HeapN.Pop`, heapn.go:21-26. -/
def popNP (d len : Nat) : P (List T) T := do
  swapP (listOps lt) 0 (len - 1)
  let _ ← downNP (listOps lt) d 0 (len - 1)
  takeP

/-- `HeapN.Remove`, heapn.go:51-60. -/
def removeAllNP (d len i : Nat) : P (List T) T := do
  removeNP (listOps lt) d len i
  takeP

theorem popLike (len : Nat) (p : P (List T) Bool) (f : List T → Go ((List T × Bool) × Cost)) (hp : Agrees p f) (h : List T) (c : Cost) :
    (do swapP (listOps lt) 0 (len - 1)
        let _ ← p
        takeP : P (List T) T) (h, c) =
    (do let h ← swap h 0 (len - 1)
        let ((h, _), c) ← f h
        let r ← popRaw h
        pure (r, c.add ⟨0, 1⟩) : Go ((T × List T) × Cost)).map (fun r => (r.1.1, (r.1.2, c.add r.2))) := by
  rw [seq]
  unfold swapP
  dsimp only [listOps]
  cases swap h 0 (len - 1) with
  | error x => rfl
  | ok h1 =>
    show (p >>= fun _ => takeP) (h1, c.add ⟨0, 1⟩) = Except.map _ (f h1 >>= _)
    rw [seq, hp h1]
    cases f h1 with
    | error x => rfl
    | ok r =>
      obtain ⟨⟨r1, b⟩, r2⟩ := r
      show takeP (r1, (c.add ⟨0, 1⟩).add r2) = Except.map _ (popRaw r1 >>= _)
      unfold takeP
      dsimp only
      cases popRaw r1 with
      | error x => rfl
      | ok y =>
        show Except.ok (y.1, (y.2, (c.add ⟨0, 1⟩).add r2)) = Except.ok (y.1, (y.2, c.add (r2.add ⟨0, 1⟩)))
        rw [add_assoc', add_comm' ⟨0, 1⟩]

/-- **C163 (the counters are right).** The loops and operations written as programs that know nothing of counters, with a `less` and a `swap` that count themselves, arrive at the same container, result and
counters, from all counters at the start: so every call is counted once, comparisons as well as swaps, for every container (Heap, Reap, Meap) and for `HeapN`. -/
theorem C163_counted {S : Type} (o : Ops S) (s : S) (h : List T) (c : Cost) (i len d : Nat) :
    upP o (i + 1) i (s, c) = (upC o s i).map (fun r => ((), (r.1, c.add r.2))) ∧
    downP o i len (s, c) = (downC o s i len).map (fun r => (r.1.2, (r.1.1, c.add r.2))) ∧
    fixP o len i (s, c) = (fixAtC o s len i).map (fun r => ((), (r.1, c.add r.2))) ∧
    removeP o len i (s, c) = (removeAtC o s len i).map (fun r => ((), (r.1, c.add r.2))) ∧
    initP (listOps lt) h.length (h.length / 2) (h, c) = (newC lt h).map (fun r => ((), (r.1, c.add r.2))) ∧
    popP lt h.length (h, c) = (popC lt h).map (fun r => (r.1.1, (r.1.2, c.add r.2))) ∧
    upNP (listOps lt) d (i + 1) i (h, c) = (upNC lt d h i).map (fun r => ((), (r.1, c.add r.2))) ∧
    settleNP (listOps lt) d i h.length (h, c) = (fixNC lt d h i).map (fun r => ((), (r.1, c.add r.2))) ∧
    popNP lt d h.length (h, c) = (popNC lt d h).map (fun r => (r.1.1, (r.1.2, c.add r.2))) ∧
    removeAllNP lt d h.length i (h, c) = (removeNC lt d h i).map (fun r => (r.1.1, (r.1.2, c.add r.2))) := by
  refine ⟨upP_eq o _ _ s c, downP_eq o i len s c, fixP_eq o len i s c, removeP_eq o len i s c, initP_eq lt _ _ h c,
    popLike lt h.length _ _ (downP_eq (listOps lt) 0 (h.length - 1)) h c, upNP_eq lt d _ _ h c, settleNP_eq lt d i h.length h c,
    popLike lt h.length _ _ (downNP_eq lt d 0 (h.length - 1)) h c, ?_⟩
  unfold removeAllNP removeNP removeNC
  rw [if_neg (by omega : ¬ (i : Int) < 0), Int.toNat_natCast]
  by_cases e : h.length - 1 ≠ i
  · rw [if_pos e, if_pos e, seq, seq]
    unfold swapP
    dsimp only [listOps]
    cases swap h i (h.length - 1) with
    | error x => rfl
    | ok h1 =>
      show (settleNP (listOps lt) d i (h.length - 1) (h1, c.add ⟨0, 1⟩)).bind _ = Except.map _ (settleNC lt d h1 i (h.length - 1) >>= _)
      rw [settleNP_eq lt d i (h.length - 1) h1]
      dsimp only
      cases settleNC lt d h1 i (h.length - 1) with
      | error x => rfl
      | ok r =>
        obtain ⟨r1, r2⟩ := r
        show takeP (r1, (c.add ⟨0, 1⟩).add r2) = Except.map _ (popRaw r1 >>= _)
        unfold takeP
        dsimp only
        cases popRaw r1 with
        | error x => rfl
        | ok y =>
          show Except.ok (y.1, (y.2, (c.add ⟨0, 1⟩).add r2)) = Except.ok (y.1, (y.2, c.add (r2.add ⟨0, 1⟩)))
          rw [add_assoc', add_comm' ⟨0, 1⟩]
  · rw [if_neg e, if_neg e, seq]
    show takeP (h, c) = Except.map _ (popRaw h >>= _)
    unfold takeP
    dsimp only
    cases popRaw h with
    | error x => rfl
    | ok y => rfl

/-- A program at work: `Pop` of `[1, 2, 3]` makes two calls of `swap` and one of `less`. -/
example : popP (fun a b : Nat => decide (a < b)) 3 ([1, 2, 3], ⟨0, 0⟩) = .ok (1, ([2, 3], ⟨1, 2⟩)) := by rfl

end Verif.Heap.Count
