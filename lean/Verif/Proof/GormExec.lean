import Verif.Spec.SqlExec
import Verif.Proof.Gorm

/-!
# Place holders and values; statements are read back

Used by C146 and C147.
-/

namespace Verif.Gorm

open Spec.Sql

variable {A : Type}

theorem chars_append (s t : Str) : (chars (s ++ t) : List (Tok A)) = chars s ++ chars t := List.map_append

theorem chars_cons (c : Char) (s : Str) : (chars (c :: s) : List (Tok A)) = .ch c :: chars s := rfl

theorem chars_nil : (chars [] : List (Tok A)) = [] := rfl

/-- Is the last character a parenthesis? -/
def opens (b : Bool) : Str → Bool
  | [] => b
  | c :: s => opens (c == '(') s

theorem build_text (nil : A) (b : Bool) (s rest : Str) (vars : List (SqlVal A)) (h : '?' ∉ s) :
    build nil b (s ++ rest) vars = ⟨chars s ++ (build nil (opens b s) rest vars).text, (build nil (opens b s) rest vars).extra⟩ := by
  induction s generalizing b with
  | nil => rfl
  | cons c s ih =>
    have hc : c ≠ '?' := fun e => h (e ▸ List.mem_cons_self)
    have := ih (c == '(') (fun h' => h (List.mem_cons_of_mem _ h'))
    cases vars with
    | nil => simp only [List.cons_append, build, this, opens]; rfl
    | cons v vs => simp only [List.cons_append, build, this, opens, if_neg hc]; rfl

theorem build_place (nil : A) (b : Bool) (s : Str) (v : SqlVal A) (vs : List (SqlVal A)) :
    build nil b ('?' :: s) (v :: vs) = ⟨addPlace nil b v ++ (build nil b s vs).text, (build nil b s vs).extra⟩ := by
  simp [build]

theorem intercalate_commas (l : List Str) : (chars (List.intercalate [','] l) : List (Tok A)) = commas (l.map chars) := by
  cases l with
  | nil => rfl
  | cons a l =>
    induction l generalizing a with
    | nil => simp [List.intercalate, commas, chars]
    | cons b l ih =>
      have : List.intercalate [','] (a :: b :: l) = a ++ ',' :: List.intercalate [','] (b :: l) := by simp [List.intercalate]
      rw [this, chars_append, chars_cons, ih b]
      simp [commas]

theorem addRest_atoms (l : List A) : addRest (l.map SqlVal.atom) = (l.map (fun v => [Tok.ch ',', Tok.bound v])).flatten := by
  induction l with
  | nil => rfl
  | cons a l ih => simp [addRest, addVar, ih]

/-- A list of plain values in parentheses. -/
theorem addPlace_atoms (nil : A) (l : List A) (h : l ≠ []) :
    addPlace nil true (.list (l.map SqlVal.atom)) = commas (l.map (fun v => [Tok.bound v])) := by
  cases l with
  | nil => exact absurd rfl h
  | cons a l => simp [addPlace, addVar, addRest_atoms, commas, List.map_map, Function.comp_def]

theorem not_mem_of_append {α : Type} {x : α} {a b : List α} (ha : x ∉ a) (hb : x ∉ b) : x ∉ a ++ b := by
  rw [List.mem_append]; exact fun h => h.elim ha hb

/-! ## INSERT -/

/-- The places of the rows. -/
theorem build_rows (nil : A) (rows : List (List A)) (h : ∀ r ∈ rows, r ≠ []) (b : Bool) :
    build nil b (rows.map (fun _ => ",(?)".toList)).flatten (rows.map (fun r => SqlVal.list (r.map SqlVal.atom))) =
      ⟨(rows.map (fun r => Tok.ch ',' :: Tok.ch '(' :: (commas (r.map (fun v => [Tok.bound v])) ++ [Tok.ch ')']))).flatten, []⟩ := by
  induction rows generalizing b with
  | nil => rfl
  | cons r rows ih =>
    have ih := ih (fun r hr => h r (List.mem_cons_of_mem _ hr))
    have e : ((r :: rows).map (fun _ => ",(?)".toList)).flatten = [',', '('] ++ '?' :: ([')'] ++ (rows.map (fun _ => ",(?)".toList)).flatten) := by
      simp
    rw [e, List.map_cons, build_text _ _ [',', '('] _ _ (by decide), build_place, build_text _ _ [')'] _ _ (by decide), ih]
    have ho : opens b [',', '('] = true := rfl
    rw [ho, addPlace_atoms nil r (h r List.mem_cons_self)]
    simp [chars]

theorem intercalate_places (rows : List (List A)) : List.intercalate [','] (rows.map (fun _ => "(?)".toList)) =
    ((rows.map (fun _ => ",(?)".toList)).flatten).tail := by
  cases rows with
  | nil => rfl
  | cons r rows =>
    induction rows generalizing r with
    | nil => rfl
    | cons r' rows ih =>
      have : List.intercalate [','] ((r :: r' :: rows).map (fun _ => "(?)".toList)) =
          "(?)".toList ++ ',' :: List.intercalate [','] ((r' :: rows).map (fun _ => "(?)".toList)) := by simp [List.intercalate]
      rw [this, ih r']
      simp

theorem quote_mark {cs : List Str} (h : ∀ c ∈ cs, '?' ∉ c) : '?' ∉ List.intercalate [','] (cs.map (fun c => '`' :: (c ++ ['`']))) := by
  cases cs with
  | nil => simp [List.intercalate]
  | cons a cs =>
    induction cs generalizing a with
    | nil =>
      simp only [List.intercalate, List.map_cons, List.map_nil, List.intersperse, List.flatten_cons, List.flatten_nil, List.append_nil]
      have := h a List.mem_cons_self
      simp [this]
    | cons b cs ih =>
      have e : List.intercalate [','] ((a :: b :: cs).map (fun c => '`' :: (c ++ ['`']))) =
          ('`' :: (a ++ ['`'])) ++ ',' :: List.intercalate [','] ((b :: cs).map (fun c => '`' :: (c ++ ['`']))) := by simp [List.intercalate]
      rw [e]
      have h1 := h a List.mem_cons_self
      have h2 := ih b (fun c hc => h c (List.mem_cons_of_mem _ hc))
      refine not_mem_of_append ?_ ?_
      · simp [h1]
      · simp only [List.mem_cons, not_or]
        exact ⟨by decide, h2⟩

/-- **The values of an INSERT arrive where they belong.** -/
theorem sent_insert (nil : A) (int : Int → A) (s : Insert A) (ht : '?' ∉ s.table) (hc : ∀ c ∈ s.columns, '?' ∉ c) (hr : s.rows ≠ [])
    (hl : ∀ r ∈ s.rows, r ≠ []) : sent nil int .atom s.stmt = ⟨s.toks, []⟩ := by
  obtain ⟨t, cols, rows⟩ := s
  dsimp only at ht hc hr hl
  obtain ⟨r, rs, rfl⟩ : ∃ r rs, rows = r :: rs := by
    cases rows with
    | nil => exact absurd rfl hr
    | cons r rs => exact ⟨r, rs, rfl⟩
  unfold sent Insert.stmt Insert.text Insert.toks
  dsimp only
  rw [intercalate_places]
  have hv : ((r :: rs).map Arg.row).map (argVal int SqlVal.atom) = (r :: rs).map (fun r => SqlVal.list (r.map SqlVal.atom)) := by
    rw [List.map_map]; rfl
  rw [hv]
  have hp : '?' ∉ "insert into ".toList ++ t ++ "(".toList ++ List.intercalate [','] (cols.map (fun c => '`' :: (c ++ ['`']))) ++ ") values ".toList := by
    refine not_mem_of_append (not_mem_of_append (not_mem_of_append (not_mem_of_append (by decide) ht) (by decide)) (quote_mark hc)) (by decide)
  rw [build_text _ _ _ _ _ hp]
  generalize opens false _ = b
  have e : (((r :: rs).map (fun _ => ",(?)".toList)).flatten).tail = ['('] ++ '?' :: ([')'] ++ (rs.map (fun _ => ",(?)".toList)).flatten) := by simp
  rw [e, List.map_cons, build_text _ _ ['('] _ _ (by decide), build_place, build_text _ _ [')'] _ _ (by decide),
    build_rows nil rs (fun r hr => hl r (List.mem_cons_of_mem _ hr))]
  have ho : opens b ['('] = true := rfl
  rw [ho, addPlace_atoms nil r (hl r List.mem_cons_self)]
  simp only [chars_append, intercalate_commas, List.map_map, commas, List.map_cons]
  simp [chars, Function.comp_def]

/-! ## UPDATE -/

def argsOf (int : Int → A) (ws : List (Int × A)) : List (SqlVal A) := (ws.map (fun w => [SqlVal.atom (int w.1), SqlVal.atom w.2])).flatten

theorem build_whens (nil : A) (int : Int → A) (ws : List (Int × A)) (b : Bool) (hb : b = false) (rest : Str) (vs : List (SqlVal A)) :
    build nil b ((ws.map (fun _ => "when id = ? then ? ".toList)).flatten ++ rest) (argsOf int ws ++ vs) =
      ⟨(ws.map (whenToks int)).flatten ++ (build nil false rest vs).text, (build nil false rest vs).extra⟩ := by
  subst hb
  induction ws with
  | nil => rfl
  | cons w ws ih =>
    have e : ((w :: ws).map (fun _ => "when id = ? then ? ".toList)).flatten ++ rest =
        "when id = ".toList ++ '?' :: (" then ".toList ++ '?' :: (" ".toList ++ ((ws.map (fun _ => "when id = ? then ? ".toList)).flatten ++ rest))) := by
      simp
    have ea : argsOf int (w :: ws) ++ vs = .atom (int w.1) :: .atom w.2 :: (argsOf int ws ++ vs) := by simp [argsOf]
    rw [e, ea, build_text _ _ "when id = ".toList _ _ (by decide), build_place, build_text _ _ " then ".toList _ _ (by decide), build_place,
      build_text _ _ " ".toList _ _ (by decide)]
    have ho : opens (opens (opens false "when id = ".toList) " then ".toList) " ".toList = false := by decide
    have ho1 : opens false "when id = ".toList = false := by decide
    have ho2 : opens false " then ".toList = false := by decide
    have ho3 : opens false " ".toList = false := by decide
    rw [ho1, ho2, ho3, ih]
    simp [whenToks, addPlace, addVar, chars]

theorem build_set (nil : A) (int : Int → A) (p : Str × List (Int × A)) (hp : '?' ∉ p.1) (b : Bool) (rest : Str) (vs : List (SqlVal A)) :
    build nil b (setText p ++ rest) (argsOf int p.2 ++ vs) = ⟨setToks int p ++ (build nil false rest vs).text, (build nil false rest vs).extra⟩ := by
  obtain ⟨f, ws⟩ := p
  have e : setText (f, ws) ++ rest = (f ++ "= case ".toList) ++ ((ws.map (fun _ => "when id = ? then ? ".toList)).flatten ++ ("end".toList ++ rest)) := by
    simp [setText]
  have ho : ∀ b, opens b (f ++ "= case ".toList) = false := by
    intro b
    induction f generalizing b with
    | nil => rfl
    | cons c f ih =>
      exact ih (fun h => hp (List.mem_cons_of_mem _ h)) (by simp [setText]) (c == '(')
  rw [e, build_text _ _ _ _ _ (not_mem_of_append hp (by decide)), build_whens nil int ws _ (ho b), build_text _ _ "end".toList _ _ (by decide)]
  have ho3 : opens false "end".toList = false := by decide
  rw [ho3]
  simp [setToks, chars_append]

theorem build_sets (nil : A) (int : Int → A) (ps : List (Str × List (Int × A))) (hp : ∀ p ∈ ps, '?' ∉ p.1) (rest : Str) (vs : List (SqlVal A)) :
    build nil false ((ps.map (fun p => ',' :: setText p)).flatten ++ rest) ((ps.map (fun p => argsOf int p.2)).flatten ++ vs) =
      ⟨(ps.map (fun p => Tok.ch ',' :: setToks int p)).flatten ++ (build nil false rest vs).text, (build nil false rest vs).extra⟩ := by
  induction ps with
  | nil => rfl
  | cons p ps ih =>
    have e : ((p :: ps).map (fun p => ',' :: setText p)).flatten ++ rest = [','] ++ (setText p ++ ((ps.map (fun p => ',' :: setText p)).flatten ++ rest)) := by
      simp
    have ea : ((p :: ps).map (fun p => argsOf int p.2)).flatten ++ vs = argsOf int p.2 ++ ((ps.map (fun p => argsOf int p.2)).flatten ++ vs) := by simp
    rw [e, ea, build_text _ _ [','] _ _ (by decide), build_set nil int p (hp p List.mem_cons_self), ih (fun p h => hp p (List.mem_cons_of_mem _ h))]
    simp [chars]

theorem intercalate_sets {V : Type} (p : Str × List (Int × V)) (ps : List (Str × List (Int × V))) :
    List.intercalate [','] ((p :: ps).map setText) = setText p ++ (ps.map (fun p => ',' :: setText p)).flatten := by
  induction ps generalizing p with
  | nil => simp [List.intercalate]
  | cons q ps ih =>
    have : List.intercalate [','] ((p :: q :: ps).map setText) = setText p ++ ',' :: List.intercalate [','] ((q :: ps).map setText) := by
      simp [List.intercalate]
    rw [this, ih q]
    simp

/-- **The values of an UPDATE arrive where they belong.** -/
theorem sent_update (nil : A) (int : Int → A) (u : Update A) (ht : '?' ∉ u.table) (hc : ∀ p ∈ u.sets, '?' ∉ p.1) (hs : u.sets ≠ [])
    (hi : u.ids ≠ []) : sent nil int .atom u.stmt = ⟨u.toks int, []⟩ := by
  obtain ⟨t, sets, ids⟩ := u
  dsimp only at ht hc hs hi
  obtain ⟨p, ps, rfl⟩ : ∃ p ps, sets = p :: ps := by
    cases sets with
    | nil => exact absurd rfl hs
    | cons r rs => exact ⟨r, rs, rfl⟩
  unfold sent Update.stmt Update.toks
  have etext : Update.text (⟨t, p :: ps, ids⟩ : Update A) = ("update ".toList ++ t ++ " set ".toList) ++ (setText p ++
      ((ps.map (fun p => ',' :: setText p)).flatten ++ (" where id in (".toList ++ '?' :: (")".toList ++ [])))) := by
    have := intercalate_sets p ps
    have e2 : Update.text (⟨t, p :: ps, ids⟩ : Update A) = "update ".toList ++ t ++ " set ".toList ++
      List.intercalate [','] ((p :: ps).map setText) ++ " where id in (?)".toList := rfl
    rw [e2, this]
    simp
  have eargs : (((p :: ps).map (fun p : Str × List (Int × A) => (p.2.map (fun w : Int × A => [Arg.id w.1, Arg.val w.2])).flatten)).flatten ++ [Arg.ids ids]).map (argVal int SqlVal.atom) =
      argsOf int p.2 ++ ((ps.map (fun p => argsOf int p.2)).flatten ++ [SqlVal.list ((ids.map int).map SqlVal.atom)]) := by
    have one : ∀ ws : List (Int × A), ((ws.map (fun w => [Arg.id w.1, Arg.val w.2])).flatten).map (argVal int SqlVal.atom) = argsOf int ws := by
      intro ws
      simp [argsOf, List.map_flatten, argVal, Function.comp_def]
    simp only [List.map_append, List.map_flatten, List.map_map, List.map_cons, List.flatten_cons, List.append_assoc, one]
    congr 1
    congr 1
    · congr 1
      apply List.map_congr_left
      intro q _
      exact (by simpa [List.map_flatten] using one q.2)
  dsimp only
  rw [etext, eargs, build_text _ _ _ _ _ (not_mem_of_append (not_mem_of_append (by decide) ht) (by decide)),
    build_set nil int p (hc p List.mem_cons_self), build_sets nil int ps (fun p h => hc p (List.mem_cons_of_mem _ h)),
    build_text _ _ " where id in (".toList _ _ (by decide), build_place, build_text _ _ ")".toList _ _ (by decide)]
  have ho : opens false " where id in (".toList = true := by decide
  rw [ho, addPlace_atoms nil _ (by simpa using hi)]
  simp [build, commas, chars_append, chars_nil, Function.comp_def]
  simp [chars]

/-! ## Statements are read back -/

theorem split_first {α : Type} (x : α) (a b r r' : List α) (ha : x ∉ a) (hb : x ∉ b) (h : a ++ x :: r = b ++ x :: r') : a = b ∧ r = r' := by
  induction a generalizing b with
  | nil =>
    cases b with
    | nil => simpa using h
    | cons c b =>
      simp only [List.nil_append, List.cons_append, List.cons.injEq] at h
      exact absurd (h.1 ▸ List.mem_cons_self) hb
  | cons c a ih =>
    cases b with
    | nil =>
      simp only [List.nil_append, List.cons_append, List.cons.injEq] at h
      exact absurd (h.1 ▸ List.mem_cons_self) ha
    | cons d b =>
      simp only [List.cons_append, List.cons.injEq] at h
      obtain ⟨h1, h2⟩ := ih b (fun h' => ha (List.mem_cons_of_mem _ h')) (fun h' => hb (List.mem_cons_of_mem _ h')) h.2
      exact ⟨by rw [h.1, h1], h2⟩

theorem chars_inj {s t : Str} (h : (chars s : List (Tok A)) = chars t) : s = t :=
  List.map_injective_iff.2 (fun _ _ h => Tok.ch.inj h) h

theorem mem_chars {c : Char} {s : Str} (h : Tok.ch c ∈ (chars s : List (Tok A))) : c ∈ s := by
  obtain ⟨d, hd, e⟩ := List.mem_map.1 h
  cases e
  exact hd

theorem whens_inj {int : Int → A} (hint : ∀ i j, int i = int j → i = j) (ws ws' : List (Int × A)) (r r' : List (Tok A))
    (h : (ws.map (whenToks int)).flatten ++ (chars "end".toList ++ r) = (ws'.map (whenToks int)).flatten ++ (chars "end".toList ++ r')) :
    ws = ws' ∧ r = r' := by
  induction ws generalizing ws' with
  | nil =>
    cases ws' with
    | nil => exact ⟨rfl, by simpa using h⟩
    | cons w ws' => simp [whenToks, chars] at h
  | cons w ws ih =>
    cases ws' with
    | nil => simp [whenToks, chars] at h
    | cons w' ws' =>
      obtain ⟨i, v⟩ := w
      obtain ⟨j, v'⟩ := w'
      simp only [List.map_cons, List.flatten_cons, whenToks, List.append_assoc, List.cons_append, List.append_cancel_left_eq, List.cons.injEq,
        Tok.bound.injEq, true_and, List.nil_append] at h
      obtain ⟨h1, h2, h3⟩ := h
      obtain ⟨h4, h5⟩ := ih ws' h3
      rw [hint i j h1, h2, h4]
      exact ⟨rfl, h5⟩

theorem set_inj {int : Int → A} (hint : ∀ i j, int i = int j → i = j) (p p' : Str × List (Int × A)) (hp : '=' ∉ p.1) (hp' : '=' ∉ p'.1)
    (r r' : List (Tok A)) (h : setToks int p ++ r = setToks int p' ++ r') : p = p' ∧ r = r' := by
  obtain ⟨f, ws⟩ := p
  obtain ⟨f', ws'⟩ := p'
  have e : ∀ (f : Str) (ws : List (Int × A)) r, setToks int (f, ws) ++ r =
      chars f ++ Tok.ch '=' :: (chars " case ".toList ++ ((ws.map (whenToks int)).flatten ++ (chars "end".toList ++ r))) := by
    intro f ws r
    simp [setToks, chars]
  rw [e, e] at h
  obtain ⟨h1, h2⟩ := split_first (Tok.ch '=') _ _ _ _ (fun h => hp (mem_chars h)) (fun h => hp' (mem_chars h)) h
  obtain ⟨h3, h4⟩ := whens_inj hint ws ws' r r' (List.append_cancel_left h2)
  have h5 : f = f' := chars_inj h1
  rw [h5, h3]
  exact ⟨rfl, h4⟩

/-- Elements with commas between, and then something else. -/
theorem commas_inj {α : Type} (g : α → List (Tok A)) (good : α → Prop)
    (hg : ∀ a b r r', good a → good b → g a ++ r = g b ++ r' → a = b ∧ r = r') (l l' : List α) (hl : l ≠ []) (hl' : l' ≠ [])
    (h1 : ∀ a ∈ l, good a) (h2 : ∀ a ∈ l', good a) (x : Tok A) (hx : x ≠ .ch ',') (r r' : List (Tok A))
    (h : commas (l.map g) ++ x :: r = commas (l'.map g) ++ x :: r') : l = l' ∧ r = r' := by
  have rest : ∀ (l l' : List α), (∀ a ∈ l, good a) → (∀ a ∈ l', good a) →
      ((l.map g).map (fun x => Tok.ch ',' :: x)).flatten ++ x :: r = ((l'.map g).map (fun x => Tok.ch ',' :: x)).flatten ++ x :: r' → l = l' ∧ r = r' := by
    intro l
    induction l with
    | nil =>
      intro l' _ _ h
      cases l' with
      | nil => exact ⟨rfl, by simpa using h⟩
      | cons b l' =>
        simp only [List.map_nil, List.flatten_nil, List.nil_append, List.map_cons, List.flatten_cons, List.cons_append, List.cons.injEq] at h
        exact absurd h.1 hx
    | cons a l ih =>
      intro l' h1 h2 h
      cases l' with
      | nil =>
        simp only [List.map_nil, List.flatten_nil, List.nil_append, List.map_cons, List.flatten_cons, List.cons_append, List.cons.injEq] at h
        exact absurd h.1.symm hx
      | cons b l' =>
        simp only [List.map_cons, List.flatten_cons, List.cons_append, List.cons.injEq, true_and, List.append_assoc] at h
        obtain ⟨e1, e2⟩ := hg a b _ _ (h1 a List.mem_cons_self) (h2 b List.mem_cons_self) h
        obtain ⟨e3, e4⟩ := ih l' (fun a h => h1 a (List.mem_cons_of_mem _ h)) (fun a h => h2 a (List.mem_cons_of_mem _ h)) e2
        exact ⟨by rw [e1, e3], e4⟩
  cases l with
  | nil => exact absurd rfl hl
  | cons a l =>
    cases l' with
    | nil => exact absurd rfl hl'
    | cons b l' =>
      simp only [List.map_cons, commas, List.append_assoc] at h
      obtain ⟨e1, e2⟩ := hg a b _ _ (h1 a List.mem_cons_self) (h2 b List.mem_cons_self) h
      obtain ⟨e3, e4⟩ := rest l l' (fun a h => h1 a (List.mem_cons_of_mem _ h)) (fun a h => h2 a (List.mem_cons_of_mem _ h)) e2
      exact ⟨by rw [e1, e3], e4⟩

theorem update_toks_inj {int : Int → A} (hint : ∀ i j, int i = int j → i = j) (u u' : Update A) (ht : u.table = u'.table) (hs : u.sets ≠ []) (hs' : u'.sets ≠ [])
    (hi : u.ids ≠ []) (hi' : u'.ids ≠ []) (hp : ∀ p ∈ u.sets, '=' ∉ p.1) (hp' : ∀ p ∈ u'.sets, '=' ∉ p.1) (h : u.toks int = u'.toks int) : u = u' := by
  obtain ⟨t, sets, ids⟩ := u
  obtain ⟨t', sets', ids'⟩ := u'
  dsimp only at ht hs hs' hi hi' hp hp'
  subst ht
  unfold Update.toks at h
  simp only [List.append_assoc, List.append_cancel_left_eq] at h
  have e : ∀ r : List (Tok A), chars " where id in (".toList ++ r = Tok.ch ' ' :: (chars "where id in (".toList ++ r) := fun r => rfl
  rw [e, e] at h
  obtain ⟨h1, h2⟩ := commas_inj (setToks int) (fun p => '=' ∉ p.1) (fun a b r r' ha hb h => set_inj hint a b ha hb r r' h) sets sets' hs hs' hp hp' (.ch ' ')
    (by simp) _ _ h
  obtain ⟨h3, -⟩ := commas_inj (fun i => [Tok.bound (int i)]) (fun _ => True)
    (fun a b r r' _ _ h => by simp at h; exact ⟨hint a b h.1, h.2⟩) ids ids' hi hi' (by simp) (by simp) (.ch ')') (by simp) [] []
    (List.append_cancel_left h2)
  rw [h1, h3]

theorem insert_toks_inj (i j : Insert A) (ht : i.table = j.table) (hc : i.columns ≠ []) (hc' : j.columns ≠ []) (hr : i.rows ≠ []) (hr' : j.rows ≠ [])
    (hq : ∀ c ∈ i.columns, '`' ∉ c) (hq' : ∀ c ∈ j.columns, '`' ∉ c) (hl : ∀ r ∈ i.rows, r ≠ []) (hl' : ∀ r ∈ j.rows, r ≠ []) (h : i.toks = j.toks) :
    i = j := by
  obtain ⟨t, cols, rows⟩ := i
  obtain ⟨t', cols', rows'⟩ := j
  dsimp only at ht hc hc' hr hr' hq hq' hl hl'
  subst ht
  unfold Insert.toks at h
  simp only [List.append_assoc, List.append_cancel_left_eq] at h
  have e : ∀ r : List (Tok A), chars ") values ".toList ++ r = Tok.ch ')' :: (chars " values ".toList ++ r) := fun r => rfl
  rw [e, e] at h
  have hcol : ∀ (a b : Str) (r r' : List (Tok A)), '`' ∉ a → '`' ∉ b → chars ('`' :: (a ++ ['`'])) ++ r = chars ('`' :: (b ++ ['`'])) ++ r' → a = b ∧ r = r' := by
    intro a b r r' ha hb h
    have e : ∀ (a : Str) (r : List (Tok A)), chars ('`' :: (a ++ ['`'])) ++ r = Tok.ch '`' :: (chars a ++ Tok.ch '`' :: r) := by intro a r; simp [chars]
    rw [e, e] at h
    obtain ⟨h1, h2⟩ := split_first (Tok.ch '`') _ _ _ _ (fun h => ha (mem_chars h)) (fun h => hb (mem_chars h)) (List.cons.inj h).2
    exact ⟨chars_inj h1, h2⟩
  obtain ⟨h1, h2⟩ := commas_inj (fun c => chars ('`' :: (c ++ ['`']))) (fun c => '`' ∉ c) hcol cols cols' hc hc' hq hq' (.ch ')') (by simp) _ _ h
  have h2 := List.append_cancel_left h2
  have hrow : ∀ (a b : List A) (r r' : List (Tok A)), a ≠ [] → b ≠ [] → (Tok.ch '(' :: (commas (a.map (fun v => [Tok.bound v])) ++ [Tok.ch ')'])) ++ r =
      (Tok.ch '(' :: (commas (b.map (fun v => [Tok.bound v])) ++ [Tok.ch ')'])) ++ r' → a = b ∧ r = r' := by
    intro a b r r' ha hb h
    simp only [List.cons_append, List.append_assoc, List.nil_append, List.cons.injEq, true_and] at h
    exact commas_inj (fun v => [Tok.bound v]) (fun _ => True) (fun a b r r' _ _ h => by simpa using h) a b ha hb (by simp) (by simp) (.ch ')') (by simp) r r' h
  have h3 : commas (rows.map (fun r => Tok.ch '(' :: (commas (r.map (fun v => [Tok.bound v])) ++ [Tok.ch ')']))) ++ Tok.ch 'x' :: [] =
      commas (rows'.map (fun r => Tok.ch '(' :: (commas (r.map (fun v => [Tok.bound v])) ++ [Tok.ch ')']))) ++ Tok.ch 'x' :: [] := by rw [h2]
  obtain ⟨h4, -⟩ := commas_inj _ (fun r => r ≠ []) hrow rows rows' hr hr' hl hl' (.ch 'x') (by simp) [] [] h3
  rw [h1, h4]

end Verif.Gorm
