/-
Printing a query and parsing the string gives the query back.
-/
import Verif.MPath.ParserProps

namespace FF.MParse

variable {cc : CharClass} {env : Env} {src : List Char}

/-! ## Lemmas: scanning printed text -/

/-- What follows a name: nothing that could continue it. -/
def Stops (cc : CharClass) : List Char → Prop
  | [] => True
  | c :: _ => cc.isIdCont c = false ∧ cc.isDigit c = false

theorem takeWhile_stop {p : Char → Bool} : ∀ (cs : List Char) {b : List Char},
    (∀ x ∈ cs, p x = true) → (∀ c b', b = c :: b' → p c = false) → (cs ++ b).takeWhile p = cs
  | [], b, _, hb => by
    cases b with
    | nil => rfl
    | cons c b => simp [hb c b rfl]
  | c :: cs, b, hc, hb => by
    simp only [List.cons_append, List.takeWhile_cons, hc c (by simp), if_true]
    rw [takeWhile_stop cs (fun x hx => hc x (by simp [hx])) hb]

theorem lex_skip (cs b : List Char) : ∀ pos, lex cc cs.length pos (cs ++ b) =
    lex cc 0 (pos + cs.length) b := by
  induction cs with
  | nil => intro pos; simp
  | cons c cs ih =>
    intro pos
    simp only [List.length_cons, List.cons_append, lex]
    rw [ih]
    congr 1
    omega

theorem lex_blank {w : List Char} (hw : ∀ c ∈ w, cc.isSpace c = true) (b : List Char) :
    ∀ pos, lex cc 0 pos (w ++ b) = lex cc 0 (pos + w.length) b := by
  induction w with
  | nil => intro pos; simp
  | cons c w ih =>
    intro pos
    simp only [List.cons_append, lex, hw c (by simp), if_true]
    rw [ih (fun c hc => hw c (by simp [hc]))]
    congr 1
    simp; omega

theorem not_single {cc : CharClass} (hcc : cc.Lawful) {c : Char}
    (h : cc.isIdStart c = true ∨ cc.isIdCont c = true ∨ cc.isDigit c = true) :
    single c = none ∧ c ≠ '.' ∧ c ≠ '"' := by
  have key : ¬ (single c ≠ none ∨ c = '.' ∨ c = '"') := by
    intro hs
    obtain ⟨_, h2, h3, h4⟩ := hcc.special c hs
    rcases h with h | h | h
    · rw [h] at h3; cases h3
    · rw [h] at h4; cases h4
    · rw [h] at h2; cases h2
  push Not at key
  exact key

theorem lex_ident (hcc : cc.Lawful) {n : List Char} (hn : IsIdent cc n) {b : List Char}
    (hb : Stops cc b) (pos : Nat) :
    lex cc 0 pos (n ++ b) = ⟨pos, .identifier, n⟩ :: lex cc 0 (pos + n.length) b := by
  cases n with
  | nil => exact hn.elim
  | cons c cs =>
    obtain ⟨h1, h2⟩ := hn
    obtain ⟨hs, hd, hq⟩ := not_single hcc (.inl h1)
    have hsp := (hcc.start c h1).1
    have ha : asciiDigit c = false := by
      cases h : asciiDigit c with
      | false => rfl
      | true => have := (hcc.ascii c h).2.2.1; rw [h1] at this; cases this
    have ht : (cs ++ b).takeWhile cc.isIdCont = cs := by
      refine takeWhile_stop cs h2 ?_
      intro x b' e; subst e; exact hb.1
    simp only [List.cons_append, lex, hsp, hs, hd, ha, hq, h1, ht, if_true, if_false,
      Bool.false_eq_true]
    rw [lex_skip]
    simp only [List.length_cons]
    congr 2
    omega

theorem lex_number (hcc : cc.Lawful) {n : List Char} (hn : IsNumber cc n) {b : List Char}
    (hb : Stops cc b) (pos : Nat) :
    lex cc 0 pos (n ++ b) = ⟨pos, .digit, n⟩ :: lex cc 0 (pos + n.length) b := by
  cases n with
  | nil => exact hn.elim
  | cons c cs =>
    obtain ⟨h1, h2⟩ := hn
    have ha := hcc.ascii c h1
    obtain ⟨hs, hd, hq⟩ := not_single hcc (.inr (.inr ha.2.1))
    have ht : (cs ++ b).takeWhile cc.isDigit = cs := by
      refine takeWhile_stop cs h2 ?_
      intro x b' e; subst e; exact hb.2
    simp only [List.cons_append, lex, ha.1, hs, hd, h1, ht, if_true, if_false, Bool.false_eq_true]
    rw [lex_skip]
    simp only [List.length_cons]
    congr 2
    omega

theorem lex_single (hcc : cc.Lawful) {c : Char} {k : Kind} (h : single c = some k) (b : List Char)
    (pos : Nat) : lex cc 0 pos (c :: b) = ⟨pos, k, [c]⟩ :: lex cc 0 (pos + 1) b := by
  have := (hcc.special c (.inl (by rw [h]; simp))).1
  simp [lex, this, h]

theorem single_backslash {c : Char} (h : single c = some .backwardSlash) : c = '\\' := by
  have := (by decide : ∀ p ∈ singles, p.2 = .backwardSlash → p.1 = '\\') _ (single_mem h) rfl
  exact this

theorem single_bracket {c : Char} (h : single c = some .rightBracket) : c = ']' :=
  (by decide : ∀ p ∈ singles, p.2 = .rightBracket → p.1 = ']') _ (single_mem h) rfl

theorem single_not_eol {c : Char} : single c ≠ some .eol := fun h =>
  (by decide : ∀ p ∈ singles, p.2 ≠ .eol) _ (single_mem h) rfl

/-- A name-like character is harmless inside brackets. -/
theorem specOk_name (hcc : cc.Lawful) {c : Char} {cs : List Char}
    (h : cc.isIdCont c = true ∨ cc.isDigit c = true) (ho : SpecOk cc false (c :: cs)) :
    SpecOk cc false cs := by
  obtain ⟨hs, _, _⟩ := not_single (c := c) hcc (.inr h)
  have hsp : cc.isSpace c = false := by
    cases hx : cc.isSpace c with
    | false => rfl
    | true =>
      obtain ⟨a, b⟩ := hcc.space c hx
      rcases h with h | h
      · rw [h] at a; cases a
      · rw [h] at b; cases b
  have hb : c ≠ '\\' := by
    rintro rfl
    exact absurd hs (by decide)
  simp only [SpecOk, hsp, Bool.false_eq_true, if_false, hb] at ho
  exact ho.2.2

theorem takeWhile_le (p : Char → Bool) (cs b : List Char) (hb : ∀ c b', b = c :: b' → p c = false)
    (hne : b ≠ []) :
    ((cs ++ b).takeWhile p).length ≤ cs.length ∧
      ∀ x ∈ cs.take ((cs ++ b).takeWhile p).length, p x = true := by
  induction cs with
  | nil =>
    cases b with
    | nil => exact absurd rfl hne
    | cons c b => simp [hb c b rfl]
  | cons c cs ih =>
    simp only [List.cons_append, List.takeWhile_cons]
    cases hp : p c with
    | false => simp
    | true =>
      simp only [if_true, List.length_cons, List.take_succ_cons, List.mem_cons, forall_eq_or_imp]
      exact ⟨by omega, hp, ih.2⟩

theorem lex_spec (hcc : cc.Lawful) {b z : List Char} (hz : z = ']' :: b) : ∀ (spec : List Char) (e : Bool) (k pos : Nat),
    SpecOk cc e spec → k ≤ spec.length → (k ≠ 0 → e = false) →
    ((∀ x ∈ spec.take k, cc.isIdCont x = true) ∨ (∀ x ∈ spec.take k, cc.isDigit x = true)) →
    ∃ ts, lex cc k pos (spec ++ z) = ts ++ lex cc 0 (pos + spec.length) (z) ∧
      Body e ts
  | [], e, k, pos, ho, hk, _, _ => by
    simp only [List.length_nil, Nat.le_zero] at hk
    subst hk
    have : e = false := ho
    subst this
    exact ⟨[], by simp, .nil⟩
  | c :: cs, e, k + 1, pos, ho, hk, he, hx => by
    have he := he (by simp)
    subst he
    have ho' : SpecOk cc false cs := by
      refine specOk_name hcc ?_ ho
      rcases hx with hx | hx
      · exact .inl (hx c (by simp))
      · exact .inr (hx c (by simp))
    have hx' : (∀ x ∈ cs.take k, cc.isIdCont x = true) ∨ (∀ x ∈ cs.take k, cc.isDigit x = true) := by
      rcases hx with hx | hx
      · exact .inl fun x h => hx x (by simp [h])
      · exact .inr fun x h => hx x (by simp [h])
    obtain ⟨ts, h1, h2⟩ := lex_spec hcc hz cs false k (pos + 1) ho' (by simpa using hk) (fun _ => rfl) hx'
    refine ⟨ts, ?_, h2⟩
    simp only [List.cons_append, lex, List.length_cons]
    rw [h1]
    congr 2
    simp only [Nat.add_assoc, Nat.add_comm 1]
  | c :: cs, e, 0, pos, ho, _, _, _ => by
    have hq : c ≠ '"' := ho.1
    have hpos : pos + (c :: cs).length = pos + 1 + cs.length := by simp; omega
    rw [hpos]
    have close := hcc.special ']' (.inl (by decide))
    cases hsp : cc.isSpace c with
    | true =>
      have ho' : SpecOk cc e cs := by
        have := ho.2; simpa [hsp] using this
      obtain ⟨ts, h1, h2⟩ := lex_spec hcc hz cs e 0 (pos + 1) ho' (by simp) (by simp) (by simp)
      exact ⟨ts, by simp only [List.cons_append, lex, hsp, if_true]; rw [h1], h2⟩
    | false =>
      -- a token of kind `kd` starts at `c`; `m` further characters belong to it
      have emit : ∀ (t : Token) (m : Nat), t.kind ≠ .eol →
          (t.kind = .backwardSlash → c = '\\') → (t.kind = .rightBracket → c = ']') →
          (c = '\\' → t.kind = .backwardSlash) → (c = '\\' → m = 0) →
          m ≤ cs.length →
          ((∀ x ∈ cs.take m, cc.isIdCont x = true) ∨ (∀ x ∈ cs.take m, cc.isDigit x = true)) →
          ∃ ts, t :: lex cc m (pos + 1) (cs ++ z) =
            ts ++ lex cc 0 (pos + 1 + cs.length) (z) ∧ Body e ts := by
        intro t m h1 h2 h3 h4 h4' h5 h6
        have ho2 := ho.2
        simp only [hsp, Bool.false_eq_true, if_false] at ho2
        cases e with
        | true =>
          simp only [if_true] at ho2
          obtain ⟨ts, e1, e2⟩ := lex_spec hcc hz cs false m (pos + 1) ho2 h5 (fun _ => rfl) h6
          exact ⟨t :: ts, by rw [e1]; rfl, .escaped h1 e2⟩
        | false =>
          simp only [Bool.false_eq_true, if_false] at ho2
          by_cases hc : c = '\\'
          · rw [if_pos hc] at ho2
            have hm := h4' hc
            subst hm
            obtain ⟨ts, e1, e2⟩ := lex_spec hcc hz cs true 0 (pos + 1) ho2 (by simp) (by simp) (by simp)
            exact ⟨t :: ts, by rw [e1]; rfl, .escape (h4 hc) e2⟩
          · rw [if_neg hc] at ho2
            obtain ⟨ts, e1, e2⟩ := lex_spec hcc hz cs false m (pos + 1) ho2.2 h5 (fun _ => rfl) h6
            exact ⟨t :: ts, by rw [e1]; rfl, .plain (fun h => hc (h2 h)) (fun h => ho2.1 (h3 h)) h1 e2⟩
      simp only [List.cons_append, lex, hsp, Bool.false_eq_true, if_false]
      have hnb : single c = none → c ≠ '\\' := by rintro h rfl; exact absurd h (by decide)
      split
      · rename_i k hk
        refine emit _ 0 ?_ ?_ ?_ ?_ (fun _ => rfl) (by simp) (by simp)
        · intro h; dsimp only at h; subst h; exact single_not_eol hk
        · intro h; dsimp only at h; subst h; exact single_backslash hk
        · intro h; dsimp only at h; subst h; exact single_bracket hk
        · rintro rfl
          have : single '\\' = some .backwardSlash := by decide
          rw [this] at hk; simpa using hk.symm
      · rename_i hs
        have hnb := hnb hs
        split
        · refine emit _ 0 ?_ ?_ ?_ (fun h => absurd h hnb) (fun _ => rfl) (by simp) (by simp)
          all_goals (split <;> simp)
        · split
          · obtain ⟨l1, l2⟩ := takeWhile_le cc.isDigit cs z
              (by intro x b' h; rw [hz] at h; simp at h; rw [← h.1]; exact close.2.1) (by simp [hz])
            exact emit _ _ (by simp) (by simp) (by simp) (fun h => absurd h hnb)
              (fun h => absurd h hnb) l1 (.inr l2)
          · split
            · obtain ⟨l1, l2⟩ := takeWhile_le cc.isIdCont cs z
                (by intro x b' h; rw [hz] at h; simp at h; rw [← h.1]; exact close.2.2.2) (by simp [hz])
              exact emit _ _ (by simp) (by simp) (by simp) (fun h => absurd h hnb)
                (fun h => absurd h hnb) l1 (.inl l2)
            · exact emit _ 0 (by simp) (by simp) (by simp) (fun h => absurd h hnb) (fun _ => rfl)
                (by simp) (by simp)

/-! ### Printed selectors -/

theorem stops_special (hcc : cc.Lawful) {c : Char} (h : single c ≠ none) (b : List Char) :
    Stops cc (c :: b) := ⟨(hcc.special c (.inl h)).2.2.2, (hcc.special c (.inl h)).2.1⟩

theorem stops_blank (hcc : cc.Lawful) {w : List Char} (hw : ∀ c ∈ w, cc.isSpace c = true)
    {b : List Char} (hb : Stops cc b) : Stops cc (w ++ b) := by
  cases w with
  | nil => exact hb
  | cons c w => exact hcc.space c (hw c (by simp))

theorem slice_drop {pos : Nat} {a m b : List Char} (h : src.drop pos = a ++ m ++ b) :
    slice src (pos + a.length) (pos + a.length + m.length) = m := by
  unfold slice
  rw [← List.drop_drop, h]
  simp

theorem drop_append {pos : Nat} {a b : List Char} (h : src.drop pos = a ++ b) :
    src.drop (pos + a.length) = b := by
  rw [← List.drop_drop, h]; simp

section
variable (hcc : cc.Lawful) {w : List Char} (hw : ∀ c ∈ w, cc.isSpace c = true)
include hcc hw

mutual
theorem El.lexes : ∀ (e : El) {pos : Nat} {b : List Char}, e.Ok cc env → Stops cc b →
    src.drop pos = e.print w ++ b →
    ∃ ts, lex cc 0 pos (e.print w ++ b) = ts ++ lex cc 0 (pos + (e.print w).length) b ∧
      Frg env src ts (.one e)
  | .path n, pos, b, ho, hb, hs => by
    have hpos : pos + (w ++ n).length = pos + w.length + n.length := by simp; omega
    simp only [El.print, List.append_assoc] at hs ⊢
    rw [lex_blank hw]
    rcases ho with ho | ho
    · exact ⟨[⟨pos + w.length, .identifier, n⟩],
        by rw [lex_ident hcc ho hb, hpos]; rfl, .name (.inl rfl)⟩
    · exact ⟨[⟨pos + w.length, .digit, n⟩],
        by rw [lex_number hcc ho hb, hpos]; rfl, .name (.inr rfl)⟩
  | .wild false, pos, b, _, hb, hs => by
    simp only [El.print, List.append_assoc, List.cons_append, List.nil_append]
    rw [lex_blank hw, lex_single hcc (by decide : single '*' = some .asterisk)]
    exact ⟨[⟨pos + w.length, .asterisk, ['*']⟩], by simp [Nat.add_assoc], .star rfl⟩
  | .wild true, pos, b, _, hb, hs => by
    simp only [El.print, List.append_assoc, List.cons_append, List.nil_append]
    rw [lex_blank hw, lex_single hcc (by decide : single '*' = some .asterisk), lex_blank hw,
      lex_single hcc (by decide : single '*' = some .asterisk)]
    exact ⟨[⟨pos + w.length, .asterisk, ['*']⟩, ⟨pos + w.length + 1 + w.length, .asterisk, ['*']⟩],
      by simp only [List.length_append, List.length_cons, List.length_nil]
         simp only [List.cons_append, List.nil_append]
         congr 3; omega, .dstar rfl rfl⟩
  | .ext tag spec, pos, b, ho, hb, hs => by
    obtain ⟨h1, h2, h3⟩ := ho
    have hs' : src.drop pos = (w ++ '[' :: (w ++ tag ++ w ++ [':'])) ++ spec ++ (']' :: b) := by
      rw [hs]; simp [El.print]
    have hslice := slice_drop hs'
    simp only [El.print, List.append_assoc, List.cons_append, List.nil_append]
    rw [lex_blank hw, lex_single hcc (by decide : single '[' = some .leftBracket), lex_blank hw,
      lex_ident hcc h1 (stops_blank hcc hw (stops_special hcc (by decide) _)), lex_blank hw,
      lex_single hcc (by decide : single ':' = some .colon)]
    generalize hp1 : pos + w.length + 1 + w.length + tag.length + w.length = p1
    obtain ⟨ts, e1, e2⟩ := lex_spec hcc (b := b) rfl spec false 0 (p1 + 1) h2 (by simp) (by simp)
      (by simp)
    rw [e1, lex_single hcc (by decide : single ']' = some .rightBracket)]
    have hp1' : p1 + 1 = pos + (w ++ '[' :: (w ++ tag ++ w ++ [':'])).length := by
      rw [← hp1]
      simp only [List.length_append, List.length_cons, List.length_nil]
      omega
    have hacc : env.accepts tag (slice src (p1 + 1) (p1 + 1 + spec.length)) = true := by
      rw [hp1', hslice]; exact h3
    have hfrg := Frg.ext (env := env) (src := src)
      (l := ⟨pos + w.length, .leftBracket, ['[']⟩)
      (tag := ⟨pos + w.length + 1 + w.length, .identifier, tag⟩) (col := ⟨p1, .colon, [':']⟩)
      (r := ⟨p1 + 1 + spec.length, .rightBracket, [']']⟩) rfl rfl rfl e2 rfl hacc
    dsimp only at hfrg
    rw [hp1', hslice, ← hp1'] at hfrg
    refine ⟨_, ?_, hfrg⟩
    simp only [List.cons_append, List.append_assoc, List.nil_append]
    congr 6
    rw [← hp1]
    simp only [List.length_append, List.length_cons, List.length_nil]
    omega
  | .inv e, pos, b, ho, hb, hs => by
    have hs' : src.drop (pos + w.length + 1) = e.print w ++ b := by
      have h0 : src.drop pos = (w ++ ['~']) ++ (e.print w ++ b) := by rw [hs]; simp [El.print]
      have := drop_append h0
      simpa [Nat.add_assoc] using this
    obtain ⟨ts, e1, e2⟩ := El.lexes e ho.2 hb hs'
    simp only [El.print, List.append_assoc, List.cons_append]
    rw [lex_blank hw, lex_single hcc (by decide : single '~' = some .tilde), e1]
    refine ⟨⟨pos + w.length, .tilde, ['~']⟩ :: ts, ?_, .inv rfl e2 ho.1⟩
    simp only [List.cons_append, List.length_append, List.length_cons]
    congr 3
    omega
  | .multi as, pos, b, ho, hb, hs => by
    have hs' : src.drop (pos + w.length + 1) = as.print w ++ (w ++ '}' :: b) := by
      have h0 : src.drop pos = (w ++ ['{']) ++ (as.print w ++ (w ++ '}' :: b)) := by
        rw [hs]; simp [El.print]
      have := drop_append h0
      simpa [Nat.add_assoc] using this
    obtain ⟨ts, e1, e2⟩ := PAlts.lexes as ho
      (stops_blank hcc hw (stops_special hcc (by decide) b)) hs'
    simp only [El.print, List.append_assoc, List.cons_append, List.nil_append]
    rw [lex_blank hw, lex_single hcc (by decide : single '{' = some .leftBrace), e1, lex_blank hw,
      lex_single hcc (by decide : single '}' = some .rightBrace)]
    have hfrg := Frg.multi (env := env) (src := src)
      (l := ⟨pos + w.length, .leftBrace, ['{']⟩)
      (r := ⟨pos + w.length + 1 + (as.print w).length + w.length, .rightBrace, ['}']⟩) rfl e2 rfl
    refine ⟨_, ?_, hfrg⟩
    simp only [List.cons_append, List.append_assoc, List.nil_append, List.length_append,
      List.length_cons, List.length_nil]
    congr 4
    omega
theorem PSel.lexes : ∀ (s : PSel) {pos : Nat} {b : List Char}, s.Ok cc env → Stops cc b →
    src.drop pos = s.print w ++ b →
    ∃ ts, lex cc 0 pos (s.print w ++ b) = ts ++ lex cc 0 (pos + (s.print w).length) b ∧
      Slf env src ts s
  | .one e, pos, b, ho, hb, hs => by
    obtain ⟨ts, e1, e2⟩ := El.lexes e ho hb hs
    exact ⟨ts, e1, .last e2⟩
  | .cons e s, pos, b, ho, hb, hs => by
    have h0 : src.drop pos = e.print w ++ (w ++ '/' :: (s.print w ++ b)) := by
      rw [hs]; simp [PSel.print]
    obtain ⟨ts, e1, e2⟩ := El.lexes e ho.1
      (stops_blank hcc hw (stops_special hcc (by decide) (s.print w ++ b))) h0
    have h1 : src.drop (pos + (e.print w).length + w.length + 1) = s.print w ++ b := by
      have h0' : src.drop pos = (e.print w ++ w ++ ['/']) ++ (s.print w ++ b) := by
        rw [h0]; simp
      have := drop_append h0'
      simpa [Nat.add_assoc] using this
    obtain ⟨ts', f1, f2⟩ := PSel.lexes s ho.2 hb h1
    simp only [PSel.print, List.append_assoc, List.cons_append]
    rw [e1, lex_blank hw, lex_single hcc (by decide : single '/' = some .forwardSlash), f1]
    have := Slf.cons (t := ⟨pos + (e.print w).length + w.length, .forwardSlash, ['/']⟩) e2 rfl f2
    refine ⟨_, ?_, this⟩
    simp only [List.append_assoc, List.cons_append, List.length_append, List.length_cons]
    congr 4
    omega
theorem PAlts.lexes : ∀ (as : PAlts) {pos : Nat} {b : List Char}, as.Ok cc env → Stops cc b →
    src.drop pos = as.print w ++ b →
    ∃ ts, lex cc 0 pos (as.print w ++ b) = ts ++ lex cc 0 (pos + (as.print w).length) b ∧
      Alt env src ts as
  | .one s, pos, b, ho, hb, hs => by
    obtain ⟨ts, e1, e2⟩ := PSel.lexes s ho hb hs
    exact ⟨ts, e1, .last e2⟩
  | .cons s as, pos, b, ho, hb, hs => by
    have h0 : src.drop pos = s.print w ++ (w ++ ',' :: (as.print w ++ b)) := by
      rw [hs]; simp [PAlts.print]
    obtain ⟨ts, e1, e2⟩ := PSel.lexes s ho.1
      (stops_blank hcc hw (stops_special hcc (by decide) (as.print w ++ b))) h0
    have h1 : src.drop (pos + (s.print w).length + w.length + 1) = as.print w ++ b := by
      have h0' : src.drop pos = (s.print w ++ w ++ [',']) ++ (as.print w ++ b) := by
        rw [h0]; simp
      have := drop_append h0'
      simpa [Nat.add_assoc] using this
    obtain ⟨ts', f1, f2⟩ := PAlts.lexes as ho.2 hb h1
    simp only [PAlts.print, List.append_assoc, List.cons_append]
    rw [e1, lex_blank hw, lex_single hcc (by decide : single ',' = some .comma), f1]
    have := Alt.cons (t := ⟨pos + (s.print w).length + w.length, .comma, [',']⟩) e2 rfl f2
    refine ⟨_, ?_, this⟩
    simp only [List.append_assoc, List.cons_append, List.length_append, List.length_cons]
    congr 4
    omega
end
end

/-! ## Properties -/

/-- **C36.**  Writing a selector down and parsing the string gives the selector back: whatever blanks
`w` are put between the parts, and with or without a slash at either end.  The text inside
`[tag:...]` reaches the extension unchanged. -/
theorem parse_print (hcc : cc.Lawful) {w : List Char} (hw : ∀ c ∈ w, cc.isSpace c = true)
    (q : PSel) (hq : q.Ok cc env) (lead trail : Bool) :
    parse cc env ((if lead then ['/'] else []) ++ q.print w ++ (if trail then ['/'] else [])) =
      some q := by
  rw [parse_iff]
  generalize hsrc : (if lead then ['/'] else []) ++ q.print w ++ (if trail then ['/'] else []) = src
  generalize hl : (if lead = true then ['/'] else ([] : List Char)) = l at hsrc
  generalize ht : (if trail = true then ['/'] else ([] : List Char)) = t at hsrc
  have hdrop : src.drop l.length = q.print w ++ t := by rw [← hsrc]; simp
  have hstop : Stops cc t := by
    rw [← ht]
    cases trail
    · exact trivial
    · exact stops_special hcc (by decide) []
  obtain ⟨ts, e1, e2⟩ := PSel.lexes (env := env) (src := src) hcc hw q hq hstop hdrop
  -- the leading slash
  obtain ⟨pre, p1, p2⟩ : ∃ pre, lex cc 0 0 (l ++ (q.print w ++ t)) =
      pre ++ lex cc 0 l.length (q.print w ++ t) ∧ OptSlash pre := by
    cases lead with
    | false => simp at hl; subst hl; exact ⟨[], by simp, .inl rfl⟩
    | true =>
      simp at hl; subst hl
      refine ⟨[⟨0, .forwardSlash, ['/']⟩], ?_, .inr ⟨_, rfl, rfl⟩⟩
      rw [List.cons_append, List.nil_append,
        lex_single hcc (by decide : single '/' = some .forwardSlash)]
      rfl
  -- the trailing slash
  obtain ⟨post, e, q1, q2, q3⟩ : ∃ post e, lex cc 0 (l.length + (q.print w).length) t = post ++ [e] ∧
      OptSlash post ∧ e.kind = .eol := by
    cases trail with
    | false => simp at ht; subst ht; exact ⟨[], ⟨l.length + (q.print w).length, .eol, []⟩, by simp [lex], .inl rfl, rfl⟩
    | true =>
      simp at ht; subst ht
      refine ⟨[⟨l.length + (q.print w).length, .forwardSlash, ['/']⟩],
        ⟨l.length + (q.print w).length + 1, .eol, []⟩, ?_, .inr ⟨_, rfl, rfl⟩, rfl⟩
      rw [lex_single hcc (by decide : single '/' = some .forwardSlash)]
      simp [lex]
  refine ⟨pre, ts, post, e, ?_, q3, p2, q2, e2⟩
  rw [← hsrc, List.append_assoc, p1, e1, q1]
  simp

/-- **C36.**  A string is accepted exactly when it follows the query grammar, and then the result is
the selector the grammar assigns to it: everything else is rejected. -/
theorem parse_accepts_grammar (cc : CharClass) (env : Env) (src : List Char) :
    (∀ q, parse cc env src = some q ↔ Grammar cc env src q) ∧
    (parse cc env src = none ↔ ∀ q, ¬ Grammar cc env src q) := by
  refine ⟨parse_iff cc env src, ?_⟩
  constructor
  · intro h q hq
    rw [(parse_iff cc env src q).2 hq] at h
    cases h
  · intro h
    cases hp : parse cc env src with
    | none => rfl
    | some q => exact absurd ((parse_iff cc env src q).1 hp) (h q)

/-- **C36.**  `&name` stands for the selector the alias was given for, also at the head of a longer
query; an unknown alias is rejected. -/
theorem parse_alias (hcc : cc.Lawful) {w n : List Char} (hw : ∀ c ∈ w, cc.isSpace c = true)
    (hn : IsIdent cc n) :
    parse cc env (w ++ '&' :: (w ++ n)) = env.aliases n ∧
    ∀ t q, env.aliases n = some t → q.Ok cc env →
      parse cc env (w ++ '&' :: (w ++ n) ++ w ++ '/' :: q.print w) = some (t.append q) := by
  have hlex : ∀ b, Stops cc b → lex cc 0 0 (w ++ '&' :: (w ++ (n ++ b))) =
      [⟨w.length, .ampersand, ['&']⟩, ⟨w.length + 1 + w.length, .identifier, n⟩] ++
        lex cc 0 (w.length + 1 + w.length + n.length) b := by
    intro b hb
    rw [lex_blank hw, lex_single hcc (by decide : single '&' = some .ampersand), lex_blank hw,
      lex_ident hcc hn hb]
    simp
  constructor
  · have h0 := hlex [] trivial
    rw [List.append_nil] at h0
    cases ha : env.aliases n with
    | some t =>
      rw [parse_iff]
      refine ⟨[], [⟨w.length, .ampersand, ['&']⟩, ⟨w.length + 1 + w.length, .identifier, n⟩], [],
        ⟨w.length + 1 + w.length + n.length, .eol, []⟩, ?_, rfl, .inl rfl, .inl rfl,
        .last (.named rfl rfl ha)⟩
      rw [h0]; simp [lex]
    | none =>
      unfold parse
      rw [h0]
      simp [dropSlash, fuelFor, pSel, pFrag, pAlias, ha, lex]
  · intro t q ha hq
    rw [parse_iff]
    have h0 := hlex (w ++ '/' :: q.print w) (stops_blank hcc hw (stops_special hcc (by decide) _))
    generalize hsrc : w ++ '&' :: (w ++ n) ++ w ++ '/' :: q.print w = src
    have hsrc' : src = w ++ '&' :: (w ++ (n ++ (w ++ '/' :: q.print w))) := by rw [← hsrc]; simp
    have hdrop : src.drop (w.length + 1 + w.length + n.length + w.length + 1) = q.print w ++ [] := by
      have h1 : src.drop 0 = (w ++ '&' :: (w ++ n) ++ w ++ ['/']) ++ (q.print w ++ []) := by
        rw [← hsrc]; simp
      have := drop_append h1
      rw [← this]
      congr 1
      simp; omega
    obtain ⟨ts, e1, e2⟩ := PSel.lexes (env := env) (src := src) hcc hw q hq (b := []) trivial hdrop
    rw [List.append_nil] at e1
    refine ⟨[], _, [],
      ⟨w.length + 1 + w.length + n.length + w.length + 1 + (q.print w).length, .eol, []⟩, ?_, rfl,
      .inl rfl, .inl rfl,
      .cons (t := ⟨w.length + 1 + w.length + n.length + w.length, .forwardSlash, ['/']⟩)
        (.named (t := ⟨w.length, .ampersand, ['&']⟩)
          (n := ⟨w.length + 1 + w.length, .identifier, n⟩) rfl rfl ha) rfl e2⟩
    · rw [hsrc', h0, lex_blank hw, lex_single hcc (by decide : single '/' = some .forwardSlash), e1]
      simp [lex]

/-! ## Quoted strings -/

/-- No quote in the text ends the string, when `prev` is the character before it. -/
def Inside (prev : Char) : List Char → Prop
  | [] => prev ≠ '\\'
  | c :: l => (c = '"' → prev = '\\') ∧ Inside c l

theorem closing_inside : ∀ (body : List Char) (prev : Char) (b : List Char), Inside prev body →
    closingQuote prev (body ++ '"' :: b) = some (body.length + 1)
  | [], prev, b, h => by simp only [Inside] at h; simp [closingQuote, h]
  | c :: l, prev, b, h => by
    have hc : ¬ (c = '"' ∧ prev ≠ '\\') := fun hh => hh.2 (h.1 hh.1)
    simp only [List.cons_append, closingQuote, if_neg hc, closing_inside l c b h.2]
    rfl

/-- **C36.**  A quoted string, whatever brackets, slashes and escaped quotes are in it, is one token: it
ends at the first quote that no backslash precedes. -/
theorem quoted_is_one_token (hcc : cc.Lawful) {body b : List Char} (h : Inside '"' body) (pos : Nat) :
    lex cc 0 pos ('"' :: (body ++ '"' :: b)) =
      ⟨pos, .string, '"' :: (body ++ ['"'])⟩ :: lex cc 0 (pos + body.length + 2) b := by
  have hsp := (hcc.special '"' (.inr (.inr rfl))).1
  have hs : single '"' = none := by decide
  have hd : asciiDigit '"' = false := by decide
  have hsk := lex_skip (cc := cc) (body ++ ['"']) b (pos + 1)
  simp only [List.length_append, List.length_cons, List.length_nil, List.append_assoc, List.cons_append, List.nil_append] at hsk
  rw [lex]
  simp only [hsp, hs, hd, closing_inside body '"' b h]
  rw [hsk]
  have ht : (body ++ '"' :: b).take (body.length + 1) = body ++ ['"'] := by
    rw [List.take_append, List.take_of_length_le (by omega)]; simp
  simp [ht]
  congr 1
  omega

/-- Quotes and backslashes within a string. -/
example : Inside '"' "a\\\"]/b".toList := by
  show Inside '"' ['a', '\\', '"', ']', '/', 'b']
  simp [Inside]

/-! ## Concrete cases -/

/-- Python's character classes restricted to ASCII. -/
def ascii : CharClass where
  isSpace c := [' ', '\t', '\n', '\r'].contains c
  isDigit := asciiDigit
  isIdStart c := (c.isAlpha || c = '_')
  isIdCont c := (c.isAlpha || c = '_' || asciiDigit c)

example : ascii.Lawful := by
  refine ⟨?_, ?_, ?_, ?_⟩
  · intro c hc
    have : c ∈ '.' :: '"' :: singles.map Prod.fst := by
      rcases hc with h | rfl | rfl
      · cases hk : single c with
        | none => exact absurd hk h
        | some k =>
          have := List.mem_map_of_mem (f := Prod.fst) (single_mem hk)
          simp only [List.mem_cons]
          exact .inr (.inr this)
      · simp
      · simp
    clear hc
    revert c
    decide
  · intro c hc
    have : c ∈ ['0', '1', '2', '3', '4', '5', '6', '7', '8', '9'] := by
      simpa [asciiDigit] using hc
    clear hc
    revert c
    decide
  · intro c hc
    have hcont : ascii.isIdCont c = true := by
      simp only [ascii] at hc ⊢
      rw [hc]; rfl
    refine ⟨?_, hcont⟩
    cases hs : ascii.isSpace c with
    | false => rfl
    | true =>
      have : c ∈ [' ', '\t', '\n', '\r'] := by simpa [ascii] using hs
      have hno : ∀ c ∈ [' ', '\t', '\n', '\r'], ascii.isIdStart c = false := by decide
      rw [hno c this] at hc
      cases hc
  · intro c hc
    have : c ∈ [' ', '\t', '\n', '\r'] := by simpa [ascii] using hc
    clear hc
    revert c
    decide

/-- An environment with the extension `re`, accepting everything. -/
def demoEnv : Env where
  accepts tag _ := tag = ['r', 'e']
  aliases n := if n = ['q'] then some (.cons (.wild true) (.one (.path ['q']))) else none

/-- `layers/**/{q_proj,~[re:k\]]/0}`. -/
def demoQuery : PSel :=
  .cons (.path "layers".toList) (.cons (.wild true) (.one (.multi
    (.cons (.one (.path "q_proj".toList))
      (.one (.cons (.inv (.ext "re".toList "k\\]".toList)) (.one (.path "0".toList))))))))

example : demoQuery.Ok ascii demoEnv := by
  simp only [demoQuery, PSel.Ok, El.Ok, PAlts.Ok, El.Single, true_and]
  refine ⟨.inl ?_, .inl ?_, ⟨⟨?_, ?_⟩, ?_, ?_⟩, .inr ?_⟩
  · exact ⟨by decide, by decide⟩
  · exact ⟨by decide, by decide⟩
  · exact (by decide : ascii.isIdStart 'r' = true)
  · decide
  · simp [SpecOk, ascii]
  · decide
  · exact ⟨by decide, by decide⟩

example : demoQuery.print [' '] = " layers / * * / { q_proj , ~ [ re :k\\]] / 0 }".toList := by
  decide

/-- Malformed strings. -/
example : (["", "/", "a//b", "a/{b", "a/{b,}", "[re:x", "~{a,b}", "[zz:x]", "a b", "&zz", "***"].map
    (fun s => (parse ascii demoEnv s.toList).isNone)).all id = true := by
  decide +kernel

/-- A bracketed text with an unescaped `]` ends early, so it needs the escape. -/
example : (parse ascii demoEnv "[re:a]b]".toList).isNone = true := by decide +kernel

end FF.MParse
