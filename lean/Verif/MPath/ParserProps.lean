/-
Query strings parse to what they denote.
-/
import Verif.MPath.Parser
import Mathlib.Tactic.Common

namespace FF.MParse

/-! ## Specification -/

/-- What Python's character classes guarantee for the characters that matter here. -/
structure CharClass.Lawful (cc : CharClass) : Prop where
  special : ∀ c, (single c ≠ none ∨ c = '.' ∨ c = '"') →
    cc.isSpace c = false ∧ cc.isDigit c = false ∧ cc.isIdStart c = false ∧ cc.isIdCont c = false
  ascii : ∀ c, asciiDigit c = true →
    cc.isSpace c = false ∧ cc.isDigit c = true ∧ cc.isIdStart c = false ∧ cc.isIdCont c = true
  start : ∀ c, cc.isIdStart c = true → cc.isSpace c = false ∧ cc.isIdCont c = true
  space : ∀ c, cc.isSpace c = true → cc.isIdCont c = false ∧ cc.isDigit c = false

/-- An identifier. -/
def IsIdent (cc : CharClass) : List Char → Prop
  | [] => False
  | c :: cs => cc.isIdStart c = true ∧ ∀ x ∈ cs, cc.isIdCont x = true

/-- A number. -/
def IsNumber (cc : CharClass) : List Char → Prop
  | [] => False
  | c :: cs => asciiDigit c = true ∧ ∀ x ∈ cs, cc.isDigit x = true

/-- Text that may stand inside `[tag:...]`: no quotes, every `]` escaped by a backslash (which may
itself be escaped; blanks do not count), and no backslash that would escape the closing bracket. -/
def SpecOk (cc : CharClass) : (escaped : Bool) → List Char → Prop
  | e, [] => e = false
  | e, c :: cs =>
    c ≠ '"' ∧
    if cc.isSpace c then SpecOk cc e cs
    else if e then SpecOk cc false cs
    else if c = '\\' then SpecOk cc true cs
    else c ≠ ']' ∧ SpecOk cc false cs

/-- Not braces. -/
def El.Single : El → Prop
  | .multi _ => False
  | _ => True

mutual
/-- A fragment that can be written down. -/
def El.Ok (cc : CharClass) (env : Env) : El → Prop
  | .path n => IsIdent cc n ∨ IsNumber cc n
  | .wild _ => True
  | .ext tag spec => IsIdent cc tag ∧ SpecOk cc false spec ∧ env.accepts tag spec = true
  | .inv e => e.Single ∧ e.Ok cc env
  | .multi as => as.Ok cc env
/-- A selector that can be written down. -/
def PSel.Ok (cc : CharClass) (env : Env) : PSel → Prop
  | .one e => e.Ok cc env
  | .cons e s => e.Ok cc env ∧ s.Ok cc env
/-- Alternatives that can be written down. -/
def PAlts.Ok (cc : CharClass) (env : Env) : PAlts → Prop
  | .one s => s.Ok cc env
  | .cons s as => s.Ok cc env ∧ as.Ok cc env
end

mutual
/-- The query string of a fragment, with the blanks `w` before every token. -/
def El.print (w : List Char) : El → List Char
  | .path n => w ++ n
  | .wild false => w ++ ['*']
  | .wild true => w ++ '*' :: (w ++ ['*'])
  | .ext tag spec => w ++ '[' :: (w ++ tag ++ w ++ ':' :: (spec ++ [']']))
  | .inv e => w ++ '~' :: e.print w
  | .multi as => w ++ '{' :: (as.print w ++ w ++ ['}'])
/-- The query string of a selector. -/
def PSel.print (w : List Char) : PSel → List Char
  | .one e => e.print w
  | .cons e s => e.print w ++ w ++ '/' :: s.print w
/-- The query string of alternatives. -/
def PAlts.print (w : List Char) : PAlts → List Char
  | .one s => s.print w
  | .cons s as => s.print w ++ w ++ ',' :: as.print w
end

/-- Tokens inside `[tag:...]`: up to the first `]` that is not escaped. -/
inductive Body : Bool → List Token → Prop
  | nil : Body false []
  | escape {t ts} : t.kind = .backwardSlash → Body true ts → Body false (t :: ts)
  | plain {t ts} : t.kind ≠ .backwardSlash → t.kind ≠ .rightBracket → t.kind ≠ .eol →
      Body false ts → Body false (t :: ts)
  | escaped {t ts} : t.kind ≠ .eol → Body false ts → Body true (t :: ts)

mutual
/-- The grammar of fragments, over tokens. -/
inductive Frg (env : Env) (src : List Char) : List Token → PSel → Prop
  | name {t} : t.kind = .identifier ∨ t.kind = .digit → Frg env src [t] (.one (.path t.raw))
  | star {t} : t.kind = .asterisk → Frg env src [t] (.one (.wild false))
  | dstar {t u} : t.kind = .asterisk → u.kind = .asterisk → Frg env src [t, u] (.one (.wild true))
  | ext {l tag col body r} : l.kind = .leftBracket → tag.kind = .identifier → col.kind = .colon →
      Body false body → r.kind = .rightBracket →
      env.accepts tag.raw (slice src (col.pos + 1) r.pos) = true →
      Frg env src (l :: tag :: col :: (body ++ [r]))
        (.one (.ext tag.raw (slice src (col.pos + 1) r.pos)))
  | inv {t ts e} : t.kind = .tilde → Frg env src ts (.one e) → e.Single →
      Frg env src (t :: ts) (.one (.inv e))
  | named {t n s} : t.kind = .ampersand → n.kind = .identifier → env.aliases n.raw = some s →
      Frg env src [t, n] s
  | multi {l ts as r} : l.kind = .leftBrace → Alt env src ts as → r.kind = .rightBrace →
      Frg env src (l :: (ts ++ [r])) (.one (.multi as))
/-- The grammar of selectors: fragments separated by slashes. -/
inductive Slf (env : Env) (src : List Char) : List Token → PSel → Prop
  | last {ts s} : Frg env src ts s → Slf env src ts s
  | cons {ts s t ts' s'} : Frg env src ts s → t.kind = .forwardSlash → Slf env src ts' s' →
      Slf env src (ts ++ t :: ts') (s.append s')
/-- The grammar of alternatives: selectors separated by commas. -/
inductive Alt (env : Env) (src : List Char) : List Token → PAlts → Prop
  | last {ts s} : Slf env src ts s → Alt env src ts (.one s)
  | cons {ts s t ts' as} : Slf env src ts s → t.kind = .comma → Alt env src ts' as →
      Alt env src (ts ++ t :: ts') (.cons s as)
end

/-- At most one slash. -/
def OptSlash (ts : List Token) : Prop := ts = [] ∨ ∃ t, ts = [t] ∧ t.kind = .forwardSlash

/-- The grammar of query strings: a selector, optionally with a slash before and after it. -/
def Grammar (cc : CharClass) (env : Env) (src : List Char) (q : PSel) : Prop :=
  ∃ pre ts post e, lex cc 0 0 src = pre ++ ts ++ post ++ [e] ∧ e.kind = .eol ∧ OptSlash pre ∧
    OptSlash post ∧ Slf env src ts q

/-! ## Lemmas: the parser implements the grammar -/

variable {env : Env} {src : List Char}

/-- Every list of tokens handed around ends with its only end-of-line token. -/
def Ended (ts : List Token) : Prop :=
  ∃ a e, ts = a ++ [e] ∧ e.kind = .eol ∧ ∀ t ∈ a, t.kind ≠ .eol

theorem Ended.tail {t : Token} {ts} (h : Ended (t :: ts)) (ht : t.kind ≠ .eol) : Ended ts := by
  obtain ⟨a, e, h1, h2, h3⟩ := h
  cases a with
  | nil => simp at h1; rw [h1.1] at ht; exact absurd h2 ht
  | cons x a =>
    simp at h1
    exact ⟨a, e, h1.2, h2, fun t ht => h3 t (by simp [ht])⟩

theorem Ended.ne_nil {ts} (h : Ended ts) : ts ≠ [] := by
  obtain ⟨a, e, h1, _⟩ := h
  rw [h1]; simp

theorem Ended.append {pre ts : List Token} (h : Ended (pre ++ ts)) (hp : ∀ t ∈ pre, t.kind ≠ .eol) :
    Ended ts := by
  induction pre with
  | nil => exact h
  | cons t pre ih => exact ih (Ended.tail h (hp t (by simp))) (fun t ht => hp t (by simp [ht]))

theorem consumeUntil_sound : ∀ (ts : List Token) (e : Bool) {t r},
    consumeUntil e ts = some (t, r) →
    ∃ body, ts = body ++ t :: r ∧ Body e body ∧ t.kind = .rightBracket ∧
      ∀ x ∈ body, x.kind ≠ .eol
  | [], e, t, r, h => by simp [consumeUntil] at h
  | x :: ts, e, t, r, h => by
    unfold consumeUntil at h
    split at h
    · rename_i hx
      simp at h
      obtain ⟨rfl, rfl⟩ := h
      exact ⟨[], rfl, hx.2 ▸ .nil, hx.1, by simp⟩
    · rename_i h1
      split at h
      · simp at h
      · rename_i h2
        split at h
        · rename_i h3
          obtain ⟨b, e1, e2, e3, e4⟩ := consumeUntil_sound ts true h
          refine ⟨x :: b, by rw [e1]; rfl, ?_, e3, ?_⟩
          · rw [h3.2]; exact .escape h3.1 e2
          · intro y hy
            rcases List.mem_cons.1 hy with rfl | hy
            · exact h2
            · exact e4 y hy
        · rename_i h3
          obtain ⟨b, e1, e2, e3, e4⟩ := consumeUntil_sound ts false h
          refine ⟨x :: b, by rw [e1]; rfl, ?_, e3, ?_⟩
          · cases e with
            | false => exact .plain (fun hh => h3 ⟨hh, rfl⟩) (fun hh => h1 ⟨hh, rfl⟩) h2 e2
            | true => exact .escaped h2 e2
          · intro y hy
            rcases List.mem_cons.1 hy with rfl | hy
            · exact h2
            · exact e4 y hy

theorem consumeUntil_complete : ∀ (body : List Token) (e : Bool) {t r}, Body e body →
    t.kind = .rightBracket → consumeUntil e (body ++ t :: r) = some (t, r)
  | [], e, t, r, hb, ht => by
    cases hb
    simp [consumeUntil, ht]
  | x :: body, e, t, r, hb, ht => by
    cases hb with
    | escape h1 h2 =>
      simp only [List.cons_append, consumeUntil, h1]
      simpa using consumeUntil_complete body true h2 ht
    | plain h1 h2 h3 h4 =>
      simp only [List.cons_append, consumeUntil, h1, h2, h3]
      simpa using consumeUntil_complete body false h4 ht
    | escaped h1 h2 =>
      simp only [List.cons_append, consumeUntil, h1]
      simpa using consumeUntil_complete body false h2 ht

/-- What the parser functions guarantee when they succeed, for a given recursion depth. -/
structure SoundAt (env : Env) (src : List Char) (fuel : Nat) : Prop where
  frag : ∀ ts s r, Ended ts → pFrag env src fuel ts = some (s, r) →
    ∃ pre, ts = pre ++ r ∧ Frg env src pre s ∧ ∀ t ∈ pre, t.kind ≠ .eol
  sel : ∀ ts s r, Ended ts → pSel env src fuel ts = some (s, r) →
    ∃ pre post, ts = pre ++ post ++ r ∧ Slf env src pre s ∧ (∀ t ∈ pre ++ post, t.kind ≠ .eol) ∧
      OptSlash post ∧ (post ≠ [] → ∃ t r', r = t :: r' ∧ t.kind = .eol)
  alts : ∀ ts as r, Ended ts → pAlts env src fuel ts = some (as, r) →
    ∃ pre b, ts = pre ++ b :: r ∧ Alt env src pre as ∧ b.kind = .rightBrace ∧
      ∀ t ∈ pre, t.kind ≠ .eol

theorem invert_some {s t : PSel} (h : invert s = some t) :
    ∃ e, s = .one e ∧ e.Single ∧ t = .one (.inv e) := by
  cases s with
  | cons e s => simp [invert] at h
  | one e =>
    cases e <;> simp [invert] at h <;> exact ⟨_, rfl, trivial, h.symm⟩

theorem invert_single {e : El} (h : e.Single) : invert (.one e) = some (.one (.inv e)) := by
  cases e <;> first | rfl | exact absurd h (by simp [El.Single])

theorem soundAt : ∀ fuel, SoundAt env src fuel := by
  intro fuel
  induction fuel with
  | zero => exact ⟨by simp [pFrag], by simp [pSel], by simp [pAlts]⟩
  | succ fuel ih =>
    refine ⟨?_, ?_, ?_⟩
    · -- fragments
      intro ts s r hend h
      cases ts with
      | nil => exact absurd rfl hend.ne_nil
      | cons t ts =>
        unfold pFrag at h
        split at h
        · -- extension
          rename_i hk
          have hend' := hend.tail (by rw [hk]; simp)
          unfold pExt at h
          split at h
          · rename_i tag col ts'
            split at h
            · rename_i hkk
              split at h
              · rename_i rb r' hcu
                split at h
                · rename_i hacc
                  simp at h
                  obtain ⟨rfl, rfl⟩ := h
                  obtain ⟨body, e1, e2, e3, e4⟩ := consumeUntil_sound _ _ hcu
                  refine ⟨t :: tag :: col :: (body ++ [rb]), by rw [e1]; simp,
                    .ext hk hkk.1 hkk.2 e2 e3 hacc, ?_⟩
                  intro x hx
                  simp only [List.mem_cons, List.mem_append, List.not_mem_nil, or_false] at hx
                  rcases hx with rfl | rfl | rfl | hx | rfl
                  · rw [hk]; simp
                  · rw [hkk.1]; simp
                  · rw [hkk.2]; simp
                  · exact e4 x hx
                  · rw [e3]; simp
                · simp at h
              · simp at h
            · simp at h
          · simp at h
        · rename_i hk
          simp at h
          obtain ⟨rfl, rfl⟩ := h
          exact ⟨[t], rfl, .name (.inr hk), by simp [hk]⟩
        · rename_i hk
          simp at h
          obtain ⟨rfl, rfl⟩ := h
          exact ⟨[t], rfl, .name (.inl hk), by simp [hk]⟩
        · rename_i hk
          split at h
          · rename_i t2 ts2
            split at h
            · rename_i hk2
              simp at h
              obtain ⟨rfl, rfl⟩ := h
              exact ⟨[t, t2], rfl, .dstar hk hk2, by simp [hk, hk2]⟩
            · simp at h
              obtain ⟨rfl, rfl⟩ := h
              exact ⟨[t], rfl, .star hk, by simp [hk]⟩
          · simp at h
        · rename_i hk
          simp only [Option.map_eq_some_iff] at h
          obtain ⟨⟨as, r'⟩, h1, h2⟩ := h
          simp at h2
          obtain ⟨rfl, rfl⟩ := h2
          obtain ⟨pre, b, e1, e2, e3, e4⟩ := ih.alts ts as _ (hend.tail (by rw [hk]; simp)) h1
          refine ⟨t :: (pre ++ [b]), by rw [e1]; simp, .multi hk e2 e3, ?_⟩
          intro x hx
          simp only [List.mem_cons, List.mem_append, List.not_mem_nil, or_false] at hx
          rcases hx with rfl | hx | rfl
          · rw [hk]; simp
          · exact e4 x hx
          · rw [e3]; simp
        · rename_i hk
          simp only [Option.bind_eq_some_iff, Option.map_eq_some_iff] at h
          obtain ⟨⟨s', r'⟩, h1, s'', h2, h3⟩ := h
          simp at h3
          obtain ⟨rfl, rfl⟩ := h3
          obtain ⟨e, rfl, he, rfl⟩ := invert_some h2
          obtain ⟨pre, e1, e2, e3⟩ := ih.frag ts _ _ (hend.tail (by rw [hk]; simp)) h1
          refine ⟨t :: pre, by rw [e1]; rfl, .inv hk e2 he, ?_⟩
          intro x hx
          rcases List.mem_cons.1 hx with rfl | hx
          · rw [hk]; simp
          · exact e3 x hx
        · rename_i hk
          cases ts with
          | nil => simp [pAlias] at h
          | cons n ts =>
            simp only [pAlias] at h
            split at h
            · rename_i hn
              simp only [Option.map_eq_some_iff] at h
              obtain ⟨s', h1, h2⟩ := h
              simp at h2
              obtain ⟨rfl, rfl⟩ := h2
              exact ⟨[t, n], rfl, .named hk hn h1, by simp [hk, hn]⟩
            · simp at h
        · simp at h
    · -- selectors
      intro ts s r hend h
      unfold pSel at h
      simp only [Option.bind_eq_some_iff] at h
      obtain ⟨⟨s1, r1⟩, h1, h2⟩ := h
      obtain ⟨pre, e1, e2, e3⟩ := ih.frag ts s1 r1 hend h1
      have hend1 : Ended r1 := Ended.append (e1 ▸ hend) e3
      have done : (s1, r1) = (s, r) → ∃ pre post, ts = pre ++ post ++ r ∧ Slf env src pre s ∧
          (∀ t ∈ pre ++ post, t.kind ≠ .eol) ∧ OptSlash post ∧
          (post ≠ [] → ∃ t r', r = t :: r' ∧ t.kind = .eol) := by
        intro e
        simp at e
        obtain ⟨rfl, rfl⟩ := e
        exact ⟨pre, [], by simpa using e1, .last e2, by simpa using e3, .inl rfl, by simp⟩
      dsimp only at h2
      split at h2
      · rename_i t t2 ts2
        split at h2
        · rename_i hk
          split at h2
          · rename_i hk2
            simp at h2
            obtain ⟨rfl, rfl⟩ := h2
            refine ⟨pre, [t], by rw [e1]; simp, .last e2, ?_, .inr ⟨t, rfl, hk⟩,
              fun _ => ⟨t2, ts2, rfl, hk2⟩⟩
            intro x hx
            rcases List.mem_append.1 hx with hx | hx
            · exact e3 x hx
            · simp at hx; rw [hx, hk]; simp
          · simp only [Option.map_eq_some_iff] at h2
            obtain ⟨⟨s2, r2⟩, h3, h4⟩ := h2
            simp at h4
            obtain ⟨rfl, rfl⟩ := h4
            obtain ⟨pre', post', f1, f2, f3, f4, f5⟩ :=
              ih.sel _ s2 r2 (hend1.tail (by rw [hk]; simp)) h3
            refine ⟨pre ++ t :: pre', post', by rw [e1, f1]; simp, .cons e2 hk f2, ?_, f4, f5⟩
            intro x hx
            simp only [List.mem_append, List.mem_cons, or_assoc] at hx
            rcases hx with hx | rfl | hx
            · exact e3 x hx
            · rw [hk]; simp
            · exact f3 x (by simpa using hx)
        · exact done (by simpa using h2)
      · exact done (by simpa using h2)
    · -- alternatives
      intro ts as r hend h
      unfold pAlts at h
      simp only [Option.bind_eq_some_iff] at h
      obtain ⟨⟨s1, r1⟩, h1, h2⟩ := h
      obtain ⟨pre, post, e1, e2, e3, e4, e5⟩ := ih.sel ts s1 r1 hend h1
      have hend1 : Ended r1 := Ended.append (by rw [← e1]; exact hend) e3
      dsimp only at h2
      split at h2
      · simp at h2
      · rename_i t ts2
        have hpost : t.kind ≠ .eol → post = [] := by
          intro ht
          by_contra hne
          obtain ⟨t', r', ee, hk⟩ := e5 hne
          simp at ee
          rw [ee.1] at ht; exact ht hk
        split at h2
        · rename_i hk
          have := hpost (by rw [hk]; simp)
          subst this
          simp only [Option.map_eq_some_iff] at h2
          obtain ⟨⟨as', r2⟩, h3, h4⟩ := h2
          simp at h4
          obtain ⟨rfl, rfl⟩ := h4
          obtain ⟨pre', b, f1, f2, f3, f4⟩ := ih.alts _ as' r2 (hend1.tail (by rw [hk]; simp)) h3
          refine ⟨pre ++ t :: pre', b, by rw [e1, f1]; simp, .cons e2 hk f2, f3, ?_⟩
          intro x hx
          simp only [List.mem_append, List.mem_cons] at hx
          rcases hx with hx | rfl | hx
          · exact e3 x (by simp [hx])
          · rw [hk]; simp
          · exact f4 x hx
        · split at h2
          · rename_i hk
            have := hpost (by rw [hk]; simp)
            subst this
            simp at h2
            obtain ⟨rfl, rfl⟩ := h2
            exact ⟨pre, t, by rw [e1]; simp, .last e2, hk, fun x hx => e3 x (by simp [hx])⟩
          · simp at h2

/-- What may follow a fragment: anything but an asterisk. -/
def NoAsterisk (r : List Token) : Prop := ∃ t r', r = t :: r' ∧ t.kind ≠ .asterisk

/-- The parser functions find whatever the grammar allows, for token lists shorter than `n`. -/
structure CompleteAt (env : Env) (src : List Char) (n : Nat) : Prop where
  frag : ∀ ts s r fuel, ts.length < n → 3 * ts.length ≤ fuel → Frg env src ts s → NoAsterisk r →
    pFrag env src fuel (ts ++ r) = some (s, r)
  sel : ∀ ts s t r fuel, ts.length < n → 3 * ts.length + 1 ≤ fuel → Slf env src ts s →
    t.kind ≠ .asterisk → t.kind ≠ .forwardSlash →
    pSel env src fuel (ts ++ t :: r) = some (s, t :: r)
  alts : ∀ ts as b r fuel, ts.length < n → 3 * ts.length + 2 ≤ fuel → Alt env src ts as →
    b.kind = .rightBrace → pAlts env src fuel (ts ++ b :: r) = some (as, r)
  pos : ∀ ts s, Frg env src ts s → ts ≠ []

theorem frg_ne_nil {ts s} (h : Frg env src ts s) : ts ≠ [] := by
  cases h <;> simp

theorem slf_head {ts s} (h : Slf env src ts s) : ∃ t ts', ts = t :: ts' ∧ t.kind ≠ .eol := by
  have frg : ∀ {ts s}, Frg env src ts s → ∃ t ts', ts = t :: ts' ∧ t.kind ≠ .eol := by
    intro ts s h
    cases h with
    | name h => exact ⟨_, _, rfl, by rcases h with h | h <;> rw [h] <;> simp⟩
    | star h => exact ⟨_, _, rfl, by rw [h]; simp⟩
    | dstar h _ => exact ⟨_, _, rfl, by rw [h]; simp⟩
    | ext h _ _ _ _ _ => exact ⟨_, _, rfl, by rw [h]; simp⟩
    | inv h _ _ => exact ⟨_, _, rfl, by rw [h]; simp⟩
    | named h _ _ => exact ⟨_, _, rfl, by rw [h]; simp⟩
    | multi h _ _ => exact ⟨_, _, rfl, by rw [h]; simp⟩
  cases h with
  | last h => exact frg h
  | cons h _ _ =>
    obtain ⟨t, ts', rfl, hk⟩ := frg h
    exact ⟨t, _, rfl, hk⟩

theorem completeAt : ∀ n, CompleteAt env src n := by
  intro n
  induction n with
  | zero => exact ⟨by simp, by simp, by simp, fun _ _ h => frg_ne_nil h⟩
  | succ n ih =>
    have hfrag : ∀ ts s r fuel, ts.length < n + 1 → 3 * ts.length ≤ fuel → Frg env src ts s →
        NoAsterisk r → pFrag env src fuel (ts ++ r) = some (s, r) := by
      intro ts s r fuel hn hf h hr
      obtain ⟨f, rfl⟩ : ∃ f, fuel = f + 1 := by
        have : 0 < ts.length := List.length_pos_iff.2 (frg_ne_nil h)
        exact ⟨fuel - 1, by omega⟩
      cases h with
      | @name t h => rcases h with h | h <;> simp [pFrag, h]
      | @star t h =>
        obtain ⟨u, r', rfl, hu⟩ := hr
        simp [pFrag, h, hu]
      | @dstar t u h hu => simp [pFrag, h, hu]
      | @ext l tag col body rb h1 h2 h3 h4 h5 h6 =>
        simp only [List.cons_append, pFrag, h1, pExt, h2, h3, and_self, if_true, List.append_assoc]
        rw [List.nil_append, consumeUntil_complete body false h4 h5]
        simp [h6]
      | @inv t ts e h1 h2 h3 =>
        simp only [List.length_cons] at hn hf
        simp only [List.cons_append, pFrag, h1]
        rw [ih.frag ts _ r f (by omega) (by omega) h2 hr]
        simp [invert_single h3]
      | @named t nm s h1 h2 h3 => simp [pFrag, h1, pAlias, h2, h3]
      | @multi l ts as rb h1 h2 h3 =>
        simp only [List.length_cons, List.length_append, List.length_nil] at hn hf
        simp only [List.cons_append, pFrag, h1, List.append_assoc, List.nil_append]
        rw [ih.alts ts as rb r f (by omega) (by omega) h2 h3]
        rfl
    have hsel : ∀ ts s t r fuel, ts.length < n + 1 → 3 * ts.length + 1 ≤ fuel → Slf env src ts s →
        t.kind ≠ .asterisk → t.kind ≠ .forwardSlash →
        pSel env src fuel (ts ++ t :: r) = some (s, t :: r) := by
      intro ts s t r fuel hn hf h ht1 ht2
      obtain ⟨f, rfl⟩ : ∃ f, fuel = f + 1 := ⟨fuel - 1, by omega⟩
      cases h with
      | last h =>
        unfold pSel
        rw [hfrag ts s (t :: r) f hn (by omega) h ⟨t, r, rfl, ht1⟩]
        simp only [Option.bind_some]
        cases r with
        | nil => rfl
        | cons t2 r => simp [ht2]
      | @cons ts1 s1 u ts2 s2 h1 h2 h3 =>
        simp only [List.length_append, List.length_cons] at hn hf
        have hpos : 0 < ts1.length := List.length_pos_iff.2 (frg_ne_nil h1)
        obtain ⟨v, ts2', e, hv⟩ := slf_head h3
        unfold pSel
        rw [List.append_assoc, List.cons_append,
          hfrag ts1 s1 (u :: (ts2 ++ t :: r)) f (by omega) (by omega) h1 ⟨u, _, rfl, by rw [h2]; simp⟩]
        simp only [Option.bind_some]
        have := ih.sel ts2 s2 t r f (by omega) (by omega) h3 ht1 ht2
        rw [e] at this ⊢
        simp only [List.cons_append] at this ⊢
        rw [if_pos h2, if_neg hv, this]
        rfl
    refine ⟨hfrag, hsel, ?_, fun _ _ h => frg_ne_nil h⟩
    intro ts as b r fuel hn hf h hb
    obtain ⟨f, rfl⟩ : ∃ f, fuel = f + 1 := ⟨fuel - 1, by omega⟩
    cases h with
    | last h =>
      unfold pAlts
      rw [hsel ts _ b r f hn (by omega) h (by rw [hb]; simp) (by rw [hb]; simp)]
      simp [hb]
    | @cons ts1 s1 u ts2 as2 h1 h2 h3 =>
      simp only [List.length_append, List.length_cons] at hn hf
      unfold pAlts
      rw [List.append_assoc, List.cons_append,
        hsel ts1 s1 u (ts2 ++ b :: r) f (by omega) (by omega) h1 (by rw [h2]; simp) (by rw [h2]; simp)]
      simp only [Option.bind_some, h2]
      have hl : ts1.length ≠ 0 := by
        obtain ⟨_, _, e, _⟩ := slf_head h1
        rw [e]; simp
      have hl' : ts2.length < n := by omega
      rw [if_pos trivial, ih.alts ts2 as2 b r f hl' (by omega) h3 hb]
      rfl

theorem lookup_mem {α β : Type} [BEq α] [LawfulBEq α] {a : α} {b : β} :
    ∀ {l : List (α × β)}, l.lookup a = some b → (a, b) ∈ l
  | [], h => by simp at h
  | (x, y) :: l, h => by
    rw [List.lookup_cons] at h
    split at h
    · rename_i hx
      simp at hx h
      subst hx; subst h; simp
    · exact List.mem_cons_of_mem _ (lookup_mem h)

theorem single_mem {c : Char} {k : Kind} (h : single c = some k) : (c, k) ∈ singles :=
  lookup_mem h

theorem lex_ended (cc : CharClass) : ∀ (cs : List Char) (k p : Nat), Ended (lex cc k p cs)
  | [], k, p => ⟨[], ⟨p, .eol, []⟩, by cases k <;> simp [lex], rfl, by simp⟩
  | c :: cs, k + 1, p => by
    simp only [lex]; exact lex_ended cc cs k (p + 1)
  | c :: cs, 0, p => by
    have cons : ∀ (t : Token) (ts : List Token), t.kind ≠ .eol → Ended ts → Ended (t :: ts) := by
      rintro t ts ht ⟨a, e, h1, h2, h3⟩
      refine ⟨t :: a, e, by rw [h1]; rfl, h2, ?_⟩
      intro x hx
      rcases List.mem_cons.1 hx with rfl | hx
      · exact ht
      · exact h3 x hx
    have hs : ∀ k, single c = some k → k ≠ .eol := by
      intro k hk
      exact (by decide : ∀ p ∈ singles, p.2 ≠ .eol) _ (single_mem hk)
    unfold lex
    split
    · exact lex_ended cc cs _ _
    · split
      · rename_i k hk
        exact cons _ _ (hs k hk) (lex_ended cc cs _ _)
      · split
        · refine cons _ _ ?_ (lex_ended cc cs _ _)
          split <;> simp
        · split
          · exact cons _ _ (by simp) (lex_ended cc cs _ _)
          · split
            · split
              · exact cons _ _ (by simp) (lex_ended cc cs _ _)
              · exact cons _ _ (by simp) (cons _ _ (by simp) (lex_ended cc cs _ _))
            · split
              · exact cons _ _ (by simp) (lex_ended cc cs _ _)
              · exact cons _ _ (by simp) (lex_ended cc cs _ _)

/-- A trailing slash before the end of the query is skipped. -/
theorem sel_trailing {ts : List Token} {s : PSel} {x e : Token} (h : Slf env src ts s)
    (hx : x.kind = .forwardSlash) (he : e.kind = .eol) :
    ∀ fuel, 3 * ts.length + 1 ≤ fuel → pSel env src fuel (ts ++ [x, e]) = some (s, [e]) := by
  generalize hn : ts.length = n
  induction n using Nat.strongRecOn generalizing ts s with
  | ind n ih =>
    subst hn
    intro fuel hf
    obtain ⟨f, rfl⟩ : ∃ f, fuel = f + 1 := ⟨fuel - 1, by omega⟩
    have hx' : x.kind ≠ .asterisk := by rw [hx]; simp
    cases h with
    | last h =>
      unfold pSel
      rw [(completeAt (env := env) (src := src) (ts.length + 1)).frag ts s [x, e] f (by omega)
        (by omega) h ⟨x, [e], rfl, hx'⟩]
      simp [hx, he]
    | @cons ts1 s1 u ts2 s2 h1 h2 h3 =>
      have hpos : 0 < ts1.length := List.length_pos_iff.2 (frg_ne_nil h1)
      simp only [List.length_append, List.length_cons] at hf
      obtain ⟨v, ts2', e', hv⟩ := slf_head h3
      have := ih ts2.length (by simp; omega) h3 rfl f (by omega)
      unfold pSel
      rw [List.append_assoc, List.cons_append,
        (completeAt (env := env) (src := src) (ts1.length + 1)).frag ts1 s1 _ f (by omega) (by omega)
          h1 ⟨u, _, rfl, by rw [h2]; simp⟩]
      simp only [Option.bind_some]
      rw [e'] at this ⊢
      simp only [List.cons_append] at this ⊢
      rw [if_pos h2, if_neg hv, this]
      rfl

/-- `parse` accepts exactly the grammar. -/
theorem parse_iff (cc : CharClass) (env : Env) (src : List Char) (q : PSel) :
    parse cc env src = some q ↔ Grammar cc env src q := by
  have hend : Ended (lex cc 0 0 src) := lex_ended cc src 0 0
  -- splitting off a leading slash
  obtain ⟨pre, hpre, hopt, hne⟩ : ∃ pre, lex cc 0 0 src = pre ++ dropSlash (lex cc 0 0 src) ∧
      OptSlash pre ∧ ∀ t ∈ pre, t.kind ≠ .eol := by
    unfold dropSlash
    split
    · rename_i t ts h
      split
      · rename_i hk
        exact ⟨[t], h, .inr ⟨t, rfl, hk⟩, by simp [hk]⟩
      · exact ⟨[], h, .inl rfl, by simp⟩
    · rename_i h
      exact ⟨[], h, .inl rfl, by simp⟩
  have hend' : Ended (dropSlash (lex cc 0 0 src)) := Ended.append (hpre ▸ hend) hne
  constructor
  · intro h
    unfold parse at h
    dsimp only at h
    split at h
    · rename_i s t r hsel
      split at h
      · rename_i hk
        simp at h
        subst h
        obtain ⟨p1, p2, e1, e2, e3, e4, e5⟩ := (soundAt _).sel _ _ _ hend' hsel
        have hr : Ended (t :: r) := Ended.append (by rw [← e1]; exact hend') e3
        obtain ⟨a, e, f1, f2, f3⟩ := hr
        have ha : a = [] := by
          cases a with
          | nil => rfl
          | cons x a =>
            simp at f1
            exact absurd hk (by rw [f1.1]; exact f3 x (by simp))
        subst ha
        refine ⟨pre, p1, p2, e, ?_, f2, hopt, e4, e2⟩
        rw [hpre, e1, f1]; simp
      · simp at h
    · simp at h
  · rintro ⟨pre', ts, post, e, h1, h2, h3, h4, h5⟩
    obtain ⟨t, ts', ets, htk⟩ := slf_head h5
    have hfirst : t.kind ≠ .forwardSlash := by
      have : ∀ {ts s}, Frg env src ts s → ∀ t ts', ts = t :: ts' → t.kind ≠ .forwardSlash := by
        intro ts s h
        cases h with
        | name h => intro t ts' e; simp at e; rw [← e.1]; rcases h with h | h <;> rw [h] <;> simp
        | star h => intro t ts' e; simp at e; rw [← e.1, h]; simp
        | dstar h _ => intro t ts' e; simp at e; rw [← e.1, h]; simp
        | ext h _ _ _ _ _ => intro t ts' e; simp at e; rw [← e.1, h]; simp
        | inv h _ _ => intro t ts' e; simp at e; rw [← e.1, h]; simp
        | named h _ _ => intro t ts' e; simp at e; rw [← e.1, h]; simp
        | multi h _ _ => intro t ts' e; simp at e; rw [← e.1, h]; simp
      cases h5 with
      | last h => exact this h t ts' ets
      | @cons ts1 _ _ _ _ h _ _ =>
        cases ts1 with
        | nil => exact absurd rfl (frg_ne_nil h)
        | cons x ts1 =>
          simp at ets
          rw [← ets.1]
          exact this h x ts1 rfl
    have hdrop : dropSlash (lex cc 0 0 src) = ts ++ post ++ [e] := by
      rw [h1]
      rcases h3 with rfl | ⟨x, rfl, hx⟩
      · rw [ets]; simp [dropSlash, hfirst]
      · simp [dropSlash, hx]
    have hlen : 3 * ts.length + 1 ≤ fuelFor (ts ++ post ++ [e]) := by
      simp [fuelFor]; omega
    unfold parse
    dsimp only
    rw [hdrop]
    rcases h4 with rfl | ⟨x, rfl, hx⟩
    · have := (completeAt (env := env) (src := src) (ts.length + 1)).sel ts q e []
        (fuelFor (ts ++ [] ++ [e])) (by omega) hlen h5 (by rw [h2]; simp) (by rw [h2]; simp)
      simp only [List.append_nil] at this ⊢
      rw [this]
      simp [h2]
    · have := sel_trailing h5 hx h2 (fuelFor (ts ++ [x] ++ [e])) (by simp [fuelFor]; omega)
      simp only [List.append_assoc, List.cons_append, List.nil_append] at this ⊢
      rw [this]
      simp [h2]

end FF.MParse
