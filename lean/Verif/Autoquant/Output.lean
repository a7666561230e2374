/-!
# From generated code to files and modules

Models `autoquantize` (`src/fastforward/autoquant.py:91-146`) behind the generation of code: `SubprocessCodeFormatter.format`
(`src/fastforward/_autoquant/pybuilder/formatter.py:23-47`), `emit_code_of_module` (`src/fastforward/_autoquant/autoquant.py:432-454`), `FileWriter.write` (`writer.py:66-73`)
and `import_code` (`importing.py:14-24`).

Simplifications: a command is a function from its input to its exit code and output; the generated code is given; a writer is a list of what is written to it; a path comes with
the module name for it; directories are left out.
-/

namespace FF.Output

/-! ## Model -/

variable {T P N : Type} [DecidableEq P] [DecidableEq N]

/-- A command (formatter.py:33-40): exit code and output for each input. -/
abbrev Tool (T : Type) := T → Int × T

/-- `format` (formatter.py:30-47): the inputs of the commands that are run, and the code; `none`: `RuntimeError`. -/
def format : List (Tool T) → T → List T × Option T
  | [], c => ([], some c)
  | t :: ts, c => if (t c).1 ≠ 0 then ([c], none) else (c :: (format ts (t c).2).1, (format ts (t c).2).2)

/-- Files, imported modules by the code they are made from, and what was written to the writer. -/
structure World (T P N : Type) where
  files : P → Option T
  mods : N → Option T
  sent : List T

/-- The arguments of `autoquantize`. -/
structure Request (P N : Type) where
  output : Option (P × N)
  writer : Option N
  force : Bool
  autoImport : Bool

inductive Err where
  | generation
  | format
  | value
  | exists
  | import
  deriving DecidableEq, Repr

/-- `emit_code_of_module` (autoquant.py:432-454) and `FileWriter.write` (writer.py:66-73). -/
def emit (w : World T P N) (r : Request P N) (c : T) : World T P N × Except Err N :=
  match r.output, r.writer with
  | none, none => (w, .error .value)
  | some _, some _ => (w, .error .value)
  | none, some n => if r.force then (w, .error .value) else ({ w with sent := w.sent ++ [c] }, .ok n)
  | some (p, n), none =>
    if (w.files p).isSome && !r.force then (w, .error .exists) else ({ w with files := fun q => if q = p then some c else w.files q }, .ok n)

/-- `import_code` (importing.py:14-24); `runs`: the code runs without an exception. -/
def importCode (runs : T → Bool) (w : World T P N) (c : T) (n : N) : World T P N × Except Err T :=
  if runs c then ({ w with mods := fun m => if m = n then some c else w.mods m }, .ok c) else (w, .error .import)

/-- `autoquantize` (autoquant.py:123-146), with the generated code: the code, the code of the imported module, and the name. -/
def autoquantize (gen : Option T) (tools : List (Tool T)) (runs : T → Bool) (w : World T P N) (r : Request P N) : World T P N × Except Err (T × Option T × N) :=
  match gen with
  | none => (w, .error .generation)
  | some g => match (format tools g).2 with
    | none => (w, .error .format)
    | some c => match emit w r c with
      | (w1, .error e) => (w1, .error e)
      | (w1, .ok n) =>
        if r.autoImport then match importCode runs w1 c n with
          | (w2, .error e) => (w2, .error e)
          | (w2, .ok m) => (w2, .ok (c, some m, n))
        else (w1, .ok (c, none, n))

/-! ## Specification -/

/-- Each command succeeds, and its output is the input of the next. -/
inductive Through : List (Tool T) → T → T → Prop
  | done (c : T) : Through [] c c
  | next (t : Tool T) (ts : List (Tool T)) (c d : T) (h : (t c).1 = 0) (hd : Through ts (t c).2 d) : Through (t :: ts) c d

/-- Where the code goes is given, once, and nothing is in the way. -/
def Placed (w : World T P N) (r : Request P N) : Prop :=
  (∃ p n, r.output = some (p, n) ∧ r.writer = none ∧ (r.force = true ∨ w.files p = none)) ∨ ∃ n, r.output = none ∧ r.writer = some n ∧ r.force = false

/-! ## Lemmas -/

theorem format_iff (ts : List (Tool T)) : ∀ c d : T, (format ts c).2 = some d ↔ Through ts c d := by
  induction ts with
  | nil =>
    intro c d
    refine ⟨fun h => ?_, fun h => ?_⟩
    · cases h; exact .done c
    · cases h; rfl
  | cons t ts ih =>
    intro c d
    unfold format
    refine ⟨fun h => ?_, fun h => ?_⟩
    · split at h
      · cases h
      · rename_i h0
        exact .next t ts c d (Classical.not_not.1 h0) ((ih _ _).1 h)
    · cases h with
      | next _ _ _ _ h0 hd => rw [if_neg (fun k => k h0)]; exact (ih _ _).2 hd

/-! ## Properties -/

/-- **C147.** The formatted code is what comes out when the commands are run in order, each on the output of the one before, and all succeed; each command is run once. -/
theorem formatted_iff (ts : List (Tool T)) (c d : T) : ((format ts c).2 = some d ↔ Through ts c d) ∧ (Through ts c d → (format ts c).1.length = ts.length) := by
  refine ⟨format_iff ts c d, fun h => ?_⟩
  induction h with
  | done => rfl
  | next t ts c d h0 _ ih => unfold format; rw [if_neg (fun k => k h0)]; simp [ih]

/-- **C147.** If a command fails, formatting fails and no later command is run; the failing command got the output of those before. -/
theorem first_failure (pre post : List (Tool T)) (t : Tool T) (c d : T) (h : Through pre c d) (hf : (t d).1 ≠ 0) :
    (format (pre ++ t :: post) c).2 = none ∧ (format (pre ++ t :: post) c).1.length = pre.length + 1 ∧ (format (pre ++ t :: post) c).1.getLast? = some d := by
  induction h with
  | done c => simp [format, hf]
  | next u ts c d h0 _ ih =>
    obtain ⟨h1, h2, h3⟩ := ih hf
    rw [List.cons_append, format, if_neg (fun k => k h0)]
    refine ⟨h1, by simp [h2], ?_⟩
    rw [List.getLast?_cons, h3]
    rfl

/-- **C147.** What every command keeps is kept by formatting, such as what the code means. -/
theorem meaning_kept (R : T → T → Prop) (refl : ∀ c, R c c) (trans : ∀ a b c, R a b → R b c → R a c) (ts : List (Tool T)) (c d : T)
    (hk : ∀ t ∈ ts, ∀ x, (t x).1 = 0 → R x (t x).2) (h : (format ts c).2 = some d) : R c d := by
  rw [format_iff] at h
  induction h with
  | done c => exact refl c
  | next t ts c d h0 _ ih => exact trans _ _ _ (hk t List.mem_cons_self c h0) (ih fun u hu => hk u (List.mem_cons_of_mem _ hu))

/-- **C147.** When `autoquantize` succeeds: it succeeds exactly if code is generated, all commands succeed, the place is given once and is free or may be overwritten, and code that
is to be imported runs. -/
theorem succeeds_iff (gen : Option T) (tools : List (Tool T)) (runs : T → Bool) (w : World T P N) (r : Request P N) :
    (∃ x, (autoquantize gen tools runs w r).2 = .ok x) ↔ ∃ g c, gen = some g ∧ Through tools g c ∧ Placed w r ∧ (r.autoImport = true → runs c = true) := by
  obtain ⟨output, writer, force, auto⟩ := r
  cases gen with
  | none => simp [autoquantize]
  | some g =>
    cases hf : (format tools g).2 with
    | none =>
      have hn : ∀ c, ¬ Through tools g c := fun c h => by rw [← format_iff, hf] at h; cases h
      simp [autoquantize, hf, hn]
    | some c =>
      have hc : ∀ c', Through tools g c' ↔ c' = c := fun c' => by rw [← format_iff, hf]; simp [eq_comm]
      rcases output with _ | ⟨p, n⟩ <;> rcases writer with _ | m <;> simp only [autoquantize, hf, emit, Placed]
      · simp
      · cases force <;> cases auto <;> cases hr : runs c <;> simp [importCode, hc, hr]
      · cases force <;> cases auto <;> cases hr : runs c <;> cases hp : w.files p <;> simp [importCode, hc, hr, hp]
      · simp

/-- **C147.** The code that is returned, written and imported is the same, that of the formatter; nothing else is written or imported. -/
theorem same_code (gen : Option T) (tools : List (Tool T)) (runs : T → Bool) (w w' : World T P N) (r : Request P N) (c : T) (m : Option T) (n : N)
    (h : autoquantize gen tools runs w r = (w', .ok (c, m, n))) :
    (∃ g, gen = some g ∧ Through tools g c) ∧
    ((∃ p, r.output = some (p, n) ∧ w'.files p = some c ∧ (∀ q, q ≠ p → w'.files q = w.files q) ∧ w'.sent = w.sent) ∨
      (r.writer = some n ∧ w'.files = w.files ∧ w'.sent = w.sent ++ [c])) ∧
    (r.autoImport = true → m = some c ∧ w'.mods n = some c ∧ ∀ k, k ≠ n → w'.mods k = w.mods k) ∧ (r.autoImport = false → m = none ∧ w'.mods = w.mods) := by
  obtain ⟨output, writer, force, auto⟩ := r
  cases gen with
  | none => simp [autoquantize] at h
  | some g =>
    cases hf : (format tools g).2 with
    | none => simp [autoquantize, hf] at h
    | some d =>
      have hd := (format_iff tools g d).1 hf
      rcases output with _ | ⟨p, k⟩ <;> rcases writer with _ | k <;> simp only [autoquantize, hf, emit] at h
      · simp at h
      · cases force <;> cases auto <;> cases hr : runs d <;> simp [importCode, hr] at h
        all_goals
          obtain ⟨rfl, rfl, rfl, rfl⟩ := h
          refine ⟨⟨g, rfl, hd⟩, .inr ⟨rfl, rfl, rfl⟩, ?_⟩
          simp +contextual
      · cases force <;> cases auto <;> cases hr : runs d <;> cases hp : w.files p <;> simp [importCode, hr, hp] at h
        all_goals
          obtain ⟨rfl, rfl, rfl, rfl⟩ := h
          refine ⟨⟨g, rfl, hd⟩, .inl ⟨p, rfl, by simp, by simp +contextual, rfl⟩, ?_⟩
          simp +contextual
      · simp at h

/-- **C147 (partial).** When `autoquantize` fails, nothing is imported and, unless it is the import that fails, nothing is written.

Missing: code whose import fails (`written_then_refused`). -/
theorem failure_changes_nothing_partial (gen : Option T) (tools : List (Tool T)) (runs : T → Bool) (w w' : World T P N) (r : Request P N) (e : Err)
    (h : autoquantize gen tools runs w r = (w', .error e)) : w'.mods = w.mods ∧ (e ≠ .import → w' = w) := by
  obtain ⟨output, writer, force, auto⟩ := r
  cases gen with
  | none =>
    simp only [autoquantize, Prod.mk.injEq] at h
    exact ⟨by rw [h.1], fun _ => h.1.symm⟩
  | some g =>
    cases hf : (format tools g).2 with
    | none =>
      simp only [autoquantize, hf, Prod.mk.injEq] at h
      exact ⟨by rw [h.1], fun _ => h.1.symm⟩
    | some d =>
      rcases output with _ | ⟨p, k⟩ <;> rcases writer with _ | k <;> simp only [autoquantize, hf, emit] at h
      · simp only [Prod.mk.injEq] at h
        exact ⟨by rw [h.1], fun _ => h.1.symm⟩
      · cases force <;> cases auto <;> cases hr : runs d <;> simp [importCode, hr] at h
        all_goals
          obtain ⟨rfl, rfl⟩ := h
          exact ⟨rfl, fun hne => by first | rfl | exact absurd rfl hne⟩
      · cases force <;> cases auto <;> cases hr : runs d <;> cases hp : w.files p <;> simp [importCode, hr, hp] at h
        all_goals
          obtain ⟨rfl, rfl⟩ := h
          exact ⟨rfl, fun hne => by first | rfl | exact absurd rfl hne⟩
      · simp only [Prod.mk.injEq] at h
        exact ⟨by rw [h.1], fun _ => h.1.symm⟩

/-! ## Deviations -/

/-- **C147, deviation.** Code that does not run when it is imported has replaced the file when the call fails, also one that may be overwritten and had code that ran. -/
theorem written_then_refused (g c old : T) (tools : List (Tool T)) (hc : Through tools g c) (runs : T → Bool) (hr : runs c = false) (w : World T P N) (p : P) (n : N) (_ : w.files p = some old) :
    (autoquantize (some g) tools runs w ⟨some (p, n), none, true, true⟩).2 = .error .import ∧ (autoquantize (some g) tools runs w ⟨some (p, n), none, true, true⟩).1.files p = some c := by
  simp [autoquantize, (format_iff tools g c).2 hc, emit, importCode, hr]

/-- **C147, deviation.** The arguments are looked at last: with both a path and a writer, or neither, a failing command is what is reported. -/
theorem arguments_checked_last (g : T) (tools : List (Tool T)) (hn : (format tools g).2 = none) (runs : T → Bool) (w : World T P N) (r : Request P N) (_ : r.output.isSome = r.writer.isSome) :
    (autoquantize (some g) tools runs w r).2 = .error .format := by
  simp [autoquantize, hn]

/-! ## Concrete cases -/

/-- A command that puts a number at the end, and fails for long code. -/
def tag (k : Nat) : Tool (List Nat) := fun c => if c.length > 3 then (1, c) else (0, c ++ [k])

def empty : World (List Nat) Nat Nat := ⟨fun _ => none, fun _ => none, []⟩

example : Through [tag 7, tag 8] [1] [1, 7, 8] := .next _ _ _ _ rfl (.next _ _ _ _ rfl (.done _))
example : format [tag 7, tag 8, tag 9] [1, 2] = ([[1, 2], [1, 2, 7], [1, 2, 7, 8]], none) := rfl
example : (autoquantize (some [1]) [tag 7, tag 8] (fun _ => true) empty ⟨some (0, 5), none, false, true⟩).2 = .ok ([1, 7, 8], some [1, 7, 8], 5) := rfl
example : Placed empty ⟨some (0, 5), none, false, true⟩ := .inl ⟨0, 5, rfl, rfl, .inr rfl⟩
example : ∀ t ∈ [tag 7, tag 8], ∀ x, (t x).1 = 0 → x <+: (t x).2 := by
  intro t ht x h0
  rcases List.mem_cons.1 ht with rfl | ht
  · unfold tag at h0 ⊢; split <;> simp_all
  · rcases List.mem_cons.1 ht with rfl | ht
    · unfold tag at h0 ⊢; split <;> simp_all
    · cases ht

end FF.Output
