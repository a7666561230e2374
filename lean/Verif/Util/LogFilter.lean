/-!
# Dropping repeated log messages

Models `DuplicateLogFilter` in `src/fastforward/logging_utils.py`, which is attached to the loggers of `nn/quantized_module.py:28`, `range_setting/minmax.py:23`
and `range_setting/min_error.py:38`, and of Python's `logging` how a record becomes text (`LogRecord.getMessage`).

Simplifications: messages are strings, with `%s` and `%%` as the only formats; arguments are the strings they are shown as; the logger's own level lets all
records through.
-/

namespace FF.LogFilter

/-! ## Model -/

/-- A `logging.LogRecord`. -/
structure Record where
  level : Nat
  msg : List Char
  args : List (List Char)
  deriving DecidableEq, Repr

/-- `msg % args`. -/
def format : List Char → List (List Char) → List Char
  | '%' :: 's' :: cs, a :: as => a ++ format cs as
  | '%' :: '%' :: cs, as => '%' :: format cs as
  | c :: cs, as => c :: format cs as
  | [], _ => []

/-- `LogRecord.getMessage`: without arguments the message is not formatted. -/
def Record.text (r : Record) : List Char := if r.args = [] then r.msg else format r.msg r.args

/-- `_logged_warnings`, logging_utils.py:25. -/
abbrev Seen := List (Nat × List Char)

/-- `filter`, logging_utils.py:27-37: what is noted afterwards, and whether the record is logged. -/
def filter (levels : List Nat) (s : Seen) (r : Record) : Seen × Bool :=
  if r.level ∉ levels then (s, true)
  else if (r.level, r.msg) ∈ s then (s, false)
  else ((r.level, r.msg) :: s, true)

/-- Logging records one after the other: for each, whether it is logged. -/
def run (levels : List Nat) : Seen → List Record → List Bool
  | _, [] => []
  | s, r :: rs => (filter levels s r).2 :: run levels (filter levels s r).1 rs

/-- What appears in the log: levels and texts. -/
def log (levels : List Nat) : Seen → List Record → List (Nat × List Char)
  | _, [] => []
  | s, r :: rs => (if (filter levels s r).2 then [(r.level, r.text)] else []) ++ log levels (filter levels s r).1 rs

/-! ## Lemmas -/

theorem filter_seen (levels : List Nat) (s : Seen) (r : Record) (x : Nat × List Char) :
    x ∈ (filter levels s r).1 ↔ x ∈ s ∨ (x = (r.level, r.msg) ∧ r.level ∈ levels) := by
  unfold filter
  by_cases h1 : r.level ∈ levels
  · by_cases h2 : (r.level, r.msg) ∈ s
    · simp only [h1, not_true, if_false, h2, if_true, and_true]
      exact ⟨Or.inl, fun h => h.elim id fun e => e ▸ h2⟩
    · simp only [h1, not_true, if_false, h2, and_true, List.mem_cons]
      exact Or.comm
  · simp [h1]

theorem run_iff (levels : List Nat) : ∀ (rs : List Record) (s : Seen) (i : Nat) (r : Record), rs[i]? = some r →
    ((run levels s rs)[i]? = some true ↔ r.level ∉ levels ∨ ((r.level, r.msg) ∉ s ∧ ∀ j < i, ∀ q, rs[j]? = some q → q.level = r.level → q.msg ≠ r.msg))
  | [], _, _, _, h => by simp at h
  | q :: rs, s, 0, r, h => by
    simp only [List.getElem?_cons_zero, Option.some.injEq] at h
    subst h
    simp only [run, List.getElem?_cons_zero, Option.some.injEq, filter]
    by_cases h1 : q.level ∈ levels
    · by_cases h2 : (q.level, q.msg) ∈ s <;> simp [h1, h2]
    · simp [h1]
  | q :: rs, s, i + 1, r, h => by
    simp only [List.getElem?_cons_succ] at h
    simp only [run, List.getElem?_cons_succ]
    rw [run_iff levels rs _ i r h, filter_seen]
    by_cases h1 : r.level ∈ levels
    · simp only [h1, not_true, false_or, not_or, not_and]
      constructor
      · rintro ⟨⟨a, b⟩, c⟩
        refine ⟨a, fun j hj p hp hl hm => ?_⟩
        cases j with
        | zero =>
          simp only [List.getElem?_cons_zero, Option.some.injEq] at hp
          subst hp
          exact b (by rw [hl, hm]) (hl ▸ h1)
        | succ j =>
          simp only [List.getElem?_cons_succ] at hp
          exact c j (by omega) p hp hl hm
      · rintro ⟨a, c⟩
        refine ⟨⟨a, fun e _ => ?_⟩, fun j hj p hp hl => c (j + 1) (by omega) p (by simpa using hp) hl⟩
        simp only [Prod.mk.injEq] at e
        exact c 0 (by omega) q (by simp) e.1.symm e.2.symm
    · simp [h1]

theorem run_length (levels : List Nat) : ∀ (rs : List Record) (s : Seen), (run levels s rs).length = rs.length
  | [], _ => rfl
  | _ :: rs, _ => by simp [run, run_length levels rs]

theorem mem_log (levels : List Nat) (x : Nat × List Char) : ∀ (rs : List Record) (s : Seen),
    x ∈ log levels s rs ↔ ∃ (i : Nat) (r : Record), rs[i]? = some r ∧ (run levels s rs)[i]? = some true ∧ x = (r.level, r.text)
  | [], _ => by simp [log]
  | q :: rs, s => by
    rw [log, List.mem_append, mem_log levels x rs]
    constructor
    · rintro (h | ⟨i, r, h1, h2, h3⟩)
      · by_cases hf : (filter levels s q).2 = true
        · rw [if_pos hf] at h
          exact ⟨0, q, rfl, by simp [run, hf], by simpa using h⟩
        · rw [if_neg hf] at h; cases h
      · exact ⟨i + 1, r, by simpa using h1, by simpa [run] using h2, h3⟩
    · rintro ⟨i, r, h1, h2, h3⟩
      cases i with
      | zero =>
        simp only [List.getElem?_cons_zero, Option.some.injEq] at h1
        subst h1
        simp only [run, List.getElem?_cons_zero, Option.some.injEq] at h2
        exact .inl (by rw [if_pos h2]; simp [h3])
      | succ i => exact .inr ⟨i, r, by simpa using h1, by simpa [run] using h2, h3⟩

/-- There is a first one. -/
theorem first (P : Nat → Prop) : ∀ n, P n → ∃ m, m ≤ n ∧ P m ∧ ∀ j < m, ¬ P j := by
  intro n
  induction n using Nat.strongRecOn with
  | _ n ih =>
    intro hn
    by_cases h : ∃ j, j < n ∧ P j
    · obtain ⟨j, hj, hp⟩ := h
      obtain ⟨m, h1, h2, h3⟩ := ih j hj hp
      exact ⟨m, by omega, h2, h3⟩
    · exact ⟨n, Nat.le_refl _, hn, fun j hj hp => h ⟨j, hj, hp⟩⟩

/-! ## Properties -/

/-- **C135.** In every history, a record is logged if its level is not one of those to filter, and otherwise exactly the first time that its message is logged
at its level. -/
theorem logged_iff (levels : List Nat) (rs : List Record) (i : Nat) (r : Record) (h : rs[i]? = some r) :
    (run levels [] rs)[i]? = some true ↔ r.level ∉ levels ∨ ∀ j < i, ∀ q, rs[j]? = some q → q.level = r.level → q.msg ≠ r.msg := by
  rw [run_iff levels rs [] i r h]
  simp

/-- **C135 (partial).** Nothing is lost: every text that is logged at some level appears in the log with that level. Missing: messages with arguments, see
`arguments_ignored`. -/
theorem nothing_lost_partial (levels : List Nat) (rs : List Record) (ha : ∀ r ∈ rs, r.level ∈ levels → r.args = []) (r : Record) (hr : r ∈ rs) :
    (r.level, r.text) ∈ log levels [] rs := by
  obtain ⟨n, hn⟩ := List.mem_iff_getElem?.1 hr
  rw [mem_log]
  by_cases hl : r.level ∈ levels
  · obtain ⟨m, _, ⟨q, hq, e1, e2⟩, hmin⟩ := first (fun j => ∃ q, rs[j]? = some q ∧ q.level = r.level ∧ q.msg = r.msg) n ⟨r, hn, rfl, rfl⟩
    refine ⟨m, q, hq, ?_, ?_⟩
    · rw [logged_iff levels rs m q hq]
      exact .inr fun j hj p hp h1 h2 => hmin j hj ⟨p, hp, h1.trans e1, h2.trans e2⟩
    · have hq' : q ∈ rs := List.mem_iff_getElem?.2 ⟨m, hq⟩
      have a1 := ha q hq' (e1 ▸ hl)
      have a2 := ha r hr hl
      simp only [Record.text, a1, a2, if_true, e1, e2]
  · exact ⟨n, r, hn, (logged_iff levels rs n r hn).2 (.inl hl), rfl⟩

/-- **C135 (partial).** A text that was logged before at a level that is filtered does not appear again. Missing: messages with arguments, of which different ones can give the same text. -/
theorem no_repetitions_partial (levels : List Nat) (rs : List Record) (ha : ∀ r ∈ rs, r.level ∈ levels → r.args = []) (i j : Nat) (hij : i < j)
    (r q : Record) (hr : rs[i]? = some r) (hq : rs[j]? = some q) (hl : r.level ∈ levels)
    (h2 : (run levels [] rs)[j]? = some true) : (r.level, r.text) ≠ (q.level, q.text) := by
  intro he
  simp only [Prod.mk.injEq] at he
  have a1 := ha r (List.mem_iff_getElem?.2 ⟨i, hr⟩) hl
  have a2 := ha q (List.mem_iff_getElem?.2 ⟨j, hq⟩) (he.1 ▸ hl)
  have hm : r.msg = q.msg := by simpa [Record.text, a1, a2] using he.2
  rcases (logged_iff levels rs j q hq).1 h2 with h | h
  · exact h (he.1 ▸ hl)
  · exact h i hij r hr he.1 hm

/-! ## Deviations -/

/-- **C135, deviation.** Arguments are ignored: after one record, any other with the same message and level is dropped whatever its arguments, and so its text
never appears. -/
theorem arguments_ignored (levels : List Nat) (level : Nat) (hl : level ∈ levels) (msg : List Char) (as bs : List (List Char)) :
    log levels [] [⟨level, msg, as⟩, ⟨level, msg, bs⟩] = [(level, (⟨level, msg, as⟩ : Record).text)] := by
  simp [log, filter, hl]

/-- The warning of `quantized_module_map`, nn/quantized_module.py:584-591, for a class. -/
def multiple (pkg cls mine : String) : Record :=
  ⟨30, "Multiple quantized versions of '%s.%s' exists. Defaulting to '%s.%s' which was created last".toList, [pkg.toList, cls.toList, mine.toList, cls.toList]⟩

/-- **C135, deviation.** So only the first class with several quantized versions is reported: the warning for the second one is lost, although it says something
else. -/
theorem second_class_not_reported :
    run [20, 30] [] [multiple "torch.nn" "Linear" "my", multiple "torch.nn" "Conv2d" "my"] = [true, false] ∧
    (multiple "torch.nn" "Linear" "my").text ≠ (multiple "torch.nn" "Conv2d" "my").text := by
  constructor
  · simp [run, filter, multiple]
  · decide

/-! ## Concrete cases -/

/-- Repeated warnings are dropped, errors are not. -/
example : run [30] [] [⟨30, ['a'], []⟩, ⟨40, ['a'], []⟩, ⟨30, ['b'], []⟩, ⟨30, ['a'], []⟩, ⟨40, ['a'], []⟩] = [true, true, true, false, true] := by decide

/-- The hypotheses of `nothing_lost_partial`. -/
example : ∀ r ∈ ([⟨30, ['a'], []⟩, ⟨40, ['%', 's'], [['x']]⟩, ⟨30, ['a'], []⟩] : List Record), r.level ∈ [30] → r.args = [] := by decide

example : (multiple "a" "B" "c").text = "Multiple quantized versions of 'a.B' exists. Defaulting to 'c.B' which was created last".toList := by decide

end FF.LogFilter
