/-!
# Operations that autoquant leaves untouched

Models `src/fastforward/_autoquant/bypass.py`: how the listed names are turned into objects, and which calls are recognised.

Simplifications: a dotted name is the list of its parts, which contain no dots and are not empty; importing and reading attributes give the same each time
(importing a module makes it an attribute of its parent, which is taken to be done already); reading an attribute has no other failure than `AttributeError`.
-/

namespace FF.Bypass

/-! ## Model -/

abbrev Name := List String

/-- What `importlib.import_module` does. -/
inductive Imp (O : Type) where
  | ok (o : O)
  | moduleNotFound
  | importError
  | other
  deriving DecidableEq

/-- Python's modules and objects. -/
structure Env (O : Type) where
  imp : Name → Imp O
  getattr : O → String → Option O

inductive Err where
  | importError
  | attributeError
  | other
  deriving DecidableEq, Repr

variable {O : Type}

/-- `for part in parts[split:]: obj = getattr(obj, part)` (bypass.py:55-56). -/
def attrs (env : Env O) : O → List String → Except Err O
  | o, [] => .ok o
  | o, x :: xs => match env.getattr o x with
    | some o' => attrs env o' xs
    | none => .error .attributeError

/-- The loop over `split` in `_resolve_qualified_name` (bypass.py:50-59), from `split = n` down. -/
def resolveFrom (env : Env O) (parts : Name) : Nat → Except Err O
  | 0 => .error .importError
  | n + 1 => match env.imp (parts.take (n + 1)) with
    | .ok o => attrs env o (parts.drop (n + 1))
    | .moduleNotFound => resolveFrom env parts n
    | .importError => .error .importError
    | .other => .error .other

/-- `_resolve_qualified_name` (bypass.py:38-59). -/
def resolve (env : Env O) (parts : Name) : Except Err O := resolveFrom env parts parts.length

/-- `<` of the `release` tuples of versions (bypass.py:66). -/
def older : List Nat → List Nat → Bool
  | [], [] => false
  | [], _ :: _ => true
  | _ :: _, [] => false
  | a :: as, b :: bs => if a = b then older as bs else decide (a < b)

/-- `_resolve_bypass_callables` (bypass.py:62-76), with `table` the items of `_BYPASS_MIN_TORCH_VERSION`: the objects and the names that are warned about. -/
def resolveAll (env : Env O) (installed : List Nat) : List (Name × List Nat) → Except Err (List O × List Name)
  | [] => .ok ([], [])
  | (n, v) :: t =>
    if older installed v then resolveAll env installed t
    else match resolve env n with
      | .ok o => (resolveAll env installed t).map fun r => (o :: r.1, r.2)
      | .error .other => .error .other
      | .error _ => (resolveAll env installed t).map fun r => (r.1, n :: r.2)

/-- Expressions that are called. -/
inductive Ex where
  | name (x : String)
  | attr (e : Ex) (x : String)
  | call (f : Ex) (args : List Ex)
  | sub (e : Ex) (i : Ex)
  | other

/-- `libcst.helpers.get_full_name_for_node`. -/
def fullName : Ex → Option Name
  | .name x => some [x]
  | .attr e x => some ((fullName e).getD ["None"] ++ [x])
  | .call f _ => fullName f
  | .sub e _ => fullName e
  | .other => none

/-- `is_bypassed_call_syntax` (bypass.py:87-96) of what is called. -/
def bySyntax (table : List (Name × List Nat)) (e : Ex) : Bool :=
  match fullName e with
  | some n => (table.map (·.1)).contains n
  | none => false

/-! ## Specification -/

/-- What a dotted name stands for: the module of that name, or, where there is none, the attribute of what the name without its last part stands for. -/
inductive Denotes (env : Env O) : Name → O → Prop
  | module {p : Name} {o : O} (hp : p ≠ []) (h : env.imp p = .ok o) : Denotes env p o
  | attr {p : Name} {x : String} {m o : O} (h : env.imp (p ++ [x]) = .moduleNotFound) (hm : Denotes env p m) (ha : env.getattr m x = some o) :
      Denotes env (p ++ [x]) o

/-- Imports fail, if at all, with `ImportError` or one of its kinds. -/
def OnlyImportErrors (env : Env O) : Prop := ∀ p, env.imp p ≠ .other

/-- The name, written out: `a.b.c`. -/
inductive Written : Ex → Name → Prop
  | name (x : String) : Written (.name x) [x]
  | attr {e : Ex} {n : Name} (x : String) (h : Written e n) : Written (.attr e x) (n ++ [x])

/-! ## Lemmas -/

theorem attrs_append (env : Env O) (x : String) : ∀ (xs : List String) (o : O),
    attrs env o (xs ++ [x]) = (attrs env o xs).bind fun m => match env.getattr m x with | some o' => .ok o' | none => .error .attributeError
  | [], o => by
    simp only [List.nil_append, attrs, Except.bind]
  | y :: ys, o => by
    simp only [List.cons_append, attrs]
    cases env.getattr o y with
    | none => rfl
    | some o' => exact attrs_append env x ys o'

/-- Leaving out the last part. -/
theorem resolveFrom_append (env : Env O) (p : Name) (x : String) : ∀ n ≤ p.length,
    resolveFrom env (p ++ [x]) n = (resolveFrom env p n).bind fun m => match env.getattr m x with | some o => .ok o | none => .error .attributeError
  | 0, _ => rfl
  | n + 1, h => by
    have h1 : (p ++ [x]).take (n + 1) = p.take (n + 1) := List.take_append_of_le_length h
    have h2 : (p ++ [x]).drop (n + 1) = p.drop (n + 1) ++ [x] := List.drop_append_of_le_length h
    simp only [resolveFrom, h1, h2]
    cases env.imp (p.take (n + 1)) with
    | ok o => exact attrs_append env x _ o
    | moduleNotFound => exact resolveFrom_append env p x n (by omega)
    | importError => rfl
    | other => rfl

theorem resolve_snoc (env : Env O) (p : Name) (x : String) :
    resolve env (p ++ [x]) = match env.imp (p ++ [x]) with
      | .ok o => .ok o
      | .moduleNotFound => (resolve env p).bind fun m => match env.getattr m x with | some o => .ok o | none => .error .attributeError
      | .importError => .error .importError
      | .other => .error .other := by
  have hl : (p ++ [x]).length = p.length + 1 := by simp
  have ht : (p ++ [x]).take (p.length + 1) = p ++ [x] := by rw [← hl]; exact List.take_length
  have hd : (p ++ [x]).drop (p.length + 1) = [] := by rw [← hl]; exact List.drop_length
  unfold resolve
  rw [hl]
  simp only [resolveFrom, ht, hd]
  cases env.imp (p ++ [x]) with
  | ok o => rfl
  | moduleNotFound => exact resolveFrom_append env p x _ (Nat.le_refl _)
  | importError => rfl
  | other => rfl

theorem snoc_or_nil : ∀ p : Name, p = [] ∨ ∃ q x, p = q ++ [x]
  | [] => .inl rfl
  | a :: l => .inr ⟨(a :: l).dropLast, (a :: l).getLast (by simp), (List.dropLast_concat_getLast (by simp)).symm⟩

theorem snoc_length {q : Name} {x : String} {k : Nat} (h : (q ++ [x]).length = k + 1) : q.length = k := by simpa using h

theorem resolve_sound (env : Env O) : ∀ (k : Nat) (p : Name) (o : O), p.length = k → resolve env p = .ok o → Denotes env p o
  | 0, p, o, hk, h => by
    cases List.length_eq_zero_iff.1 hk
    simp [resolve, resolveFrom] at h
  | k + 1, p, o, hk, h => by
    rcases snoc_or_nil p with rfl | ⟨q, x, rfl⟩
    · simp at hk
    rw [resolve_snoc] at h
    cases hi : env.imp (q ++ [x]) with
    | ok m =>
      rw [hi] at h
      cases h
      exact .module (by simp) hi
    | moduleNotFound =>
      rw [hi] at h
      cases hq : resolve env q with
      | error e => simp [hq, Except.bind] at h
      | ok m =>
        simp only [hq, Except.bind] at h
        cases hg : env.getattr m x with
        | none => simp [hg] at h
        | some o' =>
          simp only [hg, Except.ok.injEq] at h
          subst h
          exact .attr hi (resolve_sound env k q m (snoc_length hk) hq) hg
    | importError => rw [hi] at h; cases h
    | other => rw [hi] at h; cases h

theorem resolve_complete (env : Env O) {p : Name} {o : O} (h : Denotes env p o) : resolve env p = .ok o := by
  induction h with
  | module hp h =>
    rcases snoc_or_nil _ with e | ⟨q, x, e⟩
    · exact absurd e hp
    · subst e
      rw [resolve_snoc, h]
  | attr h _ ha ih => rw [resolve_snoc, h, ih]; simp [Except.bind, ha]

theorem resolveFrom_other (env : Env O) (h : OnlyImportErrors env) (p : Name) : ∀ n, resolveFrom env p n ≠ .error .other
  | 0 => by simp [resolveFrom]
  | n + 1 => by
    simp only [resolveFrom]
    cases hi : env.imp (p.take (n + 1)) with
    | ok o =>
      have : ∀ (xs : List String) (o : O), attrs env o xs ≠ .error .other := by
        intro xs
        induction xs with
        | nil => intro o; simp [attrs]
        | cons x xs ih =>
          intro o
          simp only [attrs]
          cases env.getattr o x with
          | none => simp
          | some o' => exact ih o'
      exact this _ o
    | moduleNotFound => exact resolveFrom_other env h p n
    | importError => simp
    | other => exact absurd hi (h _)

/-! ## Properties -/

/-- **C137.** A listed name is resolved to what it stands for in Python, whatever parts of it are packages, modules, classes or functions, and if it stands for
nothing, it is not resolved. -/
theorem resolved_iff (env : Env O) (p : Name) (o : O) : resolve env p = .ok o ↔ Denotes env p o :=
  ⟨resolve_sound env p.length p o rfl, resolve_complete env⟩

/-- **C137 (partial).** Looking up the names does not fail, the objects left untouched are what the listed names stand for that the installed version of torch has,
by whatever name they are called, and a warning is given for a name exactly if it should stand for something and does not.

Missing: imports that fail with another exception (`other_errors_fail`). -/
theorem untouched_iff_partial (env : Env O) (h : OnlyImportErrors env) (installed : List Nat) : ∀ table : List (Name × List Nat),
    ∃ os ws, resolveAll env installed table = .ok (os, ws) ∧
      (∀ o, o ∈ os ↔ ∃ n v, (n, v) ∈ table ∧ older installed v = false ∧ Denotes env n o) ∧
      ∀ n, n ∈ ws ↔ ∃ v, (n, v) ∈ table ∧ older installed v = false ∧ ∀ o, ¬ Denotes env n o
  | [] => ⟨[], [], rfl, by simp, by simp⟩
  | (n, v) :: t => by
    obtain ⟨os, ws, h1, h2, h3⟩ := untouched_iff_partial env h installed t
    unfold resolveAll
    cases hv : older installed v with
    | true =>
      refine ⟨os, ws, by simpa using h1, fun o => ?_, fun m => ?_⟩
      · rw [h2]
        constructor
        · rintro ⟨n', v', a, b⟩; exact ⟨n', v', List.mem_cons_of_mem _ a, b⟩
        · rintro ⟨n', v', a, b, c⟩
          rcases List.mem_cons.1 a with e | a
          · cases e; rw [hv] at b; cases b
          · exact ⟨n', v', a, b, c⟩
      · rw [h3]
        constructor
        · rintro ⟨v', a, b⟩; exact ⟨v', List.mem_cons_of_mem _ a, b⟩
        · rintro ⟨v', a, b, c⟩
          rcases List.mem_cons.1 a with e | a
          · cases e; rw [hv] at b; cases b
          · exact ⟨v', a, b, c⟩
    | false =>
      cases hr : resolve env n with
      | ok o =>
        refine ⟨o :: os, ws, by simp [h1, Except.map], fun o' => ?_, fun m => ?_⟩
        · rw [List.mem_cons, h2]
          constructor
          · rintro (rfl | ⟨n', v', a, b⟩)
            · exact ⟨n, v, List.mem_cons_self, hv, (resolved_iff env n _).1 hr⟩
            · exact ⟨n', v', List.mem_cons_of_mem _ a, b⟩
          · rintro ⟨n', v', a, b, c⟩
            rcases List.mem_cons.1 a with e | a
            · cases e
              have := (resolved_iff env n o').2 c
              rw [hr] at this
              exact .inl (by cases this; rfl)
            · exact .inr ⟨n', v', a, b, c⟩
        · rw [h3]
          constructor
          · rintro ⟨v', a, b⟩; exact ⟨v', List.mem_cons_of_mem _ a, b⟩
          · rintro ⟨v', a, b, c⟩
            rcases List.mem_cons.1 a with e | a
            · cases e; exact absurd ((resolved_iff env n o).1 hr) (c o)
            · exact ⟨v', a, b, c⟩
      | error e =>
        have no : ∀ o, ¬ Denotes env n o := fun o hd => by
          have := (resolved_iff env n o).2 hd
          rw [hr] at this
          cases this
        have hne : e ≠ .other := fun he => resolveFrom_other env h n _ (by rw [← he]; exact hr)
        refine ⟨os, n :: ws, ?_, fun o' => ?_, fun m => ?_⟩
        · cases e with
          | other => exact absurd rfl hne
          | importError => simp [h1, Except.map]
          | attributeError => simp [h1, Except.map]
        · rw [h2]
          constructor
          · rintro ⟨n', v', a, b⟩; exact ⟨n', v', List.mem_cons_of_mem _ a, b⟩
          · rintro ⟨n', v', a, b, c⟩
            rcases List.mem_cons.1 a with e | a
            · cases e; exact absurd c (no o')
            · exact ⟨n', v', a, b, c⟩
        · rw [List.mem_cons, h3]
          constructor
          · rintro (rfl | ⟨v', a, b⟩)
            · exact ⟨v, List.mem_cons_self, hv, no⟩
            · exact ⟨v', List.mem_cons_of_mem _ a, b⟩
          · rintro ⟨v', a, b, c⟩
            rcases List.mem_cons.1 a with e | a
            · cases e; exact .inl rfl
            · exact .inr ⟨v', a, b, c⟩

/-- **C137.** The installed version `a.b.…`, with any further parts, predates an entry for `c.d` exactly if `a` is smaller than `c`, or `a` is `c` and `b` is smaller than `d`. -/
theorem version_iff (a b c d : Nat) (rest : List Nat) : older (a :: b :: rest) [c, d] = true ↔ a < c ∨ (a = c ∧ b < d) := by
  unfold older
  by_cases h : a = c
  · subst h
    simp only [if_true, older]
    by_cases hb : b = d
    · subst hb; cases rest <;> simp [older]
    · simp [hb]
  · simp [h]

/-- **C137.** A call whose function is written out as a dotted name is recognised exactly if the name is listed. -/
theorem written_iff (table : List (Name × List Nat)) (e : Ex) (n : Name) (h : Written e n) : bySyntax table e = true ↔ ∃ v, (n, v) ∈ table := by
  have : fullName e = some n := by
    induction h with
    | name x => rfl
    | attr x _ ih => simp [fullName, ih]
  simp [bySyntax, this]

/-! ## Deviations -/

/-- **C137, deviation.** A package that fails to import with another exception makes looking up the names, and with it importing the library, fail, although the
name cannot be in use. -/
theorem other_errors_fail (env : Env O) (installed v : List Nat) (n : Name) (t : List (Name × List Nat)) (hn : n ≠ []) (hi : env.imp n = .other)
    (hv : older installed v = false) : resolveAll env installed ((n, v) :: t) = .error .other := by
  have : resolve env n = .error .other := by
    rcases snoc_or_nil n with rfl | ⟨q, x, rfl⟩
    · exact absurd rfl hn
    · rw [resolve_snoc, hi]
  simp [resolveAll, hv, this]

/-- **C137, deviation.** The result of a listed operation, when it is called, is taken to be the operation itself: with `torch._check_with(f)(x)` also the outer call
is recognised, and with it `d[k](x)` if `d` is listed. -/
theorem result_recognised (table : List (Name × List Nat)) (e : Ex) (args : List Ex) (i : Ex) :
    bySyntax table (.call e args) = bySyntax table e ∧ bySyntax table (.sub e i) = bySyntax table e := ⟨rfl, rfl⟩

/-! ## Concrete cases -/

/-- A package with a module that has a function. -/
def world : Env Nat where
  imp p := if p = ["torch"] then .ok 1 else if p = ["torch", "utils"] then .ok 2 else .moduleNotFound
  getattr o x := if o = 1 ∧ x = "utils" then some 2 else if o = 2 ∧ x = "checkpoint" then some 3 else none

example : OnlyImportErrors world := by
  intro p
  simp only [world]
  repeat' split
  all_goals simp

example : Denotes world ["torch", "utils", "checkpoint"] 3 :=
  .attr (p := ["torch", "utils"]) (m := 2) (by decide) (.module (by simp) (by decide)) (by decide)

example : resolveAll world [2, 6, 0] [(["torch", "utils", "checkpoint"], [2, 4]), (["torch", "is_exporting"], [2, 7]), (["torch", "check"], [2, 4])] =
    .ok ([3], [["torch", "check"]]) := by rfl

example : Written (.attr (.attr (.name "torch") "compiler") "is_exporting") ["torch", "compiler", "is_exporting"] :=
  .attr (n := ["torch", "compiler"]) _ (.attr (n := ["torch"]) _ (.name _))

end FF.Bypass
