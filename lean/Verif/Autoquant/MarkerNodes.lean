/-!
# Marker nodes

Models `_autoquant/cst/nodes.py`, the nodes with which passes pass information on to each other, `WrapAssignments` of `_autoquant/cst/passes.py`, and the functions
on blocks in `_autoquant/cst/node_manipulation.py`.

Simplifications: code is a list of tokens. Expressions are names, calls and marker nodes; whitespace and parentheses in them are left out. A transformer is a
function that is applied to each node after its parts, as `leave_` methods are.
-/

namespace FF.Markers

/-! ## Model -/

/-- Expressions with marker nodes. Operators and functions are numbers. -/
inductive Expr where
  | name (s : String)
  | call (f : Expr) (args : List Expr)
  /-- `ReplacementCandidate`, nodes.py:107-127 -/
  | candidate (e : Expr)
  /-- `QuantizedCall`, nodes.py:130-148 -/
  | quantized (orig : String) (operator : Option Nat) (ref : Option Nat) (f : Expr) (args : List Expr)
  /-- `UnresolvedQuantizedCall`, nodes.py:151-171 -/
  | unresolved (orig : String) (ref : Nat) (f : Expr) (args : List Expr)
  /-- `QuantizerReference`, nodes.py:174-209 -/
  | quantizer (refid : Nat) (s : String)
  /-- `AbstractClassReference`, nodes.py:212-229 -/
  | cls (s : String)

section
variable (t : Expr → Expr)
mutual
/-- `visit` with a transformer: `_visit_and_replace_children` of each node, then `on_leave`. -/
def visit : Expr → Expr
  | .name s => t (.name s)
  | .call f args => t (.call (visit f) (visitAll args))
  | .candidate e => t (.candidate (visit e))
  -- nodes.py:142-148: `func_ref` is not passed on
  | .quantized orig op _ f args => t (.quantized orig op none (visit f) (visitAll args))
  | .unresolved orig ref f args => t (.unresolved orig ref (visit f) (visitAll args))
  | .quantizer refid s => t (.quantizer refid s)
  | .cls s => t (.cls s)
/-- `visit_sequence`. -/
def visitAll : List Expr → List Expr
  | [] => []
  | e :: es => visit e :: visitAll es
end
end

mutual
/-- The code of an expression: `_codegen_impl`. -/
def code : Expr → List String
  | .name s => [s]
  | .call f args => code f ++ ["("] ++ codeAll args ++ [")"]
  -- nodes.py:117-118
  | .candidate e => code e
  | .quantized _ _ _ f args => code f ++ ["("] ++ codeAll args ++ [")"]
  | .unresolved _ _ f args => code f ++ ["("] ++ codeAll args ++ [")"]
  | .quantizer _ s => [s]
  | .cls s => [s]
/-- The code of arguments. -/
def codeAll : List Expr → List String
  | [] => []
  | e :: es => code e ++ [","] ++ codeAll es
end

/-- Assignments as in the source: `Assign`, with the whitespace after each target, `AnnAssign` and `AugAssign`. `semi` is whether a semicolon follows. -/
inductive Assignment where
  | assign (targets : List (Expr × String)) (value : Expr) (semi : Bool)
  | ann (target annotation : Expr) (value : Option Expr) (semi : Bool)
  | aug (target : Expr) (op : String) (value : Expr) (semi : Bool)

/-- A semicolon. -/
def semicolon (semi : Bool) : List String := if semi then [";"] else []

/-- The code of an assignment. -/
def codeA : Assignment → List String
  | .assign ts v semi => (ts.flatMap fun p => code p.1 ++ [p.2, "="]) ++ code v ++ semicolon semi
  | .ann t a v semi => code t ++ [":"] ++ code a ++ (match v with | none => [] | some v => ["="] ++ code v) ++ semicolon semi
  | .aug t op v semi => code t ++ [op] ++ code v ++ semicolon semi

/-- `GeneralAssignment`: nodes.py:25-41. -/
structure General where
  original : Assignment
  targets : List Expr
  annotation : Option Expr
  value : Option Expr
  semi : Option Bool

/-- passes.py:240-271 `WrapAssignments`: `orig` is the assignment as it was, `u` the one with its new parts. -/
def wrap (orig u : Assignment) : General :=
  match u with
  | .assign ts v _ => ⟨orig, ts.map (·.1), none, some v, none⟩
  | .ann t a v _ => ⟨orig, [t], some a, v, none⟩
  | .aug t _ v _ => ⟨orig, [t], none, some v, none⟩

/-- nodes.py:48-74 `_validate`. -/
def validate (g : General) : Bool :=
  match g.original with
  | .ann _ _ v _ => (g.value.isNone == v.isNone) && g.annotation.isSome && g.targets.length == 1
  | .assign ts _ _ => g.value.isSome && g.targets.length == ts.length
  | .aug _ _ _ _ => g.value.isSome && g.targets.length == 1

/-- nodes.py:76-96 `_deflate`. -/
def deflate (g : General) : Option Assignment :=
  match g.original, g.targets, g.annotation, g.value with
  | .ann _ _ _ semi, t :: _, some a, v => some (.ann t a v semi)
  | .assign ts _ semi, ts', _, some v => some (.assign ((ts.zip ts').map fun p => (p.2, p.1.2)) v semi)
  | .aug _ op _ semi, t :: _, _, some v => some (.aug t op v semi)
  | _, _, _, _ => none

/-- nodes.py:43-46 `_codegen_impl`; `none` if an assertion fails. -/
def codeG (g : General) : Option (List String) := if validate g then (deflate g).map codeA else none

/-- nodes.py:98-104 `_visit_and_replace_children`. -/
def visitG (t : Expr → Expr) (g : General) : General :=
  ⟨g.original, g.targets.map (visit t), g.annotation.map (visit t), g.value.map (visit t), none⟩

/-- `IndentedBlock`: a comment after the colon, statements with the lines above them, and the lines at its end. -/
structure Block where
  header : Option String
  body : List (List String × String)
  footer : List String
  deriving DecidableEq

/-- node_manipulation.py:9-47 `combine_indented_blocks`. The first statement with its new lines, `root_elem`, is not used. -/
def combine (b1 b2 : Block) : Block :=
  if b2.body.length = 0 then b1 else { b1 with body := b1.body ++ b2.body, footer := b2.footer }

/-- node_manipulation.py:74-87 `_merge_trailing_whitespace`. -/
def mergeHeader (h1 h2 : Option String) : Option String :=
  match h1, h2 with
  | none, none => none
  | some a, none => some a
  | none, some b => some b
  | some a, some b => some (a ++ " " ++ b)

/-- node_manipulation.py:50-71 `flatten_indented_blocks`. -/
def flatten (b1 b2 : Block) : Block := { b2 with header := mergeHeader b1.header b2.header, footer := b2.footer ++ b1.footer }

/-- node_manipulation.py:93-114 `unwrap_single_statement`, where `ok` says which statements are of the type. -/
def unwrap (ok : String → Bool) (b : Block) : Block ⊕ (List String × String) :=
  match b.body with
  | [s] => if ok s.2 then .inr s else .inl b
  | _ => .inl b

/-! ## Specification -/

/-- What a marker node says. -/
inductive Mark where
  | candidate
  | quantized (orig : String) (operator : Option Nat)
  | unresolved (orig : String) (ref : Nat)
  | quantizer (refid : Nat)
  | cls
  deriving DecidableEq

mutual
/-- The marks in an expression, from left to right. -/
def marks : Expr → List Mark
  | .name _ => []
  | .call f args => marks f ++ marksAll args
  | .candidate e => .candidate :: marks e
  | .quantized orig op _ f args => .quantized orig op :: (marks f ++ marksAll args)
  | .unresolved orig ref f args => .unresolved orig ref :: (marks f ++ marksAll args)
  | .quantizer refid _ => [.quantizer refid]
  | .cls _ => [.cls]
/-- `marks` for several expressions. -/
def marksAll : List Expr → List Mark
  | [] => []
  | e :: es => marks e ++ marksAll es
end

mutual
/-- The functions that are kept with quantized calls. -/
def refs : Expr → List (Option Nat)
  | .name _ => []
  | .call f args => refs f ++ refsAll args
  | .candidate e => refs e
  | .quantized _ _ r f args => r :: (refs f ++ refsAll args)
  | .unresolved _ _ f args => refs f ++ refsAll args
  | .quantizer _ _ => []
  | .cls _ => []
/-- `refs` for several expressions. -/
def refsAll : List Expr → List (Option Nat)
  | [] => []
  | e :: es => refs e ++ refsAll es
end

mutual
/-- The names in an expression, from left to right. -/
def names : Expr → List String
  | .name s => [s]
  | .call f args => names f ++ namesAll args
  | .candidate e => names e
  | .quantized _ _ _ f args => names f ++ namesAll args
  | .unresolved _ _ f args => names f ++ namesAll args
  | .quantizer _ s => [s]
  | .cls s => [s]
/-- `names` for several expressions. -/
def namesAll : List Expr → List String
  | [] => []
  | e :: es => names e ++ namesAll es
end

mutual
/-- An expression without its marker nodes. -/
def plain : Expr → Expr
  | .name s => .name s
  | .call f args => .call (plain f) (plainAll args)
  | .candidate e => plain e
  | .quantized _ _ _ f args => .call (plain f) (plainAll args)
  | .unresolved _ _ f args => .call (plain f) (plainAll args)
  | .quantizer _ s => .name s
  | .cls s => .name s
/-- `plain` for several expressions. -/
def plainAll : List Expr → List Expr
  | [] => []
  | e :: es => plain e :: plainAll es
end

/-- A pass that changes names. -/
def rename (f : String → String) : Expr → Expr
  | .name s => .name (f s)
  | .quantizer refid s => .quantizer refid (f s)
  | .cls s => .cls (f s)
  | e => e

/-- Two assignments have the same form: of one kind, with as many targets, the same whitespace, operator and semicolon, and a value if the other has one. -/
inductive SameForm : Assignment → Assignment → Prop
  | assign {ts ts' : List (Expr × String)} (v v' : Expr) (semi : Bool) : ts.map (·.2) = ts'.map (·.2) → SameForm (.assign ts v semi) (.assign ts' v' semi)
  | ann (t a t' a' : Expr) {v v' : Option Expr} (semi : Bool) : (v = none ↔ v' = none) → SameForm (.ann t a v semi) (.ann t' a' v' semi)
  | aug (t t' : Expr) (op : String) (v v' : Expr) (semi : Bool) : SameForm (.aug t op v semi) (.aug t' op v' semi)

/-- The number of targets of an assignment. -/
def arity : Assignment → Nat
  | .assign ts _ _ => ts.length
  | _ => 1

/-- Whether an assignment has a value. -/
def hasValue : Assignment → Prop
  | .ann _ _ v _ => v ≠ none
  | _ => True

/-- Whether an assignment has an annotation. -/
def annotated : Assignment → Prop
  | .ann _ _ _ _ => True
  | _ => False

/-- The lines of a block, comments and statements. -/
def lines (b : Block) : List String := b.header.toList ++ (b.body.flatMap fun s => s.1 ++ [s.2]) ++ b.footer

/-! ## Lemmas -/

section
variable {t : Expr → Expr}
mutual
theorem marks_visit (ht : ∀ e, marks (t e) = marks e) : ∀ e, marks (visit t e) = marks e
  | .name s => by rw [visit, ht]
  | .call f args => by rw [visit, ht, marks, marks, marks_visit ht f, marksAll_visit ht args]
  | .candidate e => by rw [visit, ht, marks, marks, marks_visit ht e]
  | .quantized _ _ _ f args => by rw [visit, ht, marks, marks, marks_visit ht f, marksAll_visit ht args]
  | .unresolved _ _ f args => by rw [visit, ht, marks, marks, marks_visit ht f, marksAll_visit ht args]
  | .quantizer _ _ => by rw [visit, ht]
  | .cls _ => by rw [visit, ht]
theorem marksAll_visit (ht : ∀ e, marks (t e) = marks e) : ∀ es, marksAll (visitAll t es) = marksAll es
  | [] => by rw [visitAll]
  | e :: es => by rw [visitAll, marksAll, marksAll, marks_visit ht e, marksAll_visit ht es]
end

mutual
theorem code_visit (ht : ∀ e, code (t e) = code e) : ∀ e, code (visit t e) = code e
  | .name s => by rw [visit, ht]
  | .call f args => by rw [visit, ht, code, code, code_visit ht f, codeAll_visit ht args]
  | .candidate e => by rw [visit, ht, code, code, code_visit ht e]
  | .quantized _ _ _ f args => by rw [visit, ht, code, code, code_visit ht f, codeAll_visit ht args]
  | .unresolved _ _ f args => by rw [visit, ht, code, code, code_visit ht f, codeAll_visit ht args]
  | .quantizer _ _ => by rw [visit, ht]
  | .cls _ => by rw [visit, ht]
theorem codeAll_visit (ht : ∀ e, code (t e) = code e) : ∀ es, codeAll (visitAll t es) = codeAll es
  | [] => by rw [visitAll]
  | e :: es => by rw [visitAll, codeAll, codeAll, code_visit ht e, codeAll_visit ht es]
end
end

mutual
theorem visit_same : ∀ e, (∀ r ∈ refs e, r = none) → visit id e = e
  | .name s, _ => by rw [visit]; rfl
  | .call f args, h => by
    rw [refs] at h
    rw [visit, visit_same f (fun r hr => h r (List.mem_append_left _ hr)), visitAll_same args (fun r hr => h r (List.mem_append_right _ hr))]
    rfl
  | .candidate e, h => by
    rw [refs] at h
    rw [visit, visit_same e h]
    rfl
  | .quantized o op r f args, h => by
    rw [refs] at h
    have hr := h r List.mem_cons_self
    subst hr
    rw [visit, visit_same f (fun r hr => h r (List.mem_cons_of_mem _ (List.mem_append_left _ hr))),
      visitAll_same args (fun r hr => h r (List.mem_cons_of_mem _ (List.mem_append_right _ hr)))]
    rfl
  | .unresolved o r f args, h => by
    rw [refs] at h
    rw [visit, visit_same f (fun r hr => h r (List.mem_append_left _ hr)), visitAll_same args (fun r hr => h r (List.mem_append_right _ hr))]
    rfl
  | .quantizer _ _, _ => by rw [visit]; rfl
  | .cls _, _ => by rw [visit]; rfl
theorem visitAll_same : ∀ es, (∀ r ∈ refsAll es, r = none) → visitAll id es = es
  | [], _ => by rw [visitAll]
  | e :: es, h => by
    rw [refsAll] at h
    rw [visitAll, visit_same e (fun r hr => h r (List.mem_append_left _ hr)), visitAll_same es (fun r hr => h r (List.mem_append_right _ hr))]
end

mutual
theorem refs_visit : ∀ e, refs (visit id e) = (refs e).map fun _ => none
  | .name s => by rw [visit]; rfl
  | .call f args => by rw [visit, id, refs, refs, refs_visit f, refsAll_visit args, List.map_append]
  | .candidate e => by rw [visit, id, refs, refs, refs_visit e]
  | .quantized _ _ _ f args => by rw [visit, id, refs, refs, refs_visit f, refsAll_visit args, List.map_cons, List.map_append]
  | .unresolved _ _ f args => by rw [visit, id, refs, refs, refs_visit f, refsAll_visit args, List.map_append]
  | .quantizer _ _ => by rw [visit]; rfl
  | .cls _ => by rw [visit]; rfl
theorem refsAll_visit : ∀ es, refsAll (visitAll id es) = (refsAll es).map fun _ => none
  | [] => by rw [visitAll]; rfl
  | e :: es => by rw [visitAll, refsAll, refsAll, refs_visit e, refsAll_visit es, List.map_append]
end

mutual
theorem names_visit (f : String → String) : ∀ e, names (visit (rename f) e) = (names e).map f
  | .name s => by rw [visit]; rfl
  | .call g args => by rw [visit, rename, names, names, names_visit f g, namesAll_visit f args, List.map_append] <;> nofun
  | .candidate e => by rw [visit, rename, names, names, names_visit f e] <;> nofun
  | .quantized _ _ _ g args => by rw [visit, rename, names, names, names_visit f g, namesAll_visit f args, List.map_append] <;> nofun
  | .unresolved _ _ g args => by rw [visit, rename, names, names, names_visit f g, namesAll_visit f args, List.map_append] <;> nofun
  | .quantizer _ _ => by rw [visit]; rfl
  | .cls _ => by rw [visit]; rfl
theorem namesAll_visit (f : String → String) : ∀ es, namesAll (visitAll (rename f) es) = (namesAll es).map f
  | [] => by rw [visitAll]; rfl
  | e :: es => by rw [visitAll, namesAll, namesAll, names_visit f e, namesAll_visit f es, List.map_append]
end

mutual
theorem code_plain : ∀ e, code (plain e) = code e
  | .name s => by rw [plain]
  | .call f args => by rw [plain, code, code, code_plain f, codeAll_plain args]
  | .candidate e => by rw [plain, code, code_plain e]
  | .quantized _ _ _ f args => by rw [plain, code, code, code_plain f, codeAll_plain args]
  | .unresolved _ _ f args => by rw [plain, code, code, code_plain f, codeAll_plain args]
  | .quantizer _ _ => by rw [plain, code, code]
  | .cls _ => by rw [plain, code, code]
theorem codeAll_plain : ∀ es, codeAll (plainAll es) = codeAll es
  | [] => by rw [plainAll]
  | e :: es => by rw [plainAll, codeAll, codeAll, code_plain e, codeAll_plain es]
end

theorem zip_back (ts ts' : List (Expr × String)) (h : ts.map (·.2) = ts'.map (·.2)) : ((ts.zip (ts'.map (·.1))).map fun p => (p.2, p.1.2)) = ts' := by
  induction ts generalizing ts' with
  | nil =>
    cases ts' with
    | nil => rfl
    | cons _ _ => cases h
  | cons a ts ih =>
    cases ts' with
    | nil => cases h
    | cons b ts' =>
      rw [List.map_cons, List.map_cons] at h
      injection h with h1 h2
      rw [List.map_cons, List.zip_cons_cons, List.map_cons, ih ts' h2, h1]

theorem codeA_assign_congr (ts : List (Expr × String)) : ∀ (as bs : List Expr), as.map code = bs.map code →
    (((ts.zip as).map fun p => (p.2, p.1.2)).flatMap fun p => code p.1 ++ [p.2, "="]) =
      (((ts.zip bs).map fun p => (p.2, p.1.2)).flatMap fun p => code p.1 ++ [p.2, "="]) := by
  induction ts with
  | nil => intros; rfl
  | cons t ts ih =>
    intro as bs h
    cases as with
    | nil =>
      cases bs with
      | nil => rfl
      | cons _ _ => cases h
    | cons a as =>
      cases bs with
      | nil => cases h
      | cons b bs =>
        rw [List.map_cons, List.map_cons] at h
        injection h with h1 h2
        simp only [List.zip_cons_cons, List.map_cons, List.flatMap_cons]
        rw [ih as bs h2, h1]

/-! ## Properties -/

/-- **C132.** A wrapped assignment is printed as the assignment it stands for: with the targets, annotation and value it has now, and with the whitespace, the
operator and the semicolon of the source. -/
theorem wrapped_code (orig u : Assignment) (h : SameForm orig u) : codeG (wrap orig u) = some (codeA u) := by
  cases h with
  | @assign ts ts' v v' semi hw =>
    have hl : ts'.length = ts.length := by
      have := congrArg List.length hw
      simpa using this.symm
    simp only [codeG, wrap, validate, deflate, Option.isSome_some, Bool.true_and, List.length_map, hl, BEq.rfl, if_true, Option.map_some]
    rw [zip_back ts ts' hw]
  | @ann t a t' a' v v' semi hv =>
    have : (v'.isNone == v.isNone) = true := by
      cases v <;> cases v' <;> simp at hv ⊢
    simp [codeG, wrap, validate, deflate, this]
  | aug t t' op v v' semi => simp [codeG, wrap, validate, deflate]

/-- **C132.** Marks do not show in the code: an expression is printed as the same expression without its marker nodes. -/
theorem marks_not_printed (e : Expr) : code e = code (plain e) := (code_plain e).symm

/-- **C132.** Printing a wrapped assignment is refused exactly if it has another number of targets than the assignment in the source, a value although that has
none or the other way round, or no annotation although that has one. -/
theorem refused_iff (g : General) : codeG g = none ↔ g.targets.length ≠ arity g.original ∨ ¬(g.value ≠ none ↔ hasValue g.original) ∨
    (annotated g.original ∧ g.annotation = none) := by
  obtain ⟨o, ts, a, v, s⟩ := g
  cases o with
  | assign ts0 v0 semi =>
    cases v with
    | none => simp [codeG, validate, hasValue]
    | some v =>
      by_cases hl : ts.length = ts0.length
      · simp [codeG, validate, deflate, arity, hasValue, annotated, hl]
      · simp [codeG, validate, arity, hl]
  | ann t0 a0 v0 semi =>
    by_cases hl : ts.length = 1
    · obtain ⟨x, rfl⟩ : ∃ x, ts = [x] := by
        match ts, hl with
        | [x], _ => exact ⟨x, rfl⟩
      cases a <;> cases v <;> cases v0 <;> simp [codeG, validate, deflate, arity, hasValue, annotated]
    · cases a <;> cases v <;> cases v0 <;> simp [codeG, validate, arity, hl]
  | aug t0 op v0 semi =>
    by_cases hl : ts.length = 1
    · obtain ⟨x, rfl⟩ : ∃ x, ts = [x] := by
        match ts, hl with
        | [x], _ => exact ⟨x, rfl⟩
      cases v <;> simp [codeG, validate, deflate, arity, hasValue, annotated]
    · cases v <;> simp [codeG, validate, arity, hl]

/-- **C132.** A pass that does not change the code of any node does not change that of an expression or a wrapped assignment. -/
theorem traversal_keeps_code (t : Expr → Expr) (ht : ∀ e, code (t e) = code e) :
    (∀ e, code (visit t e) = code e) ∧ ∀ g, codeG (visitG t g) = codeG g := by
  refine ⟨code_visit ht, fun g => ?_⟩
  obtain ⟨o, ts, a, v, s⟩ := g
  have hv : validate (visitG t ⟨o, ts, a, v, s⟩) = validate ⟨o, ts, a, v, s⟩ := by
    cases o <;> simp [visitG, validate]
  unfold codeG
  rw [hv]
  by_cases hc : validate ⟨o, ts, a, v, s⟩ = true
  · rw [if_pos hc, if_pos hc]
    cases o with
    | assign ts0 v0 semi =>
      cases v with
      | none => simp [visitG, deflate]
      | some v =>
        simp only [visitG, deflate, Option.map_some, codeA, code_visit ht]
        rw [codeA_assign_congr ts0 (ts.map (visit t)) ts (by simp [code_visit ht])]
    | ann t0 a0 v0 semi =>
      cases ts with
      | nil => simp [visitG, deflate]
      | cons x xs =>
        cases a with
        | none => simp [visitG, deflate]
        | some a => cases v <;> simp [visitG, deflate, codeA, code_visit ht]
    | aug t0 op v0 semi =>
      cases ts with
      | nil => simp [visitG, deflate]
      | cons x xs => cases v <;> simp [visitG, deflate, codeA, code_visit ht]
  · rw [if_neg hc, if_neg hc]

/-- **C132.** A pass that does not itself change the marks of a node keeps all marks, in their order: what is a candidate, which operations are quantized and by
which operator, which function an unresolved call is of, and which quantizer a reference refers to. -/
theorem traversal_keeps_marks (t : Expr → Expr) (ht : ∀ e, marks (t e) = marks e) (e : Expr) : marks (visit t e) = marks e := marks_visit ht e

/-- **C132 (partial).** A pass that changes no node gives the same expression. Missing: quantized calls that know their function, see `function_forgotten`. -/
theorem traversal_same_partial (e : Expr) (h : ∀ r ∈ refs e, r = none) : visit id e = e := visit_same e h

/-- **C132.** A pass reaches every part: a pass that changes names changes all names in an expression, and all in the targets, the annotation and the value of a
wrapped assignment, and keeps their order. -/
theorem traversal_reaches_all (f : String → String) : (∀ e, names (visit (rename f) e) = (names e).map f) ∧
    ∀ g : General, namesAll (visitG (rename f) g).targets = (namesAll g.targets).map f ∧
      namesAll (visitG (rename f) g).annotation.toList = (namesAll g.annotation.toList).map f ∧
      namesAll (visitG (rename f) g).value.toList = (namesAll g.value.toList).map f := by
  have hm : ∀ es : List Expr, es.map (visit (rename f)) = visitAll (rename f) es := by
    intro es
    induction es with
    | nil => rw [visitAll]; rfl
    | cons e es ih => rw [visitAll, List.map_cons, ih]
  have ho : ∀ o : Option Expr, namesAll (o.map (visit (rename f))).toList = (namesAll o.toList).map f := by
    intro o
    cases o with
    | none => rfl
    | some e => simp [namesAll, names_visit f e]
  refine ⟨names_visit f, fun g => ⟨?_, ho _, ho _⟩⟩
  rw [visitG]
  simp only []
  rw [hm, namesAll_visit]

/-- **C132.** A block is unwrapped iff it has a single statement and that is of the type. -/
theorem unwrapped_iff (ok : String → Bool) (b : Block) : (∀ s, unwrap ok b = .inr s ↔ b.body = [s] ∧ ok s.2 = true) ∧ ∀ b', unwrap ok b = .inl b' → b' = b := by
  unfold unwrap
  split
  · rename_i x hx
    by_cases h : ok x.2 = true
    · rw [if_pos h]
      refine ⟨fun s => ⟨fun hs => ?_, fun ⟨hs, _⟩ => ?_⟩, nofun⟩
      · injection hs with hs
        subst hs
        exact ⟨hx, h⟩
      · rw [hx] at hs
        injection hs with hs _
        rw [hs]
    · rw [if_neg h]
      refine ⟨fun s => ⟨nofun, fun ⟨hs, ho⟩ => ?_⟩, fun b' hb => ?_⟩
      · rw [hx] at hs
        injection hs with hs _
        subst hs
        exact absurd ho h
      · injection hb with hb
        exact hb.symm
  · rename_i hx
    refine ⟨fun s => ⟨nofun, fun ⟨hs, _⟩ => absurd hs (hx s)⟩, fun b' hb => ?_⟩
    injection hb with hb
    exact hb.symm

/-- **C132.** Combined blocks have the statements of both, in order, with the lines above each. -/
theorem combined_statements (b1 b2 : Block) : (combine b1 b2).body = b1.body ++ b2.body ∧ (combine b1 b2).header = b1.header := by
  unfold combine
  by_cases h : b2.body.length = 0
  · rw [if_pos h, List.length_eq_zero_iff.1 h, List.append_nil]
    exact ⟨rfl, rfl⟩
  · rw [if_neg h]
    exact ⟨rfl, rfl⟩

/-- **C132.** Flattening keeps the statements of the inner block and the comments at the beginning and the end of both. -/
theorem flattened_keeps (b1 b2 : Block) : (flatten b1 b2).body = b2.body ∧ (flatten b1 b2).footer = b2.footer ++ b1.footer ∧
    (∀ a b, b1.header = some a → b2.header = some b → (flatten b1 b2).header = some (a ++ " " ++ b)) ∧
    (b1.header = none → (flatten b1 b2).header = b2.header) ∧ (b2.header = none → (flatten b1 b2).header = b1.header) := by
  refine ⟨rfl, rfl, fun a b ha hb => ?_, fun h => ?_, fun h => ?_⟩
  · simp [flatten, mergeHeader, ha, hb]
  · cases hb : b2.header <;> simp [flatten, mergeHeader, h, hb]
  · cases ha : b1.header <;> simp [flatten, mergeHeader, h, ha]

/-! ## Deviations -/

/-- **C132, deviation.** After any traversal, also one that changes nothing, no quantized call knows the function that it replaced. -/
theorem function_forgotten (e : Expr) : refs (visit id e) = (refs e).map fun _ => none := refs_visit e

/-- **C132, deviation.** Changing the semicolon of a wrapped assignment has no effect: after splitting `a = 1; b = 2` into lines the semicolon is still there. -/
theorem semicolon_ignored (g : General) (s : Option Bool) : codeG { g with semi := s } = codeG g := rfl

/-- **C132, deviation.** Combining blocks loses the comments at the end of the first block and at the beginning of the second; and, if the second has no
statements, those at its end. -/
theorem combined_comments_lost (b1 b2 : Block) : lines (combine b1 b2) = b1.header.toList ++ (b1.body.flatMap fun s => s.1 ++ [s.2]) ++
    if b2.body = [] then b1.footer else (b2.body.flatMap fun s => s.1 ++ [s.2]) ++ b2.footer := by
  unfold combine lines
  by_cases h : b2.body = []
  · rw [if_pos (by rw [h]; rfl), if_pos h]
  · rw [if_neg (fun hh => h (List.length_eq_zero_iff.1 hh)), if_neg h]
    simp

/-- **C132, deviation.** Unwrapping a block with a single statement loses the comments of the block. -/
theorem unwrapped_comments_lost (ok : String → Bool) (s : List String × String) (h : ok s.2 = true) (b : Block) (hb : b.body = [s]) :
    unwrap ok b = .inr s ∧ lines b = b.header.toList ++ (s.1 ++ [s.2]) ++ b.footer := by
  constructor
  · simp [unwrap, hb, h]
  · simp [lines, hb]

/-! ## Concrete cases -/

/-- `x = y = f(z)` -/
def sample : Assignment := .assign [(.name "x", " "), (.name "y", "  ")] (.call (.name "f") [.name "z"]) true

example : codeG (wrap sample sample) = some ["x", " ", "=", "y", "  ", "=", "f", "(", "z", ",", ")", ";"] := by decide +kernel
example : SameForm sample (.assign [(.name "a", " "), (.quantizer 3 "q", "  ")] (.name "v") true) := .assign _ _ _ rfl
example : SameForm (.ann (.name "x") (.name "int") none false) (.ann (.name "y") (.name "int") none false) := .ann _ _ _ _ _ Iff.rfl
/-- One target less than in the source. -/
example : codeG { wrap sample sample with targets := [.name "x"] } = none := by decide +kernel
/-- A transformer that changes names keeps marks. -/
example : ∀ e, marks ((fun e => match e with | .name s => .name (s ++ "_") | e => e) e) = marks e := by
  intro e
  cases e <;> rfl
example : marks (.candidate (.unresolved "f" 2 (.name "f") [.quantizer 5 "q"])) = [.candidate, .unresolved "f" 2, .quantizer 5] := by decide +kernel
example : combine ⟨some "# a", [([], "x = 1")], ["# end"]⟩ ⟨some "# b", [(["# y"], "y = 2")], ["# last"]⟩ =
    ⟨some "# a", [([], "x = 1"), (["# y"], "y = 2")], ["# last"]⟩ := by decide +kernel

end FF.Markers
