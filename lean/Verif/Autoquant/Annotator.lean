import Mathlib.Data.List.Basic
import Mathlib.Logic.Function.Basic
import Mathlib.Data.List.Nodup

/-!
# Where autoquant inserts quantizers for variables

Models `_autoquant/cst/quantizer_analysis/annotator.py` (`_QuantizationAnnotator` for variables) and
`_autoquant/cst/quantizer_analysis/scope.py`.
-/

namespace FF.Dataflow

/-! ## Model -/

/-- What follows the body of an `if`: nothing, an `elif`, or an `else`. -/
inductive OrElse
  | none
  | elif
  | els
  deriving DecidableEq

/-- A block of statements, as far as `_QuantizationAnnotator` looks at it. Variables and the nodes that assign them ("producers")
are numbers; conditions are not looked at. Statements after `return`, `break`, `continue` and `raise` are not visited
(`annotator.py:379-413`) and are left out.
* `assign p x q`: node `p` assigns `x`; `q` tells whether the value is the result of an operator that returns quantized values;
* `use x`: `x` is passed for a parameter that has to be quantized;
* `loop target test body`: `for` (with `target`) or `while` (`test`: the variables used as quantized arguments in the condition). -/
inductive Prog
  | done
  | ret
  | raise
  | brk
  | cont
  | assign (p x : ℕ) (q : Bool) (rest : Prog)
  | use (x : ℕ) (rest : Prog)
  | ite (thn els : Prog) (kind : OrElse) (rest : Prog)
  | loop (target : Option (ℕ × ℕ)) (test : List ℕ) (body rest : Prog)
  | try_ (body handler rest : Prog)
  deriving DecidableEq

/-- `scope.py:16-21` `_Assignment`: variable, producer, and the identity of the object, which is shared between scopes. -/
structure Entry where
  x : ℕ
  p : ℕ
  obj : ℕ
  deriving DecidableEq

/-- `scope.py:245` the termination status. -/
inductive Status
  | ret
  | raise
  | brk
  deriving DecidableEq

/-- `scope.py:248-281` `Scope` without its parent (the scopes around it are passed as a list). `_assignments`, a dictionary of
dictionaries, is the list of its entries. `breaking` are the assignments of the scopes in `_breaking_scopes`, each with a mark
telling that the scope is a copy of this one, sharing the list that it is in. -/
structure Scope where
  entries : List Entry := []
  isLoop : Bool := false
  repeated : Bool := false
  status : Option Status := none
  breaking : List (List Entry × Bool) := []
  deriving DecidableEq

/-- The rest of the state: the `is_quantized` flags of assignments, the next fresh object, and the annotations
(producer, target). -/
structure Mem where
  heap : ℕ → Bool := fun _ => false
  next : ℕ := 0
  annots : List (ℕ × ℕ) := []

/-- Exceptions. -/
inductive Err
  | mismatch
  | terminated
  | breakOutside
  | recursion
  deriving DecidableEq

/-- `scope.py:38-62, 295-306` `record_assignment`: an assignment by the same node is updated, otherwise all assignments of the
variable are replaced. -/
def record (m : Mem) (s : Scope) (p x : ℕ) (q : Bool) : Except Err (Mem × Scope) :=
  if s.status.isSome then .error .terminated
  else
    match s.entries.find? (fun e => e.x == x && e.p == p) with
    | some e => .ok ({ m with heap := Function.update m.heap e.obj (m.heap e.obj || q) }, s)
    | none => .ok ({ m with heap := Function.update m.heap m.next q, next := m.next + 1 },
                   { s with entries := s.entries.filter (fun e => e.x != x) ++ [⟨x, p, m.next⟩] })

/-- `annotator.py:754-765`: the body of the loop in `_ensure_quantized_var`. -/
def ensureEntry (m : Mem) (e : Entry) : Mem :=
  if m.heap e.obj then m
  else { m with heap := Function.update m.heap e.obj true, annots := m.annots ++ [(e.p, e.x)] }

/-- `annotator.py:747-765` `_ensure_quantized_var`, looking the variable up in all enclosing scopes (`scope.py:348-359`). -/
def ensure (m : Mem) (scopes : List Scope) (x : ℕ) : Mem :=
  ((scopes.flatMap Scope.entries).filter (fun e => e.x == x)).foldl ensureEntry m

/-- Quantized uses in the condition of a `while`. -/
def ensureAll (m : Mem) (scopes : List Scope) (xs : List ℕ) : Mem := xs.foldl (fun m x => ensure m scopes x) m

/-- `scope.py:210-229` `merge_` with `can_merge_assignment` of `:449-452`. -/
def mergeEntries (m : Mem) (self other : List Entry) : Except Err (List Entry) :=
  other.foldlM (fun es e =>
    match es.find? (fun e' => e'.x == e.x && e'.p == e.p) with
    | none => .ok (es ++ [e])
    | some e' => if m.heap e'.obj = m.heap e.obj then .ok es else .error .mismatch) self

/-- The statuses of `scope.py:382-387`. -/
def left (s : Scope) : Bool := s.status == some .ret || s.status == some .raise

/-- `scope.py:414-416`: the scopes that were broken out of. A scope that is in its own list is merged without end. -/
def mergeBreaking (m : Mem) (es : List Entry) (other : Scope) : Except Err (List Entry) :=
  if other.isLoop then
    other.breaking.foldlM (fun es b => if b.2 then .error .recursion else mergeEntries m es b.1) es
  else .ok es

/-- `scope.py:361-418` `merge(..., inplace=True)`, of which the callers ignore the result. -/
def mergeInto (m : Mem) (self other : Scope) : Except Err Scope :=
  if left other then .ok self
  else if left self then .ok self
  else do
    let es ← mergeEntries m self.entries other.entries
    let es ← mergeBreaking m es other
    .ok { self with entries := es }

/-- `scope.py:361-418` `merge(..., inplace=False)`. -/
def mergeNew (m : Mem) (self other : Scope) : Except Err Scope :=
  if left self && left other then .ok {}
  else if left other then .ok self
  else if left self then .ok other
  else do
    let es ← mergeEntries m self.entries other.entries
    let es ← mergeBreaking m es other
    .ok { self with entries := es }

/-- `scope.py:231-242, 420-429` `overwrite`. -/
def overwrite (self other : Scope) : Scope :=
  { self with entries := self.entries.filter (fun e => e.x ∉ other.entries.map Entry.x) ++ other.entries }

/-- `scope.py:308-346` `terminate("break")` and `_resolve_scope_break`. -/
def breakScope (s : Scope) (outer : List Scope) : Except Err (Scope × List Scope) :=
  let s' := { s with status := some .brk, entries := [] }
  if s.repeated then
    if s.isLoop then .ok ({ s' with breaking := s.breaking ++ [(s.entries, true)] }, outer)
    else
      match outer.findIdx? Scope.isLoop with
      | none => .error .breakOutside
      | some i => .ok (s', outer.modify i (fun l => { l with breaking := l.breaking ++ [(s.entries, false)] }))
  else .ok (s', outer)

/-- `annotator.py:798-816` `_if_node_is_exhaustive`. -/
def exhaustive (els : Prog) (kind : OrElse) : Bool :=
  match kind with
  | .none => false
  | .els => true
  | .elif =>
    match els with
    | .ite _ e k _ => exhaustive e k
    | _ => false

/-- `annotator.py:578-579`: the assignment of the target of a `for`. -/
def recordTarget (m : Mem) (s : Scope) : Option (ℕ × ℕ) → Except Err (Mem × Scope)
  | none => .ok (m, s)
  | some (p, x) => record m s p x false

/-- `annotator.py:379-627`: visit a block in scope `s` inside the scopes `outer`. -/
def eval : Prog → Mem → Scope → List Scope → Except Err (Mem × Scope × List Scope)
  | .done, m, s, outer => .ok (m, s, outer)
  | .ret, m, s, outer => .ok (m, { s with status := some .ret }, outer)
  | .raise, m, s, outer => .ok (m, { s with status := some .raise }, outer)
  | .cont, m, s, outer => .ok (m, s, outer)
  | .brk, m, s, outer => do
    let r ← breakScope s outer
    .ok (m, r.1, r.2)
  | .assign p x q rest, m, s, outer => do
    let r ← record m s p x q
    eval rest r.1 r.2 outer
  | .use x rest, m, s, outer => eval rest (ensure m (s :: outer) x) s outer
  | .ite thn els kind rest, m, s, outer => do
    let (m1, t, up1) ← eval thn m { repeated := s.repeated } (s :: outer)
    match up1 with
    | [] => .error .terminated
    | s1 :: outer1 =>
      if kind = .none then do
        let s2 ← mergeInto m1 s1 t
        eval rest m1 s2 outer1
      else do
        let (m2, f, up2) ← eval els m1 { repeated := s1.repeated } (s1 :: outer1)
        match up2 with
        | [] => .error .terminated
        | s2 :: outer2 =>
          let j ← mergeNew m2 t f
          if exhaustive els kind then eval rest m2 (overwrite s2 j) outer2
          else do
            let s3 ← mergeInto m2 s2 j
            eval rest m2 s3 outer2
  | .loop target test body rest, m, s, outer => do
    let m := ensureAll m (s :: outer) test
    let (m1, l1) ← recordTarget m { isLoop := true, repeated := s.repeated } target
    let (m2, l2, up2) ← eval body m1 l1 (s :: outer)
    match up2 with
    | [] => .error .terminated
    | s2 :: outer2 =>
      if l2.status.isSome then do
        let s3 ← mergeInto m2 s2 l2
        eval rest m2 s3 outer2
      else do
        let m3 := ensureAll m2 ({ l2 with repeated := true } :: s2 :: outer2) test
        let (m4, l4) ← recordTarget m3 { l2 with repeated := true } target
        let (m5, l5, up5) ← eval body m4 l4 (s2 :: outer2)
        match up5 with
        | [] => .error .terminated
        | s5 :: outer5 => do
          let s6 ← mergeInto m5 s5 l5
          eval rest m5 s6 outer5
  | .try_ body handler rest, m, s, outer => do
    let (m1, b, up1) ← eval body m { repeated := s.repeated } (s :: outer)
    match up1 with
    | [] => .error .terminated
    | s1 :: outer1 => do
      let (m2, h, up2) ← eval handler m1 { repeated := s1.repeated } (s1 :: outer1)
      match up2 with
      | [] => .error .terminated
      | s2 :: outer2 => do
        let _ ← mergeNew m2 b h
        eval rest m2 s2 outer2

/-- `annotator.py:368-372, 415-417`: a function with its parameters. Result: the annotated (producer, variable) pairs, for each of
which a statement `x = quantizer(x)` is inserted after the producer. -/
def analyse (params : List (ℕ × ℕ)) (body : Prog) : Except Err (List (ℕ × ℕ)) := do
  let r ← params.foldlM (fun r px => record r.1 r.2 px.1 px.2 false) (({} : Mem), ({} : Scope))
  let r ← eval body r.1 r.2 [{}]
  .ok r.1.annots

/-! ## Specification: executions -/

/-- Which node assigned each variable last. -/
abbrev Env := ℕ → Option ℕ

/-- How a block ends. -/
inductive Outcome
  | normal
  | ret
  | raise
  | brk
  | cont
  deriving DecidableEq

/-- The target of a `for` is assigned. -/
def setTarget (e : Env) : Option (ℕ × ℕ) → Env
  | none => e
  | some (p, x) => Function.update e x (some p)

/-- `Exec b e o e'`: some execution of the block that starts in `e` ends with outcome `o` in `e'`. Any condition may turn out either
way, and loops may run any number of times. -/
inductive Exec : Prog → Env → Outcome → Env → Prop
  | done (e) : Exec .done e .normal e
  | ret (e) : Exec .ret e .ret e
  | raise (e) : Exec .raise e .raise e
  | brk (e) : Exec .brk e .brk e
  | cont (e) : Exec .cont e .cont e
  | assign (p x q rest e o e') (h : Exec rest (Function.update e x (some p)) o e') : Exec (.assign p x q rest) e o e'
  | use (x rest e o e') (h : Exec rest e o e') : Exec (.use x rest) e o e'
  | thn (t f k rest e e1 o e') (h1 : Exec t e .normal e1) (h2 : Exec rest e1 o e') : Exec (.ite t f k rest) e o e'
  | thnOut (t f k rest e o e') (ho : o ≠ .normal) (h : Exec t e o e') : Exec (.ite t f k rest) e o e'
  | els (t f k rest e e1 o e') (hk : k ≠ .none) (h1 : Exec f e .normal e1) (h2 : Exec rest e1 o e') : Exec (.ite t f k rest) e o e'
  | elsOut (t f k rest e o e') (hk : k ≠ .none) (ho : o ≠ .normal) (h : Exec f e o e') : Exec (.ite t f k rest) e o e'
  | skip (t f rest e o e') (h : Exec rest e o e') : Exec (.ite t f .none rest) e o e'
  | loopDone (tg ts b rest e o e') (h : Exec rest e o e') : Exec (.loop tg ts b rest) e o e'
  | loopNext (tg ts b rest e o1 e1 o e') (ho : o1 = .normal ∨ o1 = .cont) (h1 : Exec b (setTarget e tg) o1 e1)
      (h2 : Exec (.loop tg ts b rest) e1 o e') : Exec (.loop tg ts b rest) e o e'
  | loopBreak (tg ts b rest e e1 o e') (h1 : Exec b (setTarget e tg) .brk e1) (h2 : Exec rest e1 o e') :
      Exec (.loop tg ts b rest) e o e'
  | loopOut (tg ts b rest e o e') (ho : o = .ret ∨ o = .raise) (h : Exec b (setTarget e tg) o e') :
      Exec (.loop tg ts b rest) e o e'
  | tryOk (b h rest e e1 o e') (h1 : Exec b e .normal e1) (h2 : Exec rest e1 o e') : Exec (.try_ b h rest) e o e'
  | tryOut (b h rest e o e') (ho : o ≠ .normal ∧ o ≠ .raise) (h1 : Exec b e o e') : Exec (.try_ b h rest) e o e'
  | caught (b h rest e e1 e2 o e') (h1 : Exec b e .raise e1) (h2 : Exec h e1 .normal e2) (h3 : Exec rest e2 o e') :
      Exec (.try_ b h rest) e o e'
  | caughtOut (b h rest e e1 o e') (ho : o ≠ .normal) (h1 : Exec b e .raise e1) (h2 : Exec h e1 o e') :
      Exec (.try_ b h rest) e o e'

/-- `Sees b e x p`: some execution of the block that starts in `e` uses `x` as a quantized argument while the value of `x` is the one
assigned by `p`. -/
inductive Sees : Prog → Env → ℕ → ℕ → Prop
  | here (y rest e p) (h : e y = some p) : Sees (.use y rest) e y p
  | use (y rest e x p) (h : Sees rest e x p) : Sees (.use y rest) e x p
  | assign (p' y q rest e x p) (h : Sees rest (Function.update e y (some p')) x p) : Sees (.assign p' y q rest) e x p
  | inThn (t f k rest e x p) (h : Sees t e x p) : Sees (.ite t f k rest) e x p
  | inEls (t f k rest e x p) (hk : k ≠ .none) (h : Sees f e x p) : Sees (.ite t f k rest) e x p
  | afterThn (t f k rest e e1 x p) (h1 : Exec t e .normal e1) (h2 : Sees rest e1 x p) : Sees (.ite t f k rest) e x p
  | afterEls (t f k rest e e1 x p) (hk : k ≠ .none) (h1 : Exec f e .normal e1) (h2 : Sees rest e1 x p) :
      Sees (.ite t f k rest) e x p
  | skip (t f rest e x p) (h : Sees rest e x p) : Sees (.ite t f .none rest) e x p
  | test (tg ts b rest e x p) (hx : x ∈ ts) (h : e x = some p) : Sees (.loop tg ts b rest) e x p
  | body (tg ts b rest e x p) (h : Sees b (setTarget e tg) x p) : Sees (.loop tg ts b rest) e x p
  | next (tg ts b rest e o1 e1 x p) (ho : o1 = .normal ∨ o1 = .cont) (h1 : Exec b (setTarget e tg) o1 e1)
      (h2 : Sees (.loop tg ts b rest) e1 x p) : Sees (.loop tg ts b rest) e x p
  | loopDone (tg ts b rest e x p) (h : Sees rest e x p) : Sees (.loop tg ts b rest) e x p
  | loopBreak (tg ts b rest e e1 x p) (h1 : Exec b (setTarget e tg) .brk e1) (h2 : Sees rest e1 x p) :
      Sees (.loop tg ts b rest) e x p
  | inTry (b h rest e x p) (h1 : Sees b e x p) : Sees (.try_ b h rest) e x p
  | inHandler (b h rest e e1 x p) (h1 : Exec b e .raise e1) (h2 : Sees h e1 x p) : Sees (.try_ b h rest) e x p
  | afterTry (b h rest e e1 x p) (h1 : Exec b e .normal e1) (h2 : Sees rest e1 x p) : Sees (.try_ b h rest) e x p
  | afterHandler (b h rest e e1 e2 x p) (h1 : Exec b e .raise e1) (h2 : Exec h e1 .normal e2) (h3 : Sees rest e2 x p) :
      Sees (.try_ b h rest) e x p

/-- The program has an assignment of `x` by node `p` whose value is already quantized. -/
def AlreadyQuantized : Prog → ℕ → ℕ → Prop
  | .assign p' y q rest, p, x => (p' = p ∧ y = x ∧ q = true) ∨ AlreadyQuantized rest p x
  | .use _ rest, p, x => AlreadyQuantized rest p x
  | .ite t f _ rest, p, x => AlreadyQuantized t p x ∨ AlreadyQuantized f p x ∨ AlreadyQuantized rest p x
  | .loop _ _ b rest, p, x => AlreadyQuantized b p x ∨ AlreadyQuantized rest p x
  | .try_ b h rest, p, x => AlreadyQuantized b p x ∨ AlreadyQuantized h p x ∨ AlreadyQuantized rest p x
  | _, _, _ => False

/-- The variables assigned in a block. -/
def Assigns : Prog → ℕ → Prop
  | .assign _ y _ rest, x => y = x ∨ Assigns rest x
  | .use _ rest, x => Assigns rest x
  | .ite t f k rest, x => Assigns t x ∨ (k ≠ .none ∧ Assigns f x) ∨ Assigns rest x
  | .loop tg _ b rest, x => (∃ p, tg = some (p, x)) ∨ Assigns b x ∨ Assigns rest x
  | .try_ b h rest, x => Assigns b x ∨ Assigns h x ∨ Assigns rest x
  | _, _ => False

/-- Every execution of the block that gets to its end assigns `x`: a block entered with `x` unassigned leaves it assigned. -/
def AlwaysAssigns (b : Prog) (x : ℕ) : Prop := ∀ e e', e x = none → Exec b e .normal e' → e' x ≠ none

/-- The chain of `elif`s ends in an `else`: one of the branches is always taken. -/
inductive EndsInElse : Prog → OrElse → Prop
  | els (f) : EndsInElse f .els
  | elif (t e k rest) (h : EndsInElse e k) : EndsInElse (.ite t e k rest) .elif

/-- The programs for which the analysis is sound: no `break`, `continue` or `try`, and in an exhaustive `if`, a variable assigned in
one of the two parts is assigned in both. -/
def Supported : Prog → Prop
  | .brk => False
  | .cont => False
  | .try_ _ _ _ => False
  | .assign _ _ _ rest => Supported rest
  | .use _ rest => Supported rest
  | .ite t f k rest => Supported t ∧ Supported f ∧ Supported rest
      ∧ (EndsInElse f k → ∀ x, Assigns t x ∨ Assigns f x → AlwaysAssigns t x ∧ AlwaysAssigns f x)
  | .loop _ _ b rest => Supported b ∧ Supported rest
  | _ => True

/-- No loops, and so no `break` and `continue`. -/
def LoopFree : Prog → Prop
  | .brk => False
  | .cont => False
  | .loop _ _ _ _ => False
  | .assign _ _ _ rest => LoopFree rest
  | .use _ rest => LoopFree rest
  | .ite t f _ rest => LoopFree t ∧ LoopFree f ∧ LoopFree rest
  | .try_ b h rest => LoopFree b ∧ LoopFree h ∧ LoopFree rest
  | _ => True

/-- The assignments in a loop-free program: node and variable. -/
def assignments : Prog → List (ℕ × ℕ)
  | .assign p x _ rest => (p, x) :: assignments rest
  | .use _ rest => assignments rest
  | .ite t f _ rest => assignments t ++ (assignments f ++ assignments rest)
  | .try_ b h rest => assignments b ++ (assignments h ++ assignments rest)
  | _ => []

/-- The environment at the start of a function: the later of two parameters with one name counts. -/
def entryEnv (params : List (ℕ × ℕ)) : Env :=
  params.foldl (fun e px => Function.update e px.2 (some px.1)) (fun _ => none)

/-! ## Lemmas -/

/-- First `e`, then the assignments of `g`. -/
def over (g e : Env) : Env := fun x => (g x).or (e x)

theorem over_assoc (g h e : Env) : over g (over h e) = over (over g h) e := by
  funext x
  simp only [over]
  cases g x <;> simp

theorem over_none (e : Env) : over (fun _ => none) e = e := by
  funext x
  simp [over]

theorem update_eq_over (e : Env) (x p : ℕ) :
    Function.update e x (some p) = over (Function.update (fun _ => none) x (some p)) e := by
  funext y
  by_cases h : y = x
  · subst h; simp [over]
  · simp [over, Function.update_of_ne h]

theorem setTarget_eq_over (tg : Option (ℕ × ℕ)) : ∃ h : Env, ∀ e, setTarget e tg = over h e := by
  cases tg with
  | none => exact ⟨fun _ => none, fun e => (over_none e).symm⟩
  | some px => exact ⟨_, fun e => update_eq_over e px.2 px.1⟩

/-- An execution assigns some variables, whatever the environment it starts in. -/
theorem exec_over {b : Prog} {e e' : Env} {o : Outcome} (h : Exec b e o e') :
    ∃ g, e' = over g e ∧ ∀ e2, Exec b e2 o (over g e2) := by
  have comp : ∀ {g1 g2 e e1 e' : Env}, e1 = over g1 e → e' = over g2 e1 → e' = over (over g2 g1) e := by
    intro g1 g2 e e1 e' h1 h2
    rw [h2, h1, over_assoc]
  induction h with
  | done e => exact ⟨fun _ => none, (over_none e).symm, fun e2 => by rw [over_none]; exact .done e2⟩
  | ret e => exact ⟨fun _ => none, (over_none e).symm, fun e2 => by rw [over_none]; exact .ret e2⟩
  | raise e => exact ⟨fun _ => none, (over_none e).symm, fun e2 => by rw [over_none]; exact .raise e2⟩
  | brk e => exact ⟨fun _ => none, (over_none e).symm, fun e2 => by rw [over_none]; exact .brk e2⟩
  | cont e => exact ⟨fun _ => none, (over_none e).symm, fun e2 => by rw [over_none]; exact .cont e2⟩
  | assign p x q rest e o e' h ih =>
    obtain ⟨g, h1, h2⟩ := ih
    refine ⟨_, comp (update_eq_over e x p) h1, fun e2 => .assign _ _ _ _ _ _ _ ?_⟩
    rw [← over_assoc, ← update_eq_over]
    exact h2 _
  | use x rest e o e' h ih =>
    obtain ⟨g, h1, h2⟩ := ih
    exact ⟨g, h1, fun e2 => .use _ _ _ _ _ (h2 e2)⟩
  | thn t f k rest e e1 o e' h1 h2 ih1 ih2 =>
    obtain ⟨g1, a1, b1⟩ := ih1
    obtain ⟨g2, a2, b2⟩ := ih2
    exact ⟨_, comp a1 a2, fun e2 => by rw [← over_assoc]; exact .thn _ _ _ _ _ _ _ _ (b1 e2) (b2 _)⟩
  | thnOut t f k rest e o e' ho h ih =>
    obtain ⟨g, h1, h2⟩ := ih
    exact ⟨g, h1, fun e2 => .thnOut _ _ _ _ _ _ _ ho (h2 e2)⟩
  | els t f k rest e e1 o e' hk h1 h2 ih1 ih2 =>
    obtain ⟨g1, a1, b1⟩ := ih1
    obtain ⟨g2, a2, b2⟩ := ih2
    exact ⟨_, comp a1 a2, fun e2 => by rw [← over_assoc]; exact .els _ _ _ _ _ _ _ _ hk (b1 e2) (b2 _)⟩
  | elsOut t f k rest e o e' hk ho h ih =>
    obtain ⟨g, h1, h2⟩ := ih
    exact ⟨g, h1, fun e2 => .elsOut _ _ _ _ _ _ _ hk ho (h2 e2)⟩
  | skip t f rest e o e' h ih =>
    obtain ⟨g, h1, h2⟩ := ih
    exact ⟨g, h1, fun e2 => .skip _ _ _ _ _ _ (h2 e2)⟩
  | loopDone tg ts b rest e o e' h ih =>
    obtain ⟨g, h1, h2⟩ := ih
    exact ⟨g, h1, fun e2 => .loopDone _ _ _ _ _ _ _ (h2 e2)⟩
  | loopNext tg ts b rest e o1 e1 o e' ho h1 h2 ih1 ih2 =>
    obtain ⟨gt, ht⟩ := setTarget_eq_over tg
    obtain ⟨g1, a1, b1⟩ := ih1
    obtain ⟨g2, a2, b2⟩ := ih2
    refine ⟨_, comp (comp (ht e) a1) a2, fun e2 => ?_⟩
    rw [← over_assoc, ← over_assoc, ← ht]
    exact .loopNext _ _ _ _ _ _ _ _ _ ho (b1 _) (b2 _)
  | loopBreak tg ts b rest e e1 o e' h1 h2 ih1 ih2 =>
    obtain ⟨gt, ht⟩ := setTarget_eq_over tg
    obtain ⟨g1, a1, b1⟩ := ih1
    obtain ⟨g2, a2, b2⟩ := ih2
    refine ⟨_, comp (comp (ht e) a1) a2, fun e2 => ?_⟩
    rw [← over_assoc, ← over_assoc, ← ht]
    exact .loopBreak _ _ _ _ _ _ _ _ (b1 _) (b2 _)
  | loopOut tg ts b rest e o e' ho h ih =>
    obtain ⟨gt, ht⟩ := setTarget_eq_over tg
    obtain ⟨g1, a1, b1⟩ := ih
    refine ⟨_, comp (ht e) a1, fun e2 => ?_⟩
    rw [← over_assoc, ← ht]
    exact .loopOut _ _ _ _ _ _ _ ho (b1 _)
  | tryOk b h rest e e1 o e' h1 h2 ih1 ih2 =>
    obtain ⟨g1, a1, b1⟩ := ih1
    obtain ⟨g2, a2, b2⟩ := ih2
    exact ⟨_, comp a1 a2, fun e2 => by rw [← over_assoc]; exact .tryOk _ _ _ _ _ _ _ (b1 e2) (b2 _)⟩
  | tryOut b h rest e o e' ho h1 ih =>
    obtain ⟨g, h1, h2⟩ := ih
    exact ⟨g, h1, fun e2 => .tryOut _ _ _ _ _ _ ho (h2 e2)⟩
  | caught b h rest e e1 e2 o e' h1 h2 h3 ih1 ih2 ih3 =>
    obtain ⟨g1, a1, b1⟩ := ih1
    obtain ⟨g2, a2, b2⟩ := ih2
    obtain ⟨g3, a3, b3⟩ := ih3
    refine ⟨_, comp (comp a1 a2) a3, fun e2 => ?_⟩
    rw [← over_assoc, ← over_assoc]
    exact .caught _ _ _ _ _ _ _ _ (b1 e2) (b2 _) (b3 _)
  | caughtOut b h rest e e1 o e' ho h1 h2 ih1 ih2 =>
    obtain ⟨g1, a1, b1⟩ := ih1
    obtain ⟨g2, a2, b2⟩ := ih2
    exact ⟨_, comp a1 a2, fun e2 => by rw [← over_assoc]; exact .caughtOut _ _ _ _ _ _ _ ho (b1 e2) (b2 _)⟩

theorem no_break {b : Prog} {e e' : Env} {o : Outcome} (h : Exec b e o e') (hs : Supported b) : o ≠ .brk ∧ o ≠ .cont := by
  induction h with
  | done | ret | raise => exact ⟨nofun, nofun⟩
  | brk | cont => exact absurd hs id
  | assign _ _ _ _ _ _ _ _ ih => exact ih hs
  | use _ _ _ _ _ _ ih => exact ih hs
  | thn _ _ _ _ _ _ _ _ _ _ _ ih => exact ih hs.2.2.1
  | thnOut _ _ _ _ _ _ _ _ _ ih => exact ih hs.1
  | els _ _ _ _ _ _ _ _ _ _ _ _ ih => exact ih hs.2.2.1
  | elsOut _ _ _ _ _ _ _ _ _ _ ih => exact ih hs.2.1
  | skip _ _ _ _ _ _ _ ih => exact ih hs.2.2.1
  | loopDone _ _ _ _ _ _ _ _ ih => exact ih hs.2
  | loopNext _ _ _ _ _ _ _ _ _ _ _ _ _ ih => exact ih hs
  | loopBreak _ _ _ _ _ _ _ _ _ _ _ ih => exact ih hs.2
  | loopOut _ _ _ _ _ _ _ _ _ ih => exact ih hs.1
  | tryOk | tryOut | caught | caughtOut => exact absurd hs id

/-- Some iterations of a loop that run to their end. -/
inductive Iter (tg : Option (ℕ × ℕ)) (b : Prog) : Env → Env → Prop
  | refl (e) : Iter tg b e e
  | step (e e1 e') (o) (ho : o = .normal ∨ o = .cont) (h : Exec b (setTarget e tg) o e1) (h2 : Iter tg b e1 e') : Iter tg b e e'

theorem exec_loop {l : Prog} {e e' : Env} {o : Outcome} (h : Exec l e o e') :
    ∀ tg ts b rest, l = .loop tg ts b rest → ∃ ek, Iter tg b e ek ∧
      (Exec rest ek o e' ∨ (∃ e1, Exec b (setTarget ek tg) .brk e1 ∧ Exec rest e1 o e')
        ∨ ((o = .ret ∨ o = .raise) ∧ Exec b (setTarget ek tg) o e')) := by
  induction h with
  | loopDone tg ts b rest e o e' h ih =>
    rintro _ _ _ _ ⟨⟩
    exact ⟨e, .refl e, .inl h⟩
  | loopNext tg ts b rest e o1 e1 o e' ho h1 h2 ih1 ih2 =>
    rintro _ _ _ _ ⟨⟩
    obtain ⟨ek, hi, hh⟩ := ih2 _ _ _ _ rfl
    exact ⟨ek, .step _ _ _ _ ho h1 hi, hh⟩
  | loopBreak tg ts b rest e e1 o e' h1 h2 ih1 ih2 =>
    rintro _ _ _ _ ⟨⟩
    exact ⟨e, .refl e, .inr (.inl ⟨e1, h1, h2⟩)⟩
  | loopOut tg ts b rest e o e' ho h ih =>
    rintro _ _ _ _ ⟨⟩
    exact ⟨e, .refl e, .inr (.inr ⟨ho, h⟩)⟩
  | _ => rintro _ _ _ _ ⟨⟩

theorem sees_loop {l : Prog} {e : Env} {x p : ℕ} (h : Sees l e x p) :
    ∀ tg ts b rest, l = .loop tg ts b rest → ∃ ek, Iter tg b e ek ∧
      ((x ∈ ts ∧ ek x = some p) ∨ Sees b (setTarget ek tg) x p ∨ Sees rest ek x p
        ∨ (∃ e1, Exec b (setTarget ek tg) .brk e1 ∧ Sees rest e1 x p)) := by
  induction h with
  | test tg ts b rest e x p hx h =>
    rintro _ _ _ _ ⟨⟩
    exact ⟨e, .refl e, .inl ⟨hx, h⟩⟩
  | body tg ts b rest e x p h ih =>
    rintro _ _ _ _ ⟨⟩
    exact ⟨e, .refl e, .inr (.inl h)⟩
  | next tg ts b rest e o1 e1 x p ho h1 h2 ih =>
    rintro _ _ _ _ ⟨⟩
    obtain ⟨ek, hi, hh⟩ := ih _ _ _ _ rfl
    exact ⟨ek, .step _ _ _ _ ho h1 hi, hh⟩
  | loopDone tg ts b rest e x p h ih =>
    rintro _ _ _ _ ⟨⟩
    exact ⟨e, .refl e, .inr (.inr (.inl h))⟩
  | loopBreak tg ts b rest e e1 x p h1 h2 ih =>
    rintro _ _ _ _ ⟨⟩
    exact ⟨e, .refl e, .inr (.inr (.inr ⟨e1, h1, h2⟩))⟩
  | _ => rintro _ _ _ _ ⟨⟩

/-- An assignment of `x` by `p` is recorded. -/
def Has (s : Scope) (x p : ℕ) : Prop := ∃ e ∈ s.entries, e.x = x ∧ e.p = p

/-- Every value of the environment is recorded in some scope. -/
def Cov (scopes : List Scope) (e : Env) : Prop := ∀ x p, e x = some p → ∃ s ∈ scopes, Has s x p

/-- A value is the one at the start of the scope, or recorded in the scope. -/
def Rel (s : Scope) (e0 e : Env) : Prop := ∀ x p, e x = some p → e0 x = some p ∨ Has s x p

/-- Flags of assignments that are set belong to assignments that are quantized or annotated. -/
def Sound (Q : ℕ → ℕ → Prop) (own : ℕ → ℕ × ℕ) (m : Mem) : Prop :=
  ∀ o, m.heap o = true → o < m.next ∧ (Q (own o).1 (own o).2 ∨ own o ∈ m.annots)

/-- The objects of the entries exist and have the entries' producer and variable. -/
def Owned (own : ℕ → ℕ × ℕ) (m : Mem) (es : List Entry) : Prop := ∀ e ∈ es, e.obj < m.next ∧ own e.obj = (e.p, e.x)

/-- What may change. -/
structure Later (own own' : ℕ → ℕ × ℕ) (m m' : Mem) : Prop where
  next : m.next ≤ m'.next
  annots : ∀ a ∈ m.annots, a ∈ m'.annots
  own : ∀ o < m.next, own' o = own o

theorem Later.refl (own : ℕ → ℕ × ℕ) (m : Mem) : Later own own m m := ⟨Nat.le_refl _, fun _ h => h, fun _ _ => rfl⟩

theorem Later.trans {o1 o2 o3 : ℕ → ℕ × ℕ} {m1 m2 m3 : Mem} (h : Later o1 o2 m1 m2) (h' : Later o2 o3 m2 m3) : Later o1 o3 m1 m3 :=
  ⟨Nat.le_trans h.next h'.next, fun a ha => h'.annots a (h.annots a ha),
    fun o ho => (h'.own o (Nat.lt_of_lt_of_le ho h.next)).trans (h.own o ho)⟩

theorem Owned.later {own own' : ℕ → ℕ × ℕ} {m m' : Mem} {es : List Entry} (h : Owned own m es) (hl : Later own own' m m') :
    Owned own' m' es := fun e he =>
  ⟨Nat.lt_of_lt_of_le (h e he).1 hl.next, by rw [hl.own _ (h e he).1]; exact (h e he).2⟩

theorem record_ok {Q : ℕ → ℕ → Prop} {own : ℕ → ℕ × ℕ} {m m' : Mem} {s s' : Scope} {p x : ℕ} {q : Bool}
    (h : record m s p x q = .ok (m', s')) (hs : Sound Q own m) (ho : Owned own m s.entries) (hq : q = true → Q p x) :
    ∃ own', Later own own' m m' ∧ Sound Q own' m' ∧ Owned own' m' s'.entries
      ∧ s'.status = s.status ∧ s'.breaking = s.breaking
      ∧ (∀ e0 e, Rel s e0 e → Rel s' e0 (Function.update e x (some p)))
      ∧ (∀ y p', Has s' y p' → Has s y p' ∨ (y = x ∧ p' = p)) := by
  unfold record at h
  by_cases hst : s.status.isSome = true
  · rw [if_pos hst] at h; cases h
  rw [if_neg hst] at h
  cases hf : s.entries.find? (fun e => e.x == x && e.p == p) with
  | some e =>
    rw [hf] at h
    simp only [Except.ok.injEq, Prod.mk.injEq] at h
    obtain ⟨rfl, rfl⟩ := h
    have hmem := List.mem_of_find?_eq_some hf
    have hprop := List.find?_some hf
    simp only [Bool.and_eq_true, beq_iff_eq] at hprop
    refine ⟨own, ⟨Nat.le_refl _, fun _ h => h, fun _ _ => rfl⟩, ?_, ho, rfl, rfl, ?_, fun y p' h => .inl h⟩
    · intro o hh
      by_cases heq : o = e.obj
      · subst heq
        refine ⟨(ho e hmem).1, ?_⟩
        simp only [Function.update_self, Bool.or_eq_true] at hh
        rcases hh with hh | hh
        · exact (hs _ hh).2
        · left
          rw [(ho e hmem).2]
          dsimp only
          rw [hprop.1, hprop.2]
          exact hq hh
      · simp only [Function.update_of_ne heq] at hh
        exact hs o hh
    · intro e0 en hr y p' hy
      by_cases hyx : y = x
      · subst hyx
        simp only [Function.update_self, Option.some.injEq] at hy
        subst hy
        exact .inr ⟨e, hmem, hprop.1, hprop.2⟩
      · rw [Function.update_of_ne hyx] at hy
        exact hr y p' hy
  | none =>
    rw [hf] at h
    simp only [Except.ok.injEq, Prod.mk.injEq] at h
    obtain ⟨rfl, rfl⟩ := h
    refine ⟨Function.update own m.next (p, x), ⟨Nat.le_succ _, fun _ h => h, fun o hlt => Function.update_of_ne (Nat.ne_of_lt hlt) _ _⟩,
      ?_, ?_, rfl, rfl, ?_, ?_⟩
    · intro o hh
      by_cases heq : o = m.next
      · subst heq
        simp only [Function.update_self] at hh
        refine ⟨Nat.lt_succ_self _, .inl ?_⟩
        rw [Function.update_self]
        exact hq hh
      · simp only [Function.update_of_ne heq] at hh
        rw [Function.update_of_ne heq]
        exact ⟨Nat.lt_succ_of_lt (hs o hh).1, (hs o hh).2⟩
    · intro e he
      rw [List.mem_append] at he
      rcases he with he | he
      · have := ho e (List.mem_filter.1 he).1
        refine ⟨Nat.lt_succ_of_lt this.1, ?_⟩
        rw [Function.update_of_ne (Nat.ne_of_lt this.1)]
        exact this.2
      · rw [List.mem_singleton] at he
        subst he
        exact ⟨Nat.lt_succ_self _, Function.update_self ..⟩
    · intro e0 en hr y p' hy
      by_cases hyx : y = x
      · subst hyx
        simp only [Function.update_self, Option.some.injEq] at hy
        subst hy
        exact .inr ⟨_, List.mem_append_right _ (List.mem_singleton_self _), rfl, rfl⟩
      · rw [Function.update_of_ne hyx] at hy
        rcases hr y p' hy with h | ⟨en', h1, h2, h3⟩
        · exact .inl h
        · refine .inr ⟨en', List.mem_append_left _ (List.mem_filter.2 ⟨h1, ?_⟩), h2, h3⟩
          rw [h2]
          simpa using hyx
    · rintro y p' ⟨e, he, h1, h2⟩
      rw [List.mem_append] at he
      rcases he with he | he
      · exact .inl ⟨e, (List.mem_filter.1 he).1, h1, h2⟩
      · rw [List.mem_singleton] at he
        subst he
        exact .inr ⟨h1.symm, h2.symm⟩

theorem ensureEntries_ok {Q : ℕ → ℕ → Prop} {own : ℕ → ℕ × ℕ} (es : List Entry) (m : Mem)
    (hs : Sound Q own m) (ho : Owned own m es) :
    Later own own m (es.foldl ensureEntry m) ∧ Sound Q own (es.foldl ensureEntry m)
      ∧ ∀ e ∈ es, Q e.p e.x ∨ (e.p, e.x) ∈ (es.foldl ensureEntry m).annots := by
  induction es generalizing m with
  | nil => exact ⟨.refl _ _, hs, nofun⟩
  | cons e es ih =>
    rw [List.foldl_cons]
    have he := ho e List.mem_cons_self
    have key : Later own own m (ensureEntry m e) ∧ Sound Q own (ensureEntry m e)
        ∧ (Q e.p e.x ∨ (e.p, e.x) ∈ (ensureEntry m e).annots) := by
      unfold ensureEntry
      by_cases hh : m.heap e.obj = true
      · rw [if_pos hh]
        refine ⟨.refl _ _, hs, ?_⟩
        have := (hs _ hh).2
        rw [he.2] at this
        exact this
      · rw [if_neg hh]
        refine ⟨⟨Nat.le_refl _, fun a ha => List.mem_append_left _ ha, fun _ _ => rfl⟩, ?_, .inr (List.mem_append_right _ (List.mem_singleton_self _))⟩
        intro o ho'
        by_cases heq : o = e.obj
        · subst heq
          refine ⟨he.1, .inr ?_⟩
          rw [he.2]
          exact List.mem_append_right _ (List.mem_singleton_self _)
        · simp only [Function.update_of_ne heq] at ho'
          obtain ⟨h1, h2⟩ := hs o ho'
          exact ⟨h1, h2.imp id (fun h => List.mem_append_left _ h)⟩
    obtain ⟨k1, k2, k3⟩ := key
    obtain ⟨i1, i2, i3⟩ := ih (ensureEntry m e) k2 (Owned.later (fun e' he' => ho e' (List.mem_cons_of_mem _ he')) k1)
    refine ⟨k1.trans i1, i2, ?_⟩
    intro e' he'
    rcases List.mem_cons.1 he' with rfl | he'
    · exact k3.imp id (fun h => i1.annots _ h)
    · exact i3 e' he'

theorem ensure_ok {Q : ℕ → ℕ → Prop} {own : ℕ → ℕ × ℕ} (scopes : List Scope) (x : ℕ) (m : Mem)
    (hs : Sound Q own m) (ho : Owned own m (scopes.flatMap Scope.entries)) :
    Later own own m (ensure m scopes x) ∧ Sound Q own (ensure m scopes x)
      ∧ ∀ s ∈ scopes, ∀ p, Has s x p → Q p x ∨ (p, x) ∈ (ensure m scopes x).annots := by
  have ho' : Owned own m ((scopes.flatMap Scope.entries).filter (fun e => e.x == x)) :=
    fun e he => ho e (List.mem_filter.1 he).1
  obtain ⟨h1, h2, h3⟩ := ensureEntries_ok _ m hs ho'
  refine ⟨h1, h2, ?_⟩
  rintro s hs' p ⟨e, he, rfl, rfl⟩
  exact h3 e (List.mem_filter.2 ⟨List.mem_flatMap.2 ⟨s, hs', he⟩, by simp⟩)

theorem ensureAll_ok {Q : ℕ → ℕ → Prop} {own : ℕ → ℕ × ℕ} (scopes : List Scope) (xs : List ℕ) (m : Mem)
    (hs : Sound Q own m) (ho : Owned own m (scopes.flatMap Scope.entries)) :
    Later own own m (ensureAll m scopes xs) ∧ Sound Q own (ensureAll m scopes xs)
      ∧ ∀ x ∈ xs, ∀ s ∈ scopes, ∀ p, Has s x p → Q p x ∨ (p, x) ∈ (ensureAll m scopes xs).annots := by
  unfold ensureAll
  induction xs generalizing m with
  | nil => exact ⟨.refl _ _, hs, nofun⟩
  | cons x xs ih =>
    rw [List.foldl_cons]
    obtain ⟨k1, k2, k3⟩ := ensure_ok scopes x m hs ho
    obtain ⟨i1, i2, i3⟩ := ih _ k2 (ho.later k1)
    refine ⟨k1.trans i1, i2, ?_⟩
    intro y hy s hs' p hp
    rcases List.mem_cons.1 hy with rfl | hy
    · exact (k3 s hs' p hp).imp id (fun h => i1.annots _ h)
    · exact i3 y hy s hs' p hp

theorem mergeEntries_ok {m : Mem} (other : List Entry) {self es : List Entry} (h : mergeEntries m self other = .ok es) :
    (∀ e ∈ es, e ∈ self ∨ e ∈ other) ∧ (∀ e ∈ self, e ∈ es) ∧ ∀ e ∈ other, ∃ e' ∈ es, e'.x = e.x ∧ e'.p = e.p := by
  unfold mergeEntries at h
  induction other generalizing self with
  | nil =>
    simp only [List.foldlM_nil, pure, Except.pure, Except.ok.injEq] at h
    subst h
    exact ⟨fun e he => .inl he, fun e he => he, nofun⟩
  | cons a other ih =>
    rw [List.foldlM_cons] at h
    cases hf : self.find? (fun e' => e'.x == a.x && e'.p == a.p) with
    | none =>
      rw [hf] at h
      simp only [bind, Except.bind] at h
      obtain ⟨i1, i2, i3⟩ := ih h
      refine ⟨?_, fun e he => i2 e (List.mem_append_left _ he), ?_⟩
      · intro e he
        rcases i1 e he with h | h
        · rcases List.mem_append.1 h with h | h
          · exact .inl h
          · rw [List.mem_singleton] at h
            subst h
            exact .inr List.mem_cons_self
        · exact .inr (List.mem_cons_of_mem _ h)
      · intro e he
        rcases List.mem_cons.1 he with rfl | he
        · exact ⟨e, i2 e (List.mem_append_right _ (List.mem_singleton_self _)), rfl, rfl⟩
        · exact i3 e he
    | some e' =>
      rw [hf] at h
      simp only [bind, Except.bind] at h
      by_cases hm : m.heap e'.obj = m.heap a.obj
      · rw [if_pos hm] at h
        obtain ⟨i1, i2, i3⟩ := ih h
        refine ⟨fun e he => (i1 e he).imp id (fun h => List.mem_cons_of_mem _ h), i2, ?_⟩
        intro e he
        rcases List.mem_cons.1 he with rfl | he
        · have hp := List.find?_some hf
          simp only [Bool.and_eq_true, beq_iff_eq] at hp
          exact ⟨e', i2 e' (List.mem_of_find?_eq_some hf), hp.1, hp.2⟩
        · exact i3 e he
      · rw [if_neg hm] at h
        cases h

/-- A scope without breaks. -/
def Plain (s : Scope) : Prop := s.breaking = [] ∧ s.status ≠ some .brk

theorem left_iff {s : Scope} (h : Plain s) : left s = true ↔ s.status ≠ none := by
  unfold left
  cases hs : s.status with
  | none => decide
  | some st => cases st with
    | ret => decide
    | raise => decide
    | brk => exact absurd hs h.2

theorem mergeBreaking_plain {m : Mem} {es : List Entry} {other : Scope} (h : Plain other) : mergeBreaking m es other = .ok es := by
  unfold mergeBreaking
  rw [h.1]
  split <;> rfl

theorem mergeInto_ok {m : Mem} {self other s : Scope} (h : mergeInto m self other = .ok s) (hp : Plain other) (hn : self.status = none) :
    (∀ e ∈ s.entries, e ∈ self.entries ∨ e ∈ other.entries) ∧ s.status = none ∧ s.breaking = self.breaking
      ∧ (∀ x p, Has self x p → Has s x p) ∧ (other.status = none → ∀ x p, Has other x p → Has s x p) := by
  unfold mergeInto at h
  by_cases hl : left other = true
  · rw [if_pos hl] at h
    cases h
    exact ⟨fun e he => .inl he, hn, rfl, fun _ _ h => h, fun hno => absurd hno ((left_iff hp).1 hl)⟩
  · rw [if_neg hl] at h
    have hls : left self ≠ true := by
      unfold left
      rw [hn]
      decide
    rw [if_neg hls] at h
    simp only [bind, Except.bind] at h
    cases he : mergeEntries m self.entries other.entries with
    | error e => rw [he] at h; cases h
    | ok es =>
      rw [he] at h
      simp only [mergeBreaking_plain hp, Except.ok.injEq] at h
      subst h
      obtain ⟨h1, h2, h3⟩ := mergeEntries_ok _ he
      refine ⟨h1, hn, rfl, ?_, ?_⟩
      · rintro x p ⟨e, he, hx, hpp⟩
        exact ⟨e, h2 e he, hx, hpp⟩
      · rintro _ x p ⟨e, he, hx, hpp⟩
        obtain ⟨e', he', hx', hp'⟩ := h3 e he
        exact ⟨e', he', hx'.trans hx, hp'.trans hpp⟩

theorem mergeNew_ok {m : Mem} {t f j : Scope} (h : mergeNew m t f = .ok j) (ht : Plain t) (hf : Plain f) :
    (∀ e ∈ j.entries, e ∈ t.entries ∨ e ∈ f.entries) ∧ Plain j
      ∧ (t.status = none → j.status = none ∧ ∀ x p, Has t x p → Has j x p)
      ∧ (f.status = none → j.status = none ∧ ∀ x p, Has f x p → Has j x p) := by
  have lt := left_iff ht
  have lf := left_iff hf
  unfold mergeNew at h
  by_cases h1 : left t = true
  · by_cases h2 : left f = true
    · rw [if_pos (by rw [h1, h2]; rfl)] at h
      cases h
      exact ⟨nofun, ⟨rfl, nofun⟩, fun hn => absurd hn (lt.1 h1), fun hn => absurd hn (lf.1 h2)⟩
    · rw [if_neg (by rw [h1]; simpa using h2), if_neg h2, if_pos h1] at h
      cases h
      exact ⟨fun e he => .inr he, hf, fun hn => absurd hn (lt.1 h1), fun hn => ⟨hn, fun _ _ h => h⟩⟩
  · by_cases h2 : left f = true
    · rw [if_neg (by rw [h2]; simpa using h1), if_pos h2] at h
      cases h
      exact ⟨fun e he => .inl he, ht, fun hn => ⟨hn, fun _ _ h => h⟩, fun hn => absurd hn (lf.1 h2)⟩
    · rw [if_neg (by simp [h2]), if_neg h2, if_neg h1] at h
      simp only [bind, Except.bind] at h
      have hn : t.status = none := by
        by_contra hc
        exact h1 (lt.2 hc)
      cases he : mergeEntries m t.entries f.entries with
      | error e => rw [he] at h; cases h
      | ok es =>
        rw [he] at h
        simp only [mergeBreaking_plain hf, Except.ok.injEq] at h
        subst h
        obtain ⟨k1, k2, k3⟩ := mergeEntries_ok _ he
        refine ⟨k1, ht, fun _ => ⟨hn, ?_⟩, fun _ => ⟨hn, ?_⟩⟩
        · rintro x p ⟨e, he, hx, hpp⟩
          exact ⟨e, k2 e he, hx, hpp⟩
        · rintro x p ⟨e, he, hx, hpp⟩
          obtain ⟨e', he', hx', hp'⟩ := k3 e he
          exact ⟨e', he', hx'.trans hx, hp'.trans hpp⟩

theorem cov_cons {s : Scope} {outer : List Scope} {e0 e : Env} (hc : Cov outer e0) (hr : Rel s e0 e) : Cov (s :: outer) e := by
  intro x p h
  rcases hr x p h with h | h
  · obtain ⟨s', hs', hh⟩ := hc x p h
    exact ⟨s', List.mem_cons_of_mem _ hs', hh⟩
  · exact ⟨s, List.mem_cons_self, h⟩

theorem cov_erase {scopes : List Scope} {e : Env} (hc : Cov scopes e) (x : ℕ) : Cov scopes (Function.update e x none) := by
  intro y p h
  by_cases hy : y = x
  · subst hy
    rw [Function.update_self] at h
    cases h
  · rw [Function.update_of_ne hy] at h
    exact hc y p h

theorem rel_refl (s : Scope) (e : Env) : Rel s e e := fun _ _ h => .inl h

/-- What the analysis of a block achieves. -/
def Claim (Q : ℕ → ℕ → Prop) (b : Prog) : Prop :=
  ∀ (m : Mem) (s : Scope) (outer : List Scope) (m' : Mem) (s' : Scope) (outer' : List Scope) (own : ℕ → ℕ × ℕ),
    eval b m s outer = .ok (m', s', outer') → Sound Q own m → Owned own m s.entries → Owned own m (outer.flatMap Scope.entries) →
    s.status = none → s.breaking = [] →
    ∃ own', Later own own' m m' ∧ Sound Q own' m' ∧ Owned own' m' s'.entries ∧ outer' = outer ∧ Plain s'
      ∧ (∀ x p, Has s' x p → Has s x p ∨ Assigns b x)
      ∧ ∀ e0 e, Cov outer e0 → Rel s e0 e →
          (∀ e', Exec b e .normal e' → s'.status = none ∧ Rel s' e0 e')
          ∧ ∀ x p, Sees b e x p → Q p x ∨ (p, x) ∈ m'.annots

theorem owned_cons {own : ℕ → ℕ × ℕ} {m : Mem} {s : Scope} {outer : List Scope} (h1 : Owned own m s.entries)
    (h2 : Owned own m (outer.flatMap Scope.entries)) : Owned own m ((s :: outer).flatMap Scope.entries) := by
  intro e he
  rw [List.flatMap_cons, List.mem_append] at he
  exact he.elim (h1 e) (h2 e)

theorem claim_leaf_normal (Q : ℕ → ℕ → Prop) : Claim Q .done := by
  intro m s outer m' s' outer' own h hs ho1 ho2 hn hb
  simp only [eval, Except.ok.injEq, Prod.mk.injEq] at h
  obtain ⟨rfl, rfl, rfl⟩ := h
  refine ⟨own, .refl _ _, hs, ho1, rfl, ⟨hb, by rw [hn]; nofun⟩, fun x p h => .inl h, ?_⟩
  intro e0 e hc hr
  refine ⟨?_, nofun⟩
  rintro e' ⟨⟩
  exact ⟨hn, hr⟩

theorem claim_ret (Q : ℕ → ℕ → Prop) : Claim Q .ret := by
  intro m s outer m' s' outer' own h hs ho1 ho2 hn hb
  simp only [eval, Except.ok.injEq, Prod.mk.injEq] at h
  obtain ⟨rfl, rfl, rfl⟩ := h
  exact ⟨own, .refl _ _, hs, ho1, rfl, ⟨hb, nofun⟩, fun x p h => .inl h, fun e0 e hc hr => ⟨nofun, nofun⟩⟩

theorem claim_raise (Q : ℕ → ℕ → Prop) : Claim Q .raise := by
  intro m s outer m' s' outer' own h hs ho1 ho2 hn hb
  simp only [eval, Except.ok.injEq, Prod.mk.injEq] at h
  obtain ⟨rfl, rfl, rfl⟩ := h
  exact ⟨own, .refl _ _, hs, ho1, rfl, ⟨hb, nofun⟩, fun x p h => .inl h, fun e0 e hc hr => ⟨nofun, nofun⟩⟩

theorem claim_assign (Q : ℕ → ℕ → Prop) (p x : ℕ) (q : Bool) (rest : Prog) (hq : q = true → Q p x) (ih : Claim Q rest) :
    Claim Q (.assign p x q rest) := by
  intro m s outer m' s' outer' own h hs ho1 ho2 hn hb
  simp only [eval, bind, Except.bind] at h
  cases hr : record m s p x q with
  | error e => rw [hr] at h; cases h
  | ok r =>
    rw [hr] at h
    obtain ⟨own1, l1, s1, o1, st1, b1, r1, d1⟩ := record_ok hr hs ho1 hq
    obtain ⟨own2, l2, s2, o2, rfl, p2, d2, c2⟩ :=
      ih _ _ _ _ _ _ own1 h s1 o1 (ho2.later l1) (st1.trans hn) (b1.trans hb)
    refine ⟨own2, l1.trans l2, s2, o2, rfl, p2, ?_, ?_⟩
    · intro y p' hy
      rcases d2 y p' hy with hy | hy
      · rcases d1 y p' hy with hy | hy
        · exact .inl hy
        · exact .inr (.inl hy.1.symm)
      · exact .inr (.inr hy)
    · intro e0 e hc hr'
      obtain ⟨c3, c4⟩ := c2 e0 _ hc (r1 e0 e hr')
      refine ⟨?_, ?_⟩
      · rintro e' ⟨⟩
        exact c3 _ ‹_›
      · rintro y p' ⟨⟩
        exact c4 _ _ ‹_›

theorem claim_use (Q : ℕ → ℕ → Prop) (x : ℕ) (rest : Prog) (ih : Claim Q rest) : Claim Q (.use x rest) := by
  intro m s outer m' s' outer' own h hs ho1 ho2 hn hb
  simp only [eval] at h
  obtain ⟨l1, s1, c1⟩ := ensure_ok (s :: outer) x m hs (owned_cons ho1 ho2)
  obtain ⟨own2, l2, s2, o2, rfl, p2, d2, c2⟩ := ih _ _ _ _ _ _ own h s1 (ho1.later l1) (ho2.later l1) hn hb
  refine ⟨own2, l1.trans l2, s2, o2, rfl, p2, d2, ?_⟩
  intro e0 e hc hr
  obtain ⟨c3, c4⟩ := c2 e0 e hc hr
  refine ⟨?_, ?_⟩
  · rintro e' ⟨⟩
    exact c3 _ ‹_›
  · intro y p hy
    cases hy with
    | here _ _ _ _ hy =>
      obtain ⟨sc, hsc, hh⟩ := cov_cons hc hr x p hy
      exact (c1 sc hsc p hh).imp id (fun h => l2.annots _ h)
    | use _ _ _ _ _ hy => exact c4 _ _ hy

theorem exhaustive_ends (f : Prog) (k : OrElse) (h : exhaustive f k = true) : EndsInElse f k := by
  match f, k with
  | _, .none => simp [exhaustive] at h
  | _, .els => exact .els _
  | .ite t e k' rest, .elif =>
    rw [exhaustive] at h
    exact .elif _ _ _ _ (exhaustive_ends e k' h)
  | .done, .elif | .ret, .elif | .raise, .elif | .brk, .elif | .cont, .elif | .assign .., .elif | .use .., .elif
  | .loop .., .elif | .try_ .., .elif => simp [exhaustive] at h

theorem claim_ite (Q : ℕ → ℕ → Prop) (t f : Prog) (k : OrElse) (rest : Prog)
    (hsup : EndsInElse f k → ∀ x, Assigns t x ∨ Assigns f x → AlwaysAssigns t x ∧ AlwaysAssigns f x)
    (iht : Claim Q t) (ihf : Claim Q f) (ih : Claim Q rest) : Claim Q (.ite t f k rest) := by
  intro m s outer m' s' outer' own h hs ho1 ho2 hn hb
  simp only [eval, bind, Except.bind] at h
  cases ht : eval t m { repeated := s.repeated } (s :: outer) with
  | error e => rw [ht] at h; cases h
  | ok r =>
  obtain ⟨m1, ts, up1⟩ := r
  rw [ht] at h
  dsimp only at h
  obtain ⟨own1, l1, s1, o1, rfl, p1, d1, c1⟩ := iht _ _ _ _ _ _ own ht hs nofun (owned_cons ho1 ho2) rfl rfl
  have d1' : ∀ x p, Has ts x p → Assigns t x := by
    intro x p hh
    rcases d1 x p hh with ⟨_, he, _⟩ | hh
    · cases he
    · exact hh
  dsimp only at h
  by_cases hk : k = .none
  · subst hk
    rw [if_pos rfl] at h
    cases hm : mergeInto m1 s ts with
    | error e => rw [hm] at h; cases h
    | ok s2 =>
    rw [hm] at h
    dsimp only at h
    obtain ⟨k1, k2, k3, k4, k5⟩ := mergeInto_ok hm p1 hn
    have o2 : Owned own1 m1 s2.entries := fun e he => (k1 e he).elim (ho1.later l1 e) (o1 e)
    obtain ⟨own3, l3, s3, o3, rfl, p3, d3, c3⟩ := ih _ _ _ _ _ _ own1 h s1 o2 (ho2.later l1) k2 (k3.trans hb)
    refine ⟨own3, l1.trans l3, s3, o3, rfl, p3, ?_, ?_⟩
    · intro x p hx
      rcases d3 x p hx with ⟨e, he, rfl, rfl⟩ | hx
      · rcases k1 e he with he | he
        · exact .inl ⟨e, he, rfl, rfl⟩
        · exact .inr (.inl (d1' e.x e.p ⟨e, he, rfl, rfl⟩))
      · exact .inr (.inr (.inr hx))
    · intro e0 e hc hr
      obtain ⟨c4, c5⟩ := c1 e e (cov_cons hc hr) (rel_refl _ _)
      have hthn : ∀ e1, Exec t e .normal e1 → Rel s2 e0 e1 := by
        intro e1 h1
        obtain ⟨hst, hrel⟩ := c4 e1 h1
        intro x p hx
        rcases hrel x p hx with hx | hx
        · exact (hr x p hx).imp id (k4 x p)
        · exact .inr (k5 hst x p hx)
      have hskip : Rel s2 e0 e := fun x p hx => (hr x p hx).imp id (k4 x p)
      refine ⟨?_, ?_⟩
      · intro e' hex
        cases hex with
        | thn _ _ _ _ _ e1 _ _ h1 h2 => exact (c3 e0 e1 hc (hthn e1 h1)).1 e' h2
        | thnOut _ _ _ _ _ _ _ ho _ => exact absurd rfl ho
        | els _ _ _ _ _ _ _ _ hk _ _ => exact absurd rfl hk
        | elsOut _ _ _ _ _ _ _ hk _ _ => exact absurd rfl hk
        | skip _ _ _ _ _ _ h1 => exact (c3 e0 e hc hskip).1 e' h1
      · intro x p hse
        cases hse with
        | inThn _ _ _ _ _ _ _ h1 => exact (c5 x p h1).imp id (fun h => l3.annots _ h)
        | inEls _ _ _ _ _ _ _ hk _ => exact absurd rfl hk
        | afterThn _ _ _ _ _ e1 _ _ h1 h2 => exact (c3 e0 e1 hc (hthn e1 h1)).2 x p h2
        | afterEls _ _ _ _ _ _ _ _ hk _ _ => exact absurd rfl hk
        | skip _ _ _ _ _ _ h1 => exact (c3 e0 e hc hskip).2 x p h1
  · rw [if_neg hk] at h
    have h' := h
    clear h
    cases hf : eval f m1 { repeated := s.repeated } (s :: outer) with
    | error e => rw [hf] at h'; cases h'
    | ok r =>
    obtain ⟨m2, fs, up2⟩ := r
    rw [hf] at h'
    dsimp only at h'
    obtain ⟨own2, l2, s2, o2, rfl, p2, d2, c2⟩ :=
      ihf _ _ _ _ _ _ own1 hf s1 nofun ((owned_cons ho1 ho2).later l1) rfl rfl
    have d2' : ∀ x p, Has fs x p → Assigns f x := by
      intro x p hh
      rcases d2 x p hh with ⟨_, he, _⟩ | hh
      · cases he
      · exact hh
    dsimp only at h'
    cases hj : mergeNew m2 ts fs with
    | error e => rw [hj] at h'; cases h'
    | ok j =>
    rw [hj] at h'
    dsimp only at h'
    obtain ⟨j1, j2, j3, j4⟩ := mergeNew_ok hj p1 p2
    have oj : Owned own2 m2 j.entries := fun e he => (j1 e he).elim (o1.later l2 e) (o2 e)
    have dj : ∀ x p, Has j x p → Assigns t x ∨ Assigns f x := by
      rintro x p ⟨e, he, rfl, rfl⟩
      exact (j1 e he).imp (fun h => d1' e.x e.p ⟨e, h, rfl, rfl⟩) (fun h => d2' e.x e.p ⟨e, h, rfl, rfl⟩)
    have l12 := l1.trans l2
    -- the scope after the `if`
    have key : ∃ s3, eval rest m2 s3 outer = .ok (m', s', outer') ∧ Owned own2 m2 s3.entries ∧ s3.status = none ∧ s3.breaking = []
        ∧ (∀ x p, Has s3 x p → Has s x p ∨ Has j x p)
        ∧ ∀ e0 e, Cov outer e0 → Rel s e0 e →
            (∀ e1, Exec t e .normal e1 → Rel s3 e0 e1) ∧ (∀ e1, Exec f e .normal e1 → Rel s3 e0 e1) := by
      by_cases hx : exhaustive f k = true
      · rw [if_pos hx] at h'
        refine ⟨_, h', ?_, hn, hb, ?_, ?_⟩
        · intro e he
          rcases List.mem_append.1 he with he | he
          · exact ho1.later l12 e (List.mem_filter.1 he).1
          · exact oj e he
        · rintro x p ⟨e, he, rfl, rfl⟩
          rcases List.mem_append.1 he with he | he
          · exact .inl ⟨e, (List.mem_filter.1 he).1, rfl, rfl⟩
          · exact .inr ⟨e, he, rfl, rfl⟩
        · intro e0 e hc hr
          have hcov := cov_cons hc hr
          -- one of the two parts, with the scope `b'` it ends in
          have part : ∀ (b : Prog) (b' : Scope), (∀ x, Assigns t x ∨ Assigns f x → AlwaysAssigns b x) →
              (∀ e, Cov (s :: outer) e → ∀ e', Exec b e .normal e' → b'.status = none ∧ Rel b' e e') →
              (b'.status = none → ∀ x p, Has b' x p → Has j x p) →
              ∀ e1, Exec b e .normal e1 → Rel (overwrite s j) e0 e1 := by
            intro b b' hal hrel hj' e1 hex
            obtain ⟨hst, -⟩ := hrel e hcov e1 hex
            obtain ⟨g, rfl, hg⟩ := exec_over hex
            have assigned : ∀ x p, g x = some p → Has j x p := by
              intro x p hgx
              obtain ⟨-, hh⟩ := hrel _ (cov_erase hcov x) _ (hg (Function.update e x none))
              rcases hh x p (by simp [over, hgx]) with hh | hh
              · rw [Function.update_self] at hh
                cases hh
              · exact hj' hst x p hh
            intro x p hx
            cases hgx : g x with
            | some p' =>
              have : p' = p := by simpa [over, hgx] using hx
              subst this
              obtain ⟨en, hen, h1, h2⟩ := assigned x p' hgx
              exact .inr ⟨en, List.mem_append_right _ hen, h1, h2⟩
            | none =>
              have hex' : e x = some p := by simpa [over, hgx] using hx
              have hnot : x ∉ j.entries.map Entry.x := by
                intro hmem
                obtain ⟨en, hen, rfl⟩ := List.mem_map.1 hmem
                have := hal en.x (dj en.x en.p ⟨en, hen, rfl, rfl⟩) (Function.update e en.x none) _ (Function.update_self ..)
                  (hg (Function.update e en.x none))
                apply this
                simp [over, hgx]
              rcases hr x p hex' with hh | ⟨en, hen, rfl, rfl⟩
              · exact .inl hh
              · exact .inr ⟨en, List.mem_append_left _ (List.mem_filter.2 ⟨hen, by simpa using hnot⟩), rfl, rfl⟩
          refine ⟨part t ts (fun x hx' => (hsup (exhaustive_ends f k hx) x hx').1) ?_ (fun hn => (j3 hn).2),
            part f fs (fun x hx' => (hsup (exhaustive_ends f k hx) x hx').2) ?_ (fun hn => (j4 hn).2)⟩
          · intro e2 hc2 e' he'
            exact (c1 e2 e2 hc2 (rel_refl _ _)).1 e' he'
          · intro e2 hc2 e' he'
            exact (c2 e2 e2 hc2 (rel_refl _ _)).1 e' he'
      · rw [if_neg hx] at h'
        cases hm : mergeInto m2 s j with
        | error e => rw [hm] at h'; cases h'
        | ok s3 =>
        rw [hm] at h'
        obtain ⟨k1, k2, k3, k4, k5⟩ := mergeInto_ok hm j2 hn
        refine ⟨s3, h', fun e he => (k1 e he).elim (ho1.later l12 e) (oj e), k2, k3.trans hb, ?_, ?_⟩
        · rintro x p ⟨e, he, rfl, rfl⟩
          exact (k1 e he).imp (fun h => ⟨e, h, rfl, rfl⟩) (fun h => ⟨e, h, rfl, rfl⟩)
        · intro e0 e hc hr
          have hcov := cov_cons hc hr
          constructor
          · intro e1 hex
            obtain ⟨hst, hrel⟩ := (c1 e e hcov (rel_refl _ _)).1 e1 hex
            intro x p hx
            rcases hrel x p hx with hx | hx
            · exact (hr x p hx).imp id (k4 x p)
            · exact .inr (k5 (j3 hst).1 x p ((j3 hst).2 x p hx))
          · intro e1 hex
            obtain ⟨hst, hrel⟩ := (c2 e e hcov (rel_refl _ _)).1 e1 hex
            intro x p hx
            rcases hrel x p hx with hx | hx
            · exact (hr x p hx).imp id (k4 x p)
            · exact .inr (k5 (j4 hst).1 x p ((j4 hst).2 x p hx))
    obtain ⟨s3, h3, o3, n3, b3, d3, c3⟩ := key
    obtain ⟨own4, l4, s4, o4, rfl, p4, d4, c4⟩ := ih _ _ _ _ _ _ own2 h3 s2 o3 (ho2.later l12) n3 b3
    refine ⟨own4, l12.trans l4, s4, o4, rfl, p4, ?_, ?_⟩
    · intro x p hx
      rcases d4 x p hx with hx | hx
      · rcases d3 x p hx with hx | hx
        · exact .inl hx
        · rcases dj x p hx with hx | hx
          · exact .inr (.inl hx)
          · exact .inr (.inr (.inl ⟨hk, hx⟩))
      · exact .inr (.inr (.inr hx))
    · intro e0 e hc hr
      obtain ⟨ct, cf⟩ := c3 e0 e hc hr
      have hcov := cov_cons hc hr
      refine ⟨?_, ?_⟩
      · intro e' hex
        cases hex with
        | thn _ _ _ _ _ e1 _ _ h1 h2 => exact (c4 e0 e1 hc (ct e1 h1)).1 e' h2
        | thnOut _ _ _ _ _ _ _ ho _ => exact absurd rfl ho
        | els _ _ _ _ _ e1 _ _ _ h1 h2 => exact (c4 e0 e1 hc (cf e1 h1)).1 e' h2
        | elsOut _ _ _ _ _ _ _ _ ho _ => exact absurd rfl ho
        | skip _ _ _ _ _ _ h1 => exact absurd rfl hk
      · intro x p hse
        cases hse with
        | inThn _ _ _ _ _ _ _ h1 =>
          exact ((c1 e e hcov (rel_refl _ _)).2 x p h1).imp id (fun h => l4.annots _ (l2.annots _ h))
        | inEls _ _ _ _ _ _ _ _ h1 =>
          exact ((c2 e e hcov (rel_refl _ _)).2 x p h1).imp id (fun h => l4.annots _ h)
        | afterThn _ _ _ _ _ e1 _ _ h1 h2 => exact (c4 e0 e1 hc (ct e1 h1)).2 x p h2
        | afterEls _ _ _ _ _ e1 _ _ _ h1 h2 => exact (c4 e0 e1 hc (cf e1 h1)).2 x p h2
        | skip _ _ _ _ _ _ h1 => exact absurd rfl hk

theorem recordTarget_ok {Q : ℕ → ℕ → Prop} {own : ℕ → ℕ × ℕ} {m m' : Mem} {s s' : Scope} {tg : Option (ℕ × ℕ)}
    (h : recordTarget m s tg = .ok (m', s')) (hs : Sound Q own m) (ho : Owned own m s.entries) :
    ∃ own', Later own own' m m' ∧ Sound Q own' m' ∧ Owned own' m' s'.entries
      ∧ s'.status = s.status ∧ s'.breaking = s.breaking
      ∧ (∀ e0 e, Rel s e0 e → Rel s' e0 (setTarget e tg))
      ∧ (∀ y p', Has s' y p' → Has s y p' ∨ ∃ p, tg = some (p, y)) := by
  cases tg with
  | none =>
    simp only [recordTarget, Except.ok.injEq, Prod.mk.injEq] at h
    obtain ⟨rfl, rfl⟩ := h
    exact ⟨own, .refl _ _, hs, ho, rfl, rfl, fun _ _ h => h, fun _ _ h => .inl h⟩
  | some px =>
    obtain ⟨own', h1, h2, h3, h4, h5, h6, h7⟩ := record_ok (s' := s') (m' := m') h hs ho nofun
    refine ⟨own', h1, h2, h3, h4, h5, h6, ?_⟩
    intro y p' hy
    rcases h7 y p' hy with hy | hy
    · exact .inl hy
    · exact .inr ⟨px.1, by rw [hy.1]⟩

/-- One visit of the body of a loop, with its target. -/
theorem claim_pass {Q : ℕ → ℕ → Prop} {b : Prog} (ih : Claim Q b) {m m1 m2 : Mem} {l l1 l2 : Scope} {scopes up : List Scope}
    {tg : Option (ℕ × ℕ)} {own : ℕ → ℕ × ℕ} (hr : recordTarget m l tg = .ok (m1, l1)) (he : eval b m1 l1 scopes = .ok (m2, l2, up))
    (hs : Sound Q own m) (ho1 : Owned own m l.entries) (ho2 : Owned own m (scopes.flatMap Scope.entries))
    (hn : l.status = none) (hb : l.breaking = []) :
    ∃ own', Later own own' m m2 ∧ Sound Q own' m2 ∧ Owned own' m2 l2.entries ∧ up = scopes ∧ Plain l2
      ∧ (∀ x p, Has l2 x p → Has l x p ∨ (∃ p, tg = some (p, x)) ∨ Assigns b x)
      ∧ ∀ e0 e, Cov scopes e0 → Rel l e0 e →
          (∀ e', Exec b (setTarget e tg) .normal e' → l2.status = none ∧ Rel l2 e0 e')
          ∧ ∀ x p, Sees b (setTarget e tg) x p → Q p x ∨ (p, x) ∈ m2.annots := by
  obtain ⟨own1, a1, a2, a3, a4, a5, a6, a7⟩ := recordTarget_ok hr hs ho1
  obtain ⟨own2, b1, b2, b3, rfl, b5, b6, b7⟩ := ih _ _ _ _ _ _ own1 he a2 a3 (ho2.later a1) (a4.trans hn) (a5.trans hb)
  refine ⟨own2, a1.trans b1, b2, b3, rfl, b5, ?_, ?_⟩
  · intro x p hx
    rcases b6 x p hx with hx | hx
    · rcases a7 x p hx with hx | hx
      · exact .inl hx
      · exact .inr (.inl hx)
    · exact .inr (.inr hx)
  · intro e0 e hc hr'
    exact b7 e0 _ hc (a6 e0 e hr')

theorem claim_loop (Q : ℕ → ℕ → Prop) (tg : Option (ℕ × ℕ)) (test : List ℕ) (b rest : Prog) (hsup : Supported b)
    (ihb : Claim Q b) (ih : Claim Q rest) : Claim Q (.loop tg test b rest) := by
  intro m s outer m' s' outer' own h hs ho1 ho2 hn hb
  simp only [eval, bind, Except.bind] at h
  obtain ⟨l0, s0, c0⟩ := ensureAll_ok (s :: outer) test m hs (owned_cons ho1 ho2)
  have hos : Owned own m ((s :: outer).flatMap Scope.entries) := owned_cons ho1 ho2
  -- executions of the body neither break nor continue
  have onlyNormal : ∀ {e o e1}, (o = .normal ∨ o = .cont) → Exec b (setTarget e tg) o e1 → Exec b (setTarget e tg) .normal e1 := by
    rintro e o e1 (rfl | rfl) hex
    · exact hex
    · exact absurd rfl (no_break hex hsup).2
  have noBrk : ∀ {e e1}, ¬ Exec b (setTarget e tg) .brk e1 := fun hex => (no_break hex hsup).1 rfl
  cases hr1 : recordTarget (ensureAll m (s :: outer) test) { isLoop := true, repeated := s.repeated } tg with
  | error e => rw [hr1] at h; cases h
  | ok r =>
  obtain ⟨m1, l1⟩ := r
  rw [hr1] at h
  dsimp only at h
  cases he1 : eval b m1 l1 (s :: outer) with
  | error e => rw [he1] at h; cases h
  | ok r =>
  obtain ⟨m2, l2, up2⟩ := r
  rw [he1] at h
  dsimp only at h
  obtain ⟨own2, a1, a2, a3, rfl, a5, a6, a7⟩ := claim_pass ihb hr1 he1 s0 nofun (hos.later l0) rfl rfl
  dsimp only at h
  have la := l0.trans a1
  have a7' : ∀ e, Cov (s :: outer) e → ∀ e', Exec b (setTarget e tg) .normal e' → l2.status = none ∧ Rel l2 e e' :=
    fun e hc => (a7 e e hc (rel_refl _ _)).1
  have dl2 : ∀ x p, Has l2 x p → (∃ p, tg = some (p, x)) ∨ Assigns b x := by
    intro x p hx
    rcases a6 x p hx with ⟨_, he, _⟩ | hx
    · cases he
    · exact hx
  by_cases hst : l2.status.isSome = true
  · rw [if_pos hst] at h
    have hst' : l2.status ≠ none := by
      intro hc
      rw [hc] at hst
      cases hst
    cases hm : mergeInto m2 s l2 with
    | error e => rw [hm] at h; cases h
    | ok s3 =>
    rw [hm] at h
    dsimp only at h
    obtain ⟨k1, k2, k3, k4, -⟩ := mergeInto_ok hm a5 hn
    obtain ⟨own4, l4, s4, o4, rfl, p4, d4, c4⟩ := ih _ _ _ _ _ _ own2 h a2
      (fun e he => (k1 e he).elim (ho1.later la e) (a3 e)) (ho2.later la) k2 (k3.trans hb)
    refine ⟨own4, la.trans l4, s4, o4, rfl, p4, ?_, ?_⟩
    · intro x p hx
      rcases d4 x p hx with ⟨e, he, rfl, rfl⟩ | hx
      · rcases k1 e he with he | he
        · exact .inl ⟨e, he, rfl, rfl⟩
        · rcases dl2 e.x e.p ⟨e, he, rfl, rfl⟩ with hx | hx
          · exact .inr (.inl hx)
          · exact .inr (.inr (.inl hx))
      · exact .inr (.inr (.inr hx))
    · intro e0 e hc hr
      have hcov := cov_cons hc hr
      have hrel : Rel s3 e0 e := fun x p hx => (hr x p hx).imp id (k4 x p)
      have noIter : ∀ {ek}, Iter tg b e ek → ek = e := by
        intro ek hi
        cases hi with
        | refl => rfl
        | step _ e1 _ o ho h1 h2 => exact absurd (a7' e hcov e1 (onlyNormal ho h1)).1 hst'
      refine ⟨?_, ?_⟩
      · intro e' hex
        obtain ⟨ek, hi, hh⟩ := exec_loop hex _ _ _ _ rfl
        rw [noIter hi] at hh
        rcases hh with hh | ⟨_, hh, _⟩ | ⟨hh, _⟩
        · exact (c4 e0 e hc hrel).1 e' hh
        · exact absurd hh noBrk
        · rcases hh with hh | hh <;> cases hh
      · intro x p hse
        obtain ⟨ek, hi, hh⟩ := sees_loop hse _ _ _ _ rfl
        rw [noIter hi] at hh
        rcases hh with ⟨hx, hh⟩ | hh | hh | ⟨_, hh, _⟩
        · obtain ⟨sc, hsc, hha⟩ := hcov x p hh
          exact (c0 x hx sc hsc p hha).imp id (fun h => l4.annots _ (a1.annots _ h))
        · exact ((a7 e e hcov (rel_refl _ _)).2 x p hh).imp id (fun h => l4.annots _ h)
        · exact (c4 e0 e hc hrel).2 x p hh
        · exact absurd hh noBrk
  · rw [if_neg hst] at h
    have hnone : l2.status = none := by
      cases hl : l2.status with
      | none => rfl
      | some v => rw [hl] at hst; exact absurd rfl hst
    obtain ⟨l3, s3, c3⟩ := ensureAll_ok ({ l2 with repeated := true } :: s :: outer) test m2 a2
      (owned_cons (s := { l2 with repeated := true }) a3 (hos.later la))
    cases hr2 : recordTarget (ensureAll m2 ({ l2 with repeated := true } :: s :: outer) test) { l2 with repeated := true } tg with
    | error e => rw [hr2] at h; cases h
    | ok r =>
    obtain ⟨m4, l4⟩ := r
    rw [hr2] at h
    dsimp only at h
    cases he2 : eval b m4 l4 (s :: outer) with
    | error e => rw [he2] at h; cases h
    | ok r =>
    obtain ⟨m5, l5, up5⟩ := r
    rw [he2] at h
    dsimp only at h
    obtain ⟨own5, b1, b2, b3, rfl, b5, b6, b7⟩ := claim_pass ihb hr2 he2 s3 (a3.later l3) ((hos.later la).later l3) hnone a5.1
    dsimp only at h
    cases hm : mergeInto m5 s l5 with
    | error e => rw [hm] at h; cases h
    | ok s6 =>
    rw [hm] at h
    dsimp only at h
    obtain ⟨k1, k2, k3, k4, k5⟩ := mergeInto_ok hm b5 hn
    have lb := (la.trans l3).trans b1
    obtain ⟨own7, l7, s7, o7, rfl, p7, d7, c7⟩ := ih _ _ _ _ _ _ own5 h b2
      (fun e he => (k1 e he).elim (ho1.later lb e) (b3 e)) (ho2.later lb) k2 (k3.trans hb)
    refine ⟨own7, lb.trans l7, s7, o7, rfl, p7, ?_, ?_⟩
    · intro x p hx
      rcases d7 x p hx with ⟨e, he, rfl, rfl⟩ | hx
      · rcases k1 e he with he | he
        · exact .inl ⟨e, he, rfl, rfl⟩
        · have : (∃ p, tg = some (p, e.x)) ∨ Assigns b e.x := by
            rcases b6 e.x e.p ⟨e, he, rfl, rfl⟩ with hx | hx
            · exact dl2 _ _ hx
            · exact hx
          rcases this with hx | hx
          · exact .inr (.inl hx)
          · exact .inr (.inr (.inl hx))
      · exact .inr (.inr (.inr hx))
    · intro e0 e hc hr
      have hcov := cov_cons hc hr
      -- every iteration starts with values recorded on the first visit
      have starts : ∀ {e1 ek}, Iter tg b e1 ek → Rel l2 e e1 → Rel l2 e ek := by
        intro e1 ek hi
        induction hi with
        | refl => exact id
        | step e1 e2 _ o ho h1 h2 ih2 =>
          intro hrel
          apply ih2
          obtain ⟨gt, hgt⟩ := setTarget_eq_over tg
          have hex := onlyNormal ho h1
          obtain ⟨g, rfl, hg⟩ := exec_over hex
          have assigned : ∀ x p, over g gt x = some p → Has l2 x p := by
            intro x p hx
            have hh := (a7' _ (cov_erase hcov x) _ (hg (setTarget (Function.update e x none) tg))).2
            rw [hgt, over_assoc] at hh
            rcases hh x p (by rw [over, hx]; rfl) with hh | hh
            · rw [Function.update_self] at hh
              cases hh
            · exact hh
          intro x p hx
          rw [hgt, over_assoc] at hx
          cases hgx : over g gt x with
          | some p' =>
            have : p' = p := by
              rw [over, hgx] at hx
              simpa using hx
            subst this
            exact .inr (assigned x p' hgx)
          | none =>
            rw [over, hgx] at hx
            exact hrel x p (by simpa using hx)
      have hrel0 : Rel l2 e e := rel_refl _ _
      have hexit0 : Rel s6 e0 e := fun x p hx => (hr x p hx).imp id (k4 x p)
      -- the environment in which the loop is left
      have exits : ∀ {ek}, Iter tg b e ek → Rel s6 e0 ek := by
        have last : ∀ {e1 ek}, Iter tg b e1 ek → Rel l2 e e1 → e1 = ek ∨ ∃ ep, Rel l2 e ep ∧ Exec b (setTarget ep tg) .normal ek := by
          intro e1 ek hi
          induction hi with
          | refl => exact fun _ => .inl rfl
          | step e1 e2 e3 o ho h1 h2 ih2 =>
            intro hrel
            have hrel2 := starts (.step _ _ _ _ ho h1 (.refl e2)) hrel
            rcases ih2 hrel2 with rfl | hh
            · exact .inr ⟨e1, hrel, onlyNormal ho h1⟩
            · exact .inr hh
        intro ek hi
        rcases last hi hrel0 with rfl | ⟨ep, hp, hex⟩
        · exact hexit0
        · obtain ⟨hst5, hrel5⟩ := (b7 e ep hcov hp).1 ek hex
          intro x p hx
          rcases hrel5 x p hx with hx | hx
          · exact hexit0 x p hx
          · exact .inr (k5 hst5 x p hx)
      refine ⟨?_, ?_⟩
      · intro e' hex
        obtain ⟨ek, hi, hh⟩ := exec_loop hex _ _ _ _ rfl
        rcases hh with hh | ⟨_, hh, _⟩ | ⟨hh, _⟩
        · exact (c7 e0 ek hc (exits hi)).1 e' hh
        · exact absurd hh noBrk
        · rcases hh with hh | hh <;> cases hh
      · intro x p hse
        obtain ⟨ek, hi, hh⟩ := sees_loop hse _ _ _ _ rfl
        have hk := starts hi hrel0
        rcases hh with ⟨hx, hh⟩ | hh | hh | ⟨_, hh, _⟩
        · obtain ⟨sc, hsc, hha⟩ := cov_cons hcov hk x p hh
          have : ∃ sc ∈ ({ l2 with repeated := true } :: s :: outer' : List Scope), Has sc x p := by
            rcases List.mem_cons.1 hsc with rfl | hsc
            · exact ⟨_, List.mem_cons_self, hha⟩
            · exact ⟨sc, List.mem_cons_of_mem _ hsc, hha⟩
          obtain ⟨sc', hsc', hha'⟩ := this
          exact (c3 x hx sc' hsc' p hha').imp id (fun h => l7.annots _ (b1.annots _ h))
        · exact ((b7 e ek hcov hk).2 x p hh).imp id (fun h => l7.annots _ h)
        · exact (c7 e0 ek hc (exits hi)).2 x p hh
        · exact absurd hh noBrk

theorem claim_all (Q : ℕ → ℕ → Prop) (b : Prog) (hs : Supported b) (hq : ∀ p x, AlreadyQuantized b p x → Q p x) : Claim Q b := by
  induction b with
  | done => exact claim_leaf_normal Q
  | ret => exact claim_ret Q
  | raise => exact claim_raise Q
  | brk => exact absurd hs id
  | cont => exact absurd hs id
  | assign p x q rest ih =>
    exact claim_assign Q p x q rest (fun h => hq p x (.inl ⟨rfl, rfl, h⟩)) (ih hs (fun p x h => hq p x (.inr h)))
  | use x rest ih => exact claim_use Q x rest (ih hs hq)
  | ite t f k rest iht ihf ih =>
    exact claim_ite Q t f k rest hs.2.2.2 (iht hs.1 (fun p x h => hq p x (.inl h))) (ihf hs.2.1 (fun p x h => hq p x (.inr (.inl h))))
      (ih hs.2.2.1 (fun p x h => hq p x (.inr (.inr h))))
  | loop tg test b rest ihb ih =>
    exact claim_loop Q tg test b rest hs.1 (ihb hs.1 (fun p x h => hq p x (.inl h))) (ih hs.2 (fun p x h => hq p x (.inr h)))
  | try_ b h rest _ _ _ => exact absurd hs id

theorem params_ok {Q : ℕ → ℕ → Prop} (params : List (ℕ × ℕ)) {m m' : Mem} {s s' : Scope} {own : ℕ → ℕ × ℕ} {e : Env}
    (h : params.foldlM (fun r px => record r.1 r.2 px.1 px.2 false) (m, s) = .ok (m', s'))
    (hs : Sound Q own m) (ho : Owned own m s.entries) (hn : s.status = none) (hb : s.breaking = []) (hr : Rel s (fun _ => none) e) :
    ∃ own', Sound Q own' m' ∧ Owned own' m' s'.entries ∧ s'.status = none ∧ s'.breaking = []
      ∧ Rel s' (fun _ => none) (params.foldl (fun e px => Function.update e px.2 (some px.1)) e) := by
  induction params generalizing m s own e with
  | nil =>
    simp only [List.foldlM_nil, pure, Except.pure, Except.ok.injEq, Prod.mk.injEq] at h
    obtain ⟨rfl, rfl⟩ := h
    exact ⟨own, hs, ho, hn, hb, hr⟩
  | cons px params ih =>
    rw [List.foldlM_cons] at h
    simp only [bind, Except.bind] at h
    cases hrec : record m s px.1 px.2 false with
    | error e => rw [hrec] at h; cases h
    | ok r =>
      rw [hrec] at h
      obtain ⟨own1, l1, s1, o1, st1, b1, r1, -⟩ := record_ok hrec hs ho nofun
      rw [List.foldl_cons]
      exact ih (m := r.1) (s := r.2) h s1 o1 (st1.trans hn) (b1.trans hb) (r1 _ _ hr)

def keys (es : List Entry) : List (ℕ × ℕ) := es.map (fun e => (e.p, e.x))

theorem mergeEntries_succeeds (m : Mem) (other : List Entry) (self : List Entry) (h1 : (keys other).Nodup)
    (h2 : ∀ a ∈ keys self, a ∉ keys other) : mergeEntries m self other = .ok (self ++ other) := by
  unfold mergeEntries
  induction other generalizing self with
  | nil => simp [pure, Except.pure]
  | cons e other ih =>
    have hf : self.find? (fun e' => e'.x == e.x && e'.p == e.p) = none := by
      rw [List.find?_eq_none]
      intro e' he' hc
      simp only [Bool.and_eq_true, beq_iff_eq] at hc
      apply h2 (e'.p, e'.x) (List.mem_map.2 ⟨e', he', rfl⟩)
      rw [hc.1, hc.2]
      exact List.mem_cons_self
    rw [List.foldlM_cons, hf]
    simp only [bind, Except.bind]
    have h1' : (keys other).Nodup := (List.nodup_cons.1 h1).2
    rw [ih (self ++ [e]) h1']
    · simp
    · intro a ha
      rw [keys, List.map_append, List.mem_append] at ha
      rcases ha with ha | ha
      · exact fun hc => h2 a ha (List.mem_cons_of_mem _ hc)
      · simp only [List.map_cons, List.map_nil, List.mem_singleton] at ha
        subst ha
        exact (List.nodup_cons.1 h1).1

theorem keys_append (a b : List Entry) : keys (a ++ b) = keys a ++ keys b := List.map_append

theorem mergeNew_succeeds (m : Mem) {t f : Scope} (ht : Plain t) (hf : Plain f) (h1 : (keys t.entries).Nodup) (h2 : (keys f.entries).Nodup)
    (h3 : ∀ a ∈ keys t.entries, a ∉ keys f.entries) :
    ∃ j, mergeNew m t f = .ok j ∧ Plain j ∧ (keys j.entries).Nodup
      ∧ ∀ a ∈ keys j.entries, a ∈ keys t.entries ∨ a ∈ keys f.entries := by
  unfold mergeNew
  by_cases a1 : (left t && left f) = true
  · rw [if_pos a1]
    exact ⟨_, rfl, ⟨rfl, nofun⟩, List.nodup_nil, nofun⟩
  · rw [if_neg a1]
    by_cases a2 : left f = true
    · rw [if_pos a2]
      exact ⟨_, rfl, ht, h1, fun a ha => .inl ha⟩
    · rw [if_neg a2]
      by_cases a3 : left t = true
      · rw [if_pos a3]
        exact ⟨_, rfl, hf, h2, fun a ha => .inr ha⟩
      · rw [if_neg a3, mergeEntries_succeeds m _ _ h2 h3]
        simp only [bind, Except.bind, mergeBreaking_plain hf]
        refine ⟨_, rfl, ht, ?_, ?_⟩
        · rw [keys_append]
          exact List.nodup_append.2 ⟨h1, h2, fun a ha b hb hab => h3 a ha (hab ▸ hb)⟩
        · intro a ha
          rw [keys_append] at ha
          exact List.mem_append.1 ha

theorem mergeInto_succeeds (m : Mem) {s o : Scope} (hn : s.status = none) (ho : Plain o) (h1 : (keys s.entries).Nodup)
    (h2 : (keys o.entries).Nodup) (h3 : ∀ a ∈ keys s.entries, a ∉ keys o.entries) :
    ∃ s', mergeInto m s o = .ok s' ∧ s'.status = none ∧ s'.breaking = s.breaking ∧ (keys s'.entries).Nodup
      ∧ ∀ a ∈ keys s'.entries, a ∈ keys s.entries ∨ a ∈ keys o.entries := by
  unfold mergeInto
  by_cases a1 : left o = true
  · rw [if_pos a1]
    exact ⟨_, rfl, hn, rfl, h1, fun a ha => .inl ha⟩
  · have a2 : left s ≠ true := by
      unfold left
      rw [hn]
      decide
    rw [if_neg a1, if_neg a2, mergeEntries_succeeds m _ _ h2 h3]
    simp only [bind, Except.bind, mergeBreaking_plain ho]
    refine ⟨_, rfl, hn, rfl, ?_, ?_⟩
    · rw [keys_append]
      exact List.nodup_append.2 ⟨h1, h2, fun a ha b hb hab => h3 a ha (hab ▸ hb)⟩
    · intro a ha
      rw [keys_append] at ha
      exact List.mem_append.1 ha

theorem record_succeeds (m : Mem) {s : Scope} (p x : ℕ) (q : Bool) (hn : s.status = none) (h1 : (keys s.entries).Nodup) (h2 : (p, x) ∉ keys s.entries) :
    ∃ m' s', record m s p x q = .ok (m', s') ∧ s'.status = none ∧ s'.breaking = s.breaking ∧ (keys s'.entries).Nodup
      ∧ ∀ a ∈ keys s'.entries, a ∈ keys s.entries ∨ a = (p, x) := by
  unfold record
  have hf : s.entries.find? (fun e' => e'.x == x && e'.p == p) = none := by
    rw [List.find?_eq_none]
    intro e' he' hc
    simp only [Bool.and_eq_true, beq_iff_eq] at hc
    apply h2
    rw [← hc.1, ← hc.2]
    exact List.mem_map.2 ⟨e', he', rfl⟩
  have hns : ¬ s.status.isSome = true := by rw [hn]; decide
  rw [if_neg hns, hf]
  have hsub : (keys (s.entries.filter (fun e => e.x != x))).Sublist (keys s.entries) := List.filter_sublist.map _
  refine ⟨_, _, rfl, hn, rfl, ?_, ?_⟩
  · rw [keys_append]
    refine List.nodup_append.2 ⟨h1.sublist hsub, List.nodup_singleton _, ?_⟩
    intro a ha b hb hab
    have hb' : b = (p, x) := List.mem_singleton.1 hb
    exact h2 (hb' ▸ hab ▸ hsub.subset ha)
  · intro a ha
    rw [keys_append, List.mem_append] at ha
    rcases ha with ha | ha
    · exact .inl (hsub.subset ha)
    · exact .inr (List.mem_singleton.1 ha)

theorem eval_succeeds (b : Prog) (hl : LoopFree b) (hp : (assignments b).Nodup) (m : Mem) (s : Scope) (outer : List Scope)
    (hn : s.status = none) (hb : s.breaking = []) (hk : (keys s.entries).Nodup) (hd : ∀ a ∈ keys s.entries, a ∉ assignments b) :
    ∃ m' s', eval b m s outer = .ok (m', s', outer) ∧ Plain s' ∧ (keys s'.entries).Nodup
      ∧ ∀ a ∈ keys s'.entries, a ∈ keys s.entries ∨ a ∈ assignments b := by
  induction b generalizing m s outer with
  | done => exact ⟨m, s, rfl, ⟨hb, by rw [hn]; nofun⟩, hk, fun a ha => .inl ha⟩
  | ret => exact ⟨m, _, rfl, ⟨hb, nofun⟩, hk, fun a ha => .inl ha⟩
  | raise => exact ⟨m, _, rfl, ⟨hb, nofun⟩, hk, fun a ha => .inl ha⟩
  | brk => exact absurd hl id
  | cont => exact absurd hl id
  | loop => exact absurd hl id
  | assign p x q rest ih =>
    obtain ⟨hp1, hp2⟩ := List.nodup_cons.1 hp
    obtain ⟨m1, s1, r1, r2, r3, r4, r5⟩ := record_succeeds m p x q hn hk (fun h => hd _ h List.mem_cons_self)
    obtain ⟨m2, s2, i1, i2, i3, i4⟩ := ih hl hp2 m1 s1 outer r2 (r3.trans hb) r4 (by
      intro a ha
      rcases r5 a ha with ha | rfl
      · exact fun hc => hd a ha (List.mem_cons_of_mem _ hc)
      · exact hp1)
    refine ⟨m2, s2, ?_, i2, i3, ?_⟩
    · simp only [eval, bind, Except.bind, r1]
      exact i1
    · intro a ha
      rcases i4 a ha with ha | ha
      · rcases r5 a ha with ha | rfl
        · exact .inl ha
        · exact .inr List.mem_cons_self
      · exact .inr (List.mem_cons_of_mem _ ha)
  | use x rest ih =>
    obtain ⟨m2, s2, i1, i2⟩ := ih hl hp (ensure m (s :: outer) x) s outer hn hb hk hd
    exact ⟨m2, s2, by simp only [eval]; exact i1, i2⟩
  | ite t f k rest iht ihf ih =>
    obtain ⟨q1, q2, q3⟩ := List.nodup_append.1 hp
    obtain ⟨q4, q5, q6⟩ := List.nodup_append.1 q2
    obtain ⟨m1, s1, a1, a2, a3, a4⟩ := iht hl.1 q1 m { repeated := s.repeated } (s :: outer) rfl rfl List.nodup_nil nofun
    have a4' : ∀ a ∈ keys s1.entries, a ∈ assignments t := by
      intro a ha
      rcases a4 a ha with ha | ha
      · cases ha
      · exact ha
    have hdt : ∀ a ∈ keys s.entries, a ∉ keys s1.entries := fun a ha hc => hd a ha (List.mem_append_left _ (a4' a hc))
    simp only [eval, bind, Except.bind, a1]
    by_cases hk' : k = .none
    · rw [if_pos hk']
      obtain ⟨s2, b1, b2, b3, b4, b5⟩ := mergeInto_succeeds m1 hn a2 hk a3 hdt
      rw [b1]
      obtain ⟨m3, s3, i1, i2, i3, i4⟩ := ih hl.2.2 q5 m1 s2 outer b2 (b3.trans hb) b4 (by
        intro a ha hc
        rcases b5 a ha with ha | ha
        · exact hd a ha (List.mem_append_right _ (List.mem_append_right _ hc))
        · exact q3 a (a4' a ha) a (List.mem_append_right _ hc) rfl)
      refine ⟨m3, s3, i1, i2, i3, ?_⟩
      intro a ha
      rcases i4 a ha with ha | ha
      · rcases b5 a ha with ha | ha
        · exact .inl ha
        · exact .inr (List.mem_append_left _ (a4' a ha))
      · exact .inr (List.mem_append_right _ (List.mem_append_right _ ha))
    · rw [if_neg hk']
      obtain ⟨m2, s2, c1, c2, c3, c4⟩ := ihf hl.2.1 q4 m1 { repeated := s.repeated } (s :: outer) rfl rfl List.nodup_nil nofun
      have c4' : ∀ a ∈ keys s2.entries, a ∈ assignments f := by
        intro a ha
        rcases c4 a ha with ha | ha
        · cases ha
        · exact ha
      rw [c1]
      dsimp only
      obtain ⟨j, d1, d2, d3, d4⟩ := mergeNew_succeeds m2 a2 c2 a3 c3
        (fun a ha hc => q3 a (a4' a ha) a (List.mem_append_left _ (c4' a hc)) rfl)
      rw [d1]
      dsimp only
      have d4' : ∀ a ∈ keys j.entries, a ∈ assignments t ∨ a ∈ assignments f := fun a ha => (d4 a ha).imp (a4' a) (c4' a)
      have hdj : ∀ a ∈ keys s.entries, a ∉ keys j.entries := by
        intro a ha hc
        rcases d4' a hc with hc | hc
        · exact hd a ha (List.mem_append_left _ hc)
        · exact hd a ha (List.mem_append_right _ (List.mem_append_left _ hc))
      have key : ∀ s3 : Scope, s3.status = none → s3.breaking = [] → (keys s3.entries).Nodup →
          (∀ a ∈ keys s3.entries, a ∈ keys s.entries ∨ a ∈ keys j.entries) →
          ∃ m' s', eval rest m2 s3 outer = .ok (m', s', outer) ∧ Plain s' ∧ (keys s'.entries).Nodup
            ∧ ∀ a ∈ keys s'.entries, a ∈ keys s.entries ∨ a ∈ assignments (.ite t f k rest) := by
        intro s3 e1 e2 e3 e4
        obtain ⟨m3, s4, i1, i2, i3, i4⟩ := ih hl.2.2 q5 m2 s3 outer e1 e2 e3 (by
          intro a ha hc
          rcases e4 a ha with ha | ha
          · exact hd a ha (List.mem_append_right _ (List.mem_append_right _ hc))
          · rcases d4' a ha with ha | ha
            · exact q3 a ha a (List.mem_append_right _ hc) rfl
            · exact q6 a ha a hc rfl)
        refine ⟨m3, s4, i1, i2, i3, ?_⟩
        intro a ha
        rcases i4 a ha with ha | ha
        · rcases e4 a ha with ha | ha
          · exact .inl ha
          · rcases d4' a ha with ha | ha
            · exact .inr (List.mem_append_left _ ha)
            · exact .inr (List.mem_append_right _ (List.mem_append_left _ ha))
        · exact .inr (List.mem_append_right _ (List.mem_append_right _ ha))
      by_cases hx : exhaustive f k = true
      · rw [if_pos hx]
        have hsub : (keys (s.entries.filter (fun e => e.x ∉ j.entries.map Entry.x))).Sublist (keys s.entries) := List.filter_sublist.map _
        apply key (overwrite s j) hn hb
        · show (keys (_ ++ _)).Nodup
          rw [keys_append]
          exact List.nodup_append.2 ⟨hk.sublist hsub, d3, fun a ha b hb hab => hdj a (hsub.subset ha) (hab ▸ hb)⟩
        · intro a ha
          have ha' : a ∈ keys (s.entries.filter (fun e => e.x ∉ j.entries.map Entry.x) ++ j.entries) := ha
          rw [keys_append, List.mem_append] at ha'
          exact ha'.imp (fun h => hsub.subset h) id
      · rw [if_neg hx]
        obtain ⟨s3, e1, e2, e3, e4, e5⟩ := mergeInto_succeeds m2 hn d2 hk d3 hdj
        rw [e1]
        exact key s3 e2 (e3.trans hb) e4 e5
  | try_ b h rest ihb ihh ih =>
    obtain ⟨q1, q2, q3⟩ := List.nodup_append.1 hp
    obtain ⟨q4, q5, q6⟩ := List.nodup_append.1 q2
    obtain ⟨m1, s1, a1, a2, a3, a4⟩ := ihb hl.1 q1 m { repeated := s.repeated } (s :: outer) rfl rfl List.nodup_nil nofun
    obtain ⟨m2, s2, c1, c2, c3, c4⟩ := ihh hl.2.1 q4 m1 { repeated := s.repeated } (s :: outer) rfl rfl List.nodup_nil nofun
    obtain ⟨j, d1, -⟩ := mergeNew_succeeds m2 a2 c2 a3 c3 (by
      intro a ha hc
      rcases a4 a ha with ha | ha
      · cases ha
      · rcases c4 a hc with hc | hc
        · cases hc
        · exact q3 a ha a (List.mem_append_left _ hc) rfl)
    obtain ⟨m3, s3, i1, i2, i3, i4⟩ := ih hl.2.2 q5 m2 s outer hn hb hk
      (fun a ha hc => hd a ha (List.mem_append_right _ (List.mem_append_right _ hc)))
    refine ⟨m3, s3, ?_, i2, i3, ?_⟩
    · simp only [eval, bind, Except.bind, a1, c1, d1]
      exact i1
    · intro a ha
      rcases i4 a ha with ha | ha
      · exact .inl ha
      · exact .inr (List.mem_append_right _ (List.mem_append_right _ ha))

/-! ## Properties -/

theorem mergeEntries_flags {m : Mem} (other : List Entry) {self es : List Entry} (h : mergeEntries m self other = .ok es) :
    ∀ e ∈ other, ∃ e' ∈ es, e'.x = e.x ∧ e'.p = e.p ∧ m.heap e'.obj = m.heap e.obj := by
  unfold mergeEntries at h
  induction other generalizing self with
  | nil => nofun
  | cons a other ih =>
    rw [List.foldlM_cons] at h
    cases hf : self.find? (fun e' => e'.x == a.x && e'.p == a.p) with
    | none =>
      rw [hf] at h
      simp only [bind, Except.bind] at h
      intro e he
      rcases List.mem_cons.1 he with rfl | he
      · exact ⟨e, (mergeEntries_ok _ h).2.1 e (List.mem_append_right _ (List.mem_singleton_self _)), rfl, rfl, rfl⟩
      · exact ih h e he
    | some e' =>
      rw [hf] at h
      simp only [bind, Except.bind] at h
      by_cases hm : m.heap e'.obj = m.heap a.obj
      · rw [if_pos hm] at h
        intro e he
        rcases List.mem_cons.1 he with rfl | he
        · have hp := List.find?_some hf
          simp only [Bool.and_eq_true, beq_iff_eq] at hp
          exact ⟨e', (mergeEntries_ok _ h).2.1 e' (List.mem_of_find?_eq_some hf), hp.1, hp.2, hm⟩
        · exact ih h e he
      · rw [if_neg hm] at h
        cases h

/-- The scope was left by `return` or `raise`. -/
def Left (s : Scope) : Prop := s.status = some .ret ∨ s.status = some .raise

theorem left_iff_Left (s : Scope) : left s = true ↔ Left s := by
  unfold left Left
  rw [Bool.or_eq_true, beq_iff_eq, beq_iff_eq]

/-- **C62.** Merging the scopes of two branches: the producers of a variable are exactly those recorded in the branches that were not
left by `return` or `raise`, and each of them comes with the status recorded in its branch. -/
theorem merge_branches (m : Mem) (t f j : Scope) (hl : f.isLoop = false) (h : mergeNew m t f = .ok j) :
    (∀ x p, Has j x p ↔ (¬ Left t ∧ Has t x p) ∨ (¬ Left f ∧ Has f x p))
    ∧ (∀ e ∈ j.entries, e ∈ t.entries ∨ e ∈ f.entries)
    ∧ (¬ Left t → ∀ e ∈ t.entries, e ∈ j.entries)
    ∧ (¬ Left f → ∀ e ∈ f.entries, ∃ e' ∈ j.entries, e'.x = e.x ∧ e'.p = e.p ∧ m.heap e'.obj = m.heap e.obj) := by
  have lt := left_iff_Left t
  have lf := left_iff_Left f
  unfold mergeNew at h
  by_cases h1 : left t = true
  · by_cases h2 : left f = true
    · rw [if_pos (by rw [h1, h2]; rfl)] at h
      cases h
      have g1 := lt.1 h1
      have g2 := lf.1 h2
      refine ⟨fun x p => ⟨?_, ?_⟩, nofun, fun hc => absurd g1 hc, fun hc => absurd g2 hc⟩
      · rintro ⟨_, he, _⟩
        cases he
      · rintro (⟨hc, _⟩ | ⟨hc, _⟩)
        · exact absurd g1 hc
        · exact absurd g2 hc
    · rw [if_neg (by rw [h1]; simpa using h2), if_neg h2, if_pos h1] at h
      cases h
      have g1 := lt.1 h1
      have g2 : ¬ Left f := fun hc => h2 (lf.2 hc)
      refine ⟨fun x p => ⟨fun hh => .inr ⟨g2, hh⟩, ?_⟩, fun e he => .inr he, fun hc => absurd g1 hc, fun _ e he => ⟨e, he, rfl, rfl, rfl⟩⟩
      rintro (⟨hc, _⟩ | ⟨_, hh⟩)
      · exact absurd g1 hc
      · exact hh
  · by_cases h2 : left f = true
    · rw [if_neg (by rw [h2]; simpa using h1), if_pos h2] at h
      cases h
      have g1 : ¬ Left t := fun hc => h1 (lt.2 hc)
      have g2 := lf.1 h2
      refine ⟨fun x p => ⟨fun hh => .inl ⟨g1, hh⟩, ?_⟩, fun e he => .inl he, fun _ e he => he, fun hc => absurd g2 hc⟩
      rintro (⟨_, hh⟩ | ⟨hc, _⟩)
      · exact hh
      · exact absurd g2 hc
    · rw [if_neg (by simp [h2]), if_neg h2, if_neg h1] at h
      simp only [bind, Except.bind] at h
      have g1 : ¬ Left t := fun hc => h1 (lt.2 hc)
      have g2 : ¬ Left f := fun hc => h2 (lf.2 hc)
      cases he : mergeEntries m t.entries f.entries with
      | error e => rw [he] at h; cases h
      | ok es =>
        rw [he] at h
        simp only [mergeBreaking, hl, Bool.false_eq_true, if_false, Except.ok.injEq] at h
        subst h
        obtain ⟨k1, k2, k3⟩ := mergeEntries_ok _ he
        refine ⟨fun x p => ⟨?_, ?_⟩, k1, fun _ => k2, fun _ => mergeEntries_flags _ he⟩
        · rintro ⟨e, hm, hx, hp⟩
          exact (k1 e hm).imp (fun h => ⟨g1, e, h, hx, hp⟩) (fun h => ⟨g2, e, h, hx, hp⟩)
        · rintro (⟨_, e, hm, hx, hp⟩ | ⟨_, e, hm, hx, hp⟩)
          · exact ⟨e, k2 e hm, hx, hp⟩
          · obtain ⟨e', hm', hx', hp'⟩ := k3 e hm
            exact ⟨e', hm', hx'.trans hx, hp'.trans hp⟩

/-- **C62.** Merging a branch that may not be taken into the scope around it adds its producers to those recorded before. -/
theorem merge_into_parent (m : Mem) (s b s' : Scope) (hs : s.status = none) (hl : b.isLoop = false) (h : mergeInto m s b = .ok s') :
    (∀ x p, Has s' x p ↔ Has s x p ∨ (¬ Left b ∧ Has b x p))
    ∧ (∀ e ∈ s.entries, e ∈ s'.entries)
    ∧ (¬ Left b → ∀ e ∈ b.entries, ∃ e' ∈ s'.entries, e'.x = e.x ∧ e'.p = e.p ∧ m.heap e'.obj = m.heap e.obj) := by
  have lb := left_iff_Left b
  unfold mergeInto at h
  by_cases h1 : left b = true
  · rw [if_pos h1] at h
    cases h
    have g1 := lb.1 h1
    refine ⟨fun x p => ⟨.inl, ?_⟩, fun e he => he, fun hc => absurd g1 hc⟩
    rintro (hh | ⟨hc, _⟩)
    · exact hh
    · exact absurd g1 hc
  · have hls : left s ≠ true := by
      unfold left
      rw [hs]
      decide
    rw [if_neg h1, if_neg hls] at h
    simp only [bind, Except.bind] at h
    have g1 : ¬ Left b := fun hc => h1 (lb.2 hc)
    cases he : mergeEntries m s.entries b.entries with
    | error e => rw [he] at h; cases h
    | ok es =>
      rw [he] at h
      simp only [mergeBreaking, hl, Bool.false_eq_true, if_false, Except.ok.injEq] at h
      subst h
      obtain ⟨k1, k2, k3⟩ := mergeEntries_ok _ he
      refine ⟨fun x p => ⟨?_, ?_⟩, k2, fun _ => mergeEntries_flags _ he⟩
      · rintro ⟨e, hm, hx, hp⟩
        exact (k1 e hm).imp (fun h => ⟨e, h, hx, hp⟩) (fun h => ⟨g1, e, h, hx, hp⟩)
      · rintro (⟨e, hm, hx, hp⟩ | ⟨_, e, hm, hx, hp⟩)
        · exact ⟨e, k2 e hm, hx, hp⟩
        · obtain ⟨e', hm', hx', hp'⟩ := k3 e hm
          exact ⟨e', hm', hx'.trans hx, hp'.trans hp⟩

/-- **C62.** If one of the branches is always taken, the producers of a variable recorded in the branches replace those recorded
before, and other variables keep theirs. -/
theorem overwrite_parent (s j : Scope) (x p : ℕ) :
    Has (overwrite s j) x p ↔ Has j x p ∨ (Has s x p ∧ ∀ p', ¬ Has j x p') := by
  unfold overwrite
  constructor
  · rintro ⟨e, he, rfl, rfl⟩
    rcases List.mem_append.1 he with he | he
    · obtain ⟨h1, h2⟩ := List.mem_filter.1 he
      refine .inr ⟨⟨e, h1, rfl, rfl⟩, ?_⟩
      rintro p' ⟨e', he', hx, -⟩
      simp only [decide_eq_true_eq] at h2
      exact h2 (List.mem_map.2 ⟨e', he', hx⟩)
    · exact .inl ⟨e, he, rfl, rfl⟩
  · rintro (⟨e, he, rfl, rfl⟩ | ⟨⟨e, he, rfl, rfl⟩, hno⟩)
    · exact ⟨e, List.mem_append_right _ he, rfl, rfl⟩
    · refine ⟨e, List.mem_append_left _ (List.mem_filter.2 ⟨he, ?_⟩), rfl, rfl⟩
      simp only [decide_eq_true_eq]
      intro hc
      obtain ⟨e', he', hx⟩ := List.mem_map.1 hc
      exact hno e'.p ⟨e', he', hx, rfl⟩

/-- **C62.** The status of an assignment only changes from "not quantized" to "quantized": no visit of a program resets it. -/
theorem record_keeps_status (m m' : Mem) (s s' : Scope) (p x : ℕ) (q : Bool) (h : record m s p x q = .ok (m', s'))
    (o : ℕ) (ho : o < m.next) (hq : m.heap o = true) : m'.heap o = true := by
  unfold record at h
  split at h
  · cases h
  · split at h <;> cases h
    · by_cases he : o = (‹Entry› : Entry).obj
      · subst he
        simp [hq]
      · simp [Function.update_of_ne he, hq]
    · simp [Function.update_of_ne (Nat.ne_of_lt ho), hq]

/-- **C72 (partial).** Whenever some execution passes to a quantized parameter a variable whose value was assigned by node `p` and is
not already quantized, a quantizer is inserted after `p` for that variable: for functions without `break`, `continue` and `try`, in
which an `if` with a final `else` assigns a variable in all of its branches or in none, and for which the analysis does not raise.
The deviations show what happens otherwise. -/
theorem quantized_uses_annotated_partial (params : List (ℕ × ℕ)) (body : Prog) (hs : Supported body) (A : List (ℕ × ℕ))
    (h : analyse params body = .ok A) (x p : ℕ) (hsees : Sees body (entryEnv params) x p) (hq : ¬ AlreadyQuantized body p x) :
    (p, x) ∈ A := by
  unfold analyse at h
  simp only [bind, Except.bind] at h
  cases hf : params.foldlM (fun r px => record r.1 r.2 px.1 px.2 false) (({} : Mem), ({} : Scope)) with
  | error e => rw [hf] at h; cases h
  | ok r =>
  rw [hf] at h
  dsimp only at h
  cases he : eval body r.1 r.2 [{}] with
  | error e => rw [he] at h; cases h
  | ok r' =>
  rw [he] at h
  simp only [Except.ok.injEq] at h
  subst h
  obtain ⟨own1, s1, o1, n1, b1, r1⟩ := params_ok (Q := fun p x => AlreadyQuantized body p x) (own := fun _ => (0, 0)) (e := fun _ => none)
    params hf nofun nofun rfl rfl nofun
  obtain ⟨own2, -, -, -, -, -, -, c⟩ := claim_all (fun p x => AlreadyQuantized body p x) body hs (fun _ _ h => h) r.1 r.2 [{}] r'.1 r'.2.1 r'.2.2 own1
    he s1 o1 nofun n1 b1
  exact ((c (fun _ => none) _ nofun r1).2 x p hsees).resolve_left hq

/-- **C72.** The analysis of a function without loops does not raise. -/
theorem loop_free_succeeds (params : List (ℕ × ℕ)) (body : Prog) (hl : LoopFree body) (hp : (params ++ assignments body).Nodup) :
    ∃ A, analyse params body = .ok A := by
  obtain ⟨h1, h2, h3⟩ := List.nodup_append.1 hp
  have key : ∀ (ps : List (ℕ × ℕ)) (m : Mem) (s : Scope), s.status = none → s.breaking = [] → (keys s.entries).Nodup → ps.Nodup →
      (∀ a ∈ keys s.entries, a ∉ ps) →
      ∃ m' s', ps.foldlM (fun r px => record r.1 r.2 px.1 px.2 false) (m, s) = .ok (m', s') ∧ s'.status = none ∧ s'.breaking = []
        ∧ (keys s'.entries).Nodup ∧ ∀ a ∈ keys s'.entries, a ∈ keys s.entries ∨ a ∈ ps := by
    intro ps
    induction ps with
    | nil =>
      intro m s k1 k2 k3 k4 k5
      exact ⟨m, s, rfl, k1, k2, k3, fun a ha => .inl ha⟩
    | cons px ps ih =>
      intro m s k1 k2 k3 k4 k5
      obtain ⟨k6, k7⟩ := List.nodup_cons.1 k4
      obtain ⟨m1, s1, r1, r2, r3, r4, r5⟩ := record_succeeds m px.1 px.2 false k1 k3 (fun h => k5 _ h List.mem_cons_self)
      obtain ⟨m2, s2, i1, i2, i3, i4, i5⟩ := ih m1 s1 r2 (r3.trans k2) r4 k7 (by
        intro a ha hc
        rcases r5 a ha with ha | rfl
        · exact k5 a ha (List.mem_cons_of_mem _ hc)
        · exact k6 hc)
      refine ⟨m2, s2, ?_, i2, i3, i4, ?_⟩
      · rw [List.foldlM_cons, r1]
        exact i1
      · intro a ha
        rcases i5 a ha with ha | ha
        · rcases r5 a ha with ha | rfl
          · exact .inl ha
          · exact .inr List.mem_cons_self
        · exact .inr (List.mem_cons_of_mem _ ha)
  obtain ⟨m, s, f1, f2, f3, f4, f5⟩ := key params {} {} rfl rfl List.nodup_nil h1 nofun
  obtain ⟨m', s', e1, -⟩ := eval_succeeds body hl h2 m s [{}] f2 f3 f4 (by
    intro a ha hc
    rcases f5 a ha with ha | ha
    · cases ha
    · exact h3 a ha a hc rfl)
  refine ⟨m'.annots, ?_⟩
  unfold analyse
  simp only [bind, Except.bind, f1, e1]

/-- `def f(x): if c: x = g() else: y = h(); relu(x)`. -/
def unbalanced : Prog := .ite (.assign 11 0 false .done) (.assign 12 1 false .done) .els (.use 0 .done)

/-- **C72, deviation.** An `if` with `else` that assigns `x` in one branch only makes the analysis forget the earlier value of `x`: the
value of the parameter reaches the quantized operator through the other branch, but no quantizer is inserted for it. -/
theorem exhaustive_if_forgets :
    analyse [(10, 0)] unbalanced = .ok [(11, 0)] ∧ Sees unbalanced (entryEnv [(10, 0)]) 0 10 ∧ ¬ AlreadyQuantized unbalanced 10 0 :=
  ⟨rfl, .afterEls _ _ _ _ _ _ _ _ nofun (.assign _ _ _ _ _ _ _ (.done _)) (.here _ _ _ _ rfl), by simp [unbalanced, AlreadyQuantized]⟩

/-- `def f(x): while c: x = g(); if d: break; x = h()`, then `relu(x)`. -/
def breaks : Prog := .loop none [] (.assign 11 0 false (.ite .brk .done .none (.assign 12 0 false .done))) (.use 0 .done)

/-- **C72, deviation.** A value assigned before a `break` in the same iteration is forgotten. -/
theorem break_forgets :
    analyse [(10, 0)] breaks = .ok [(10, 0), (12, 0)] ∧ Sees breaks (entryEnv [(10, 0)]) 0 11 ∧ ¬ AlreadyQuantized breaks 11 0 := by
  refine ⟨rfl, ?_, by simp [breaks, AlreadyQuantized]⟩
  refine .loopBreak _ _ _ _ _ _ _ _ (.assign _ _ _ _ _ _ _ (.thnOut _ _ _ _ _ _ _ nofun (.brk _))) (.here _ _ _ _ ?_)
  rfl

/-- `def f(x): while True: x = g(); break`, then `relu(x)`. -/
def breaksAlways : Prog := .loop none [] (.assign 11 0 false .brk) (.use 0 .done)

/-- **C72, deviation.** All assignments of a loop whose body ends with `break` are forgotten. -/
theorem unconditional_break_forgets :
    analyse [(10, 0)] breaksAlways = .ok [(10, 0)] ∧ Sees breaksAlways (entryEnv [(10, 0)]) 0 11
      ∧ ¬ AlreadyQuantized breaksAlways 11 0 := by
  refine ⟨rfl, ?_, by simp [breaksAlways, AlreadyQuantized]⟩
  refine .loopBreak _ _ _ _ _ _ _ _ (.assign _ _ _ _ _ _ _ (.brk _)) (.here _ _ _ _ ?_)
  rfl

/-- `def f(x): while c: if d: x = g(); continue` then `x = h(); x = k(x)`, and after the loop `relu(x)`. -/
def continues : Prog :=
  .loop none [] (.ite (.assign 11 0 false .cont) .done .none (.assign 12 0 false (.assign 13 0 false .done))) (.use 0 .done)

/-- **C72, deviation.** A value assigned before a `continue` is forgotten if the rest of the body assigns the variable twice. -/
theorem continue_forgets :
    analyse [(10, 0)] continues = .ok [(10, 0), (13, 0)] ∧ Sees continues (entryEnv [(10, 0)]) 0 11
      ∧ ¬ AlreadyQuantized continues 11 0 := by
  refine ⟨rfl, ?_, by simp [continues, AlreadyQuantized]⟩
  refine .next _ _ _ _ _ .cont _ _ _ (.inr rfl) (.thnOut _ _ _ _ _ _ _ nofun (.assign _ _ _ _ _ _ _ (.cont _))) (.loopDone _ _ _ _ _ _ _ (.here _ _ _ _ ?_))
  rfl

/-- `def f(x): try: x = g()`, `except: raise`, then `relu(x)`. -/
def tries : Prog := .try_ (.assign 11 0 false .done) .raise (.use 0 .done)

/-- **C72, deviation.** Assignments in a `try` are forgotten. -/
theorem try_forgets :
    analyse [(10, 0)] tries = .ok [(10, 0)] ∧ Sees tries (entryEnv [(10, 0)]) 0 11 ∧ ¬ AlreadyQuantized tries 11 0 :=
  ⟨rfl, .afterTry _ _ _ _ _ _ _ (.assign _ _ _ _ _ _ _ (.done _)) (.here _ _ _ _ rfl), by simp [tries, AlreadyQuantized]⟩

/-- `def f(x): for _ in it: if c: x = g()`, then in the loop `relu(x)`. -/
def conditionalInLoop : Prog := .loop none [] (.ite (.assign 11 0 false .done) .done .none (.use 0 .done)) .done

/-- **C72, deviation.** A variable that is assigned under a condition in a loop and used in the loop makes the analysis raise: on the
second visit, the new record of the assignment does not agree with the one marked on the first. -/
theorem conditional_assignment_in_loop_raises : analyse [(10, 0)] conditionalInLoop = .error .mismatch := rfl

/-- **C72, deviation.** A loop that ends with `break` inside another loop makes the analysis recurse without end. -/
theorem nested_break_recurses :
    analyse [] (.loop none [] (.loop none [] (.assign 11 0 false .brk) .done) .done) = .error .recursion := rfl

/-! ## Concrete cases -/

/-- `def f(x): if c: x = g()` `else: x = quantized()`, `for y in it: relu(x); x = relu(y)` (not quantized), then `relu(x)`. -/
def sample : Prog :=
  .ite (.assign 11 0 false .done) (.assign 12 0 true .done) .els
    (.loop (some (13, 1)) [] (.use 0 (.use 1 (.assign 14 0 false .done))) (.use 0 .done))

example : Supported sample := by
  refine ⟨trivial, trivial, ⟨trivial, trivial⟩, fun _ x hx => ?_⟩
  have : x = 0 := by
    simp only [Assigns, or_false, or_self] at hx
    exact hx.symm
  subst this
  constructor <;>
  · intro e e' _ hex
    cases hex with
    | assign _ _ _ _ _ _ _ h => cases h; simp
example : analyse [(10, 0)] sample = .ok [(11, 0), (13, 1), (14, 0)] := rfl
example : Sees sample (entryEnv [(10, 0)]) 0 14 :=
  .afterThn _ _ _ _ _ _ _ _ (.assign _ _ _ _ _ _ _ (.done _))
    (.next _ _ _ _ _ .normal _ _ _ (.inl rfl) (.use _ _ _ _ _ (.use _ _ _ _ _ (.assign _ _ _ _ _ _ _ (.done _))))
      (.body _ _ _ _ _ _ _ (.here _ _ _ _ rfl)))
example : (mergeNew { heap := fun o => o == 1, next := 3 } { entries := [⟨0, 11, 0⟩], status := some .ret } { entries := [⟨0, 12, 1⟩, ⟨1, 13, 2⟩] })
    = .ok { entries := [⟨0, 12, 1⟩, ⟨1, 13, 2⟩] } := rfl
example : (mergeNew { heap := fun o => o == 1, next := 3 } { entries := [⟨0, 11, 0⟩] } { entries := [⟨0, 12, 1⟩, ⟨1, 13, 2⟩] })
    = .ok { entries := [⟨0, 11, 0⟩, ⟨0, 12, 1⟩, ⟨1, 13, 2⟩] } := rfl
example : LoopFree unbalanced ∧ ([(10, 0)] ++ assignments unbalanced).Nodup := ⟨⟨trivial, trivial, trivial⟩, by decide⟩

end FF.Dataflow
