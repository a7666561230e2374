/-
Export pipelines: ordering and running of stages, export/pipeline/core.py:23-442.

Simplifications:
* a stage reference is a number; its stage function is given by the interpretation `call`;
* python's recursion limit is not modelled; the traversals are written with a bound on their depth or number of
  steps that is proved to suffice;
* evaluation stages and metrics are left out.
-/
import Mathlib.Data.List.Nodup
import Mathlib.Data.List.Perm.Subperm
import Mathlib.Logic.Relation

namespace FF.Pipeline

variable {N : Type} [DecidableEq N]

set_option linter.unusedSectionVars false

/-! ## Model -/

/-- `Pipeline` with the dependencies stored in its `StageReference`s: core.py:23-29, 103-113.  `next` is the
first unused reference. -/
structure Pipe (N : Type) where
  next : Nat
  stages : List Nat
  name : Nat → N
  deps : Nat → List Nat
  captured : List Nat

/-- `Pipeline()`. -/
def Pipe.empty (dflt : N) : Pipe N := ⟨0, [], fun _ => dflt, fun _ => [], []⟩

inductive Err where
  | circular
  | unknown
  | valueError
  | keyError
  | depth
  deriving DecidableEq, Repr

/-- Functions changed at one point. -/
def upd {A : Type} (f : Nat → A) (k : Nat) (v : A) : Nat → A := fun x => if x = k then v else f x

/-- The loop over dependencies: core.py:372-376. -/
def visitAll (stages : List Nat) (visit : List Nat → Nat → Except Err (List Nat)) :
    List Nat → List Nat → Except Err (List Nat)
  | out, [] => .ok out
  | out, d :: ds =>
    if d ∉ stages then .error .unknown
    else match visit out d with
      | .error e => .error e
      | .ok out' => visitAll stages visit out' ds

/-- `depth_first_traversal`: core.py:362-379.  `visiting` is the path, `out` is both `visited` and `pipeline`,
which grow together. -/
def dfs (stages : List Nat) (deps : Nat → List Nat) : Nat → List Nat → List Nat → Nat →
    Except Err (List Nat)
  | 0, _, _, _ => .error .depth
  | fuel + 1, visiting, out, stage =>
    if stage ∈ visiting then .error .circular
    else if stage ∈ out then .ok out
    else match visitAll stages (dfs stages deps fuel (stage :: visiting)) out (deps stage) with
      | .error e => .error e
      | .ok out' => .ok (out' ++ [stage])

/-- The loop over roots: core.py:385-387. -/
def buildRoots (stages : List Nat) (deps : Nat → List Nat) : List Nat → List Nat → Except Err (List Nat)
  | [], out => .ok out
  | s :: ss, out =>
    match dfs stages deps (stages.length + 1) [] out s with
    | .error e => .error e
    | .ok out' => buildRoots stages deps ss out'

/-- `_build_pipeline`: core.py:355-389. -/
def build (p : Pipe N) (target : Option Nat) : Except Err (List Nat) :=
  match target with
  | none => buildRoots p.stages p.deps p.stages []
  | some t => if t ∉ p.stages then .error .unknown else buildRoots p.stages p.deps [t] []

section
variable {R W E : Type}

/-- `resolve_stage_inputs`: core.py:75-81; `none` is a `KeyError`. -/
def inputs (deps : Nat → List Nat) (input : R) (results : Nat → Option R) (s : Nat) : Option (List R) :=
  if deps s = [] then some [input] else (deps s).mapM results

/-- `_execute_pipeline`: core.py:391-405.  A stage function gets its arguments and the state of the world,
which includes the shared context; it may fail. -/
def execute (deps : Nat → List Nat) (call : Nat → List R → W → Except E (R × W)) (input : R) :
    List Nat → (Nat → Option R) → W → Except (Err ⊕ E) ((Nat → Option R) × W)
  | [], results, w => .ok (results, w)
  | s :: ss, results, w =>
    match inputs deps input results s with
    | none => .error (.inl .keyError)
    | some args =>
      match call s args w with
      | .error e => .error (.inr e)
      | .ok rw => execute deps call input ss (upd results s (some rw.1)) rw.2

/-- `__call__`: core.py:418-442, without evaluation. -/
def run (p : Pipe N) (call : Nat → List R → W → Except E (R × W)) (input : R) (w : W) :
    Except (Err ⊕ E) (List (N × Option R) × W) :=
  match build p none with
  | .error e => .error (.inl e)
  | .ok order =>
    match execute p.deps call input order (fun _ => none) w with
    | .error e => .error e
    | .ok rw => .ok (p.captured.map (fun s => (p.name s, rw.1 s)), rw.2)
end

/-- `StageReference.depends_on`: core.py:31-36. -/
def dependsOn (deps : List Nat) (ds : List Nat) : List Nat :=
  ds.foldl (fun acc d => if d ∈ acc then acc else acc ++ [d]) deps

/-- `register_stage`: core.py:115-127. -/
def register (p : Pipe N) (name : N) (capture : Bool) : Except Err (Pipe N × Nat) :=
  if name ∈ p.stages.map p.name then .error .valueError
  else .ok (⟨p.next + 1, p.stages ++ [p.next], upd p.name p.next name, upd p.deps p.next [],
    if capture then p.captured ++ [p.next] else p.captured⟩, p.next)

/-- `get_stage`: core.py:137-153. -/
def getStage (p : Pipe N) (name : N) : Except Err Nat :=
  match p.stages.find? (fun s => p.name s = name) with
  | none => .error .keyError
  | some s => .ok s

/-- `[get_stage(n) for n in names]`. -/
def getStages (p : Pipe N) : List N → Except Err (List Nat)
  | [] => .ok []
  | n :: ns =>
    match getStage p n with
    | .error e => .error e
    | .ok s => match getStages p ns with
      | .error e => .error e
      | .ok ss => .ok (s :: ss)

/-- `_dependents_of`: core.py:338-339. -/
def dependents (p : Pipe N) (t : Nat) : List Nat := p.stages.filter (fun s => t ∈ p.deps s)

/-- `for dependent in dependents: dependent._remove_dependency(t); dependent.depends_on(n)`:
core.py:238-240, 296-298. -/
def rewire (deps : Nat → List Nat) (t n : Nat) (ds : List Nat) : Nat → List Nat :=
  ds.foldl (fun deps d => upd deps d (dependsOn ((deps d).erase t) [n])) deps

/-- `insert_stage_before`: core.py:155-200. -/
def insertBefore (p : Pipe N) (target name : N) (explicit : Option (List N)) (capture : Bool) :
    Except Err (Pipe N) :=
  match getStage p target with
  | .error e => .error e
  | .ok t =>
    match explicit with
    | none =>
      match register p name capture with
      | .error e => .error e
      | .ok (q, n) =>
        .ok { q with deps := upd (upd q.deps n (dependsOn (q.deps n) (p.deps t))) t [n] }
    | some names =>
      match getStages p names with
      | .error e => .error e
      | .ok ds =>
        match register p name capture with
        | .error e => .error e
        | .ok (q, n) => .ok { q with deps := upd q.deps n (dependsOn (q.deps n) ds) }

/-- `insert_stage_after`: core.py:202-241. -/
def insertAfter (p : Pipe N) (target name : N) (capture : Bool) : Except Err (Pipe N) :=
  match getStage p target with
  | .error e => .error e
  | .ok t =>
    match register p name capture with
    | .error e => .error e
    | .ok (q, n) =>
      .ok { q with deps := rewire (upd q.deps n (dependsOn (q.deps n) [t])) t n (dependents p t) }

/-- The collections without the replaced stage: core.py:286-288. -/
def withoutStage (p : Pipe N) (t : Nat) : Pipe N :=
  { p with stages := p.stages.erase t, captured := p.captured.filter (fun s => s ≠ t) }

/-- `replace_stage`: core.py:243-300. -/
def replace (p : Pipe N) (target : N) (name : Option N) (capture : Option Bool) : Except Err (Pipe N) :=
  match getStage p target with
  | .error e => .error e
  | .ok t =>
    let newName := name.getD (p.name t)
    if newName ≠ p.name t ∧ newName ∈ p.stages.map p.name then .error .valueError
    else
      match register (withoutStage p t) newName (capture.getD (decide (t ∈ p.captured))) with
      | .error e => .error e
      | .ok (q, n) =>
        .ok { q with
          deps := rewire (upd q.deps n (dependsOn (q.deps n) (p.deps t))) t n (dependents p t) }

/-- The loop of `_reaches`: core.py:345-353.  The top of the stack is the head. -/
def reachesLoop (deps : Nat → List Nat) (dst : Nat) : Nat → List Nat → List Nat → Bool
  | 0, _, _ => false
  | _ + 1, [], _ => false
  | fuel + 1, c :: stack, seen =>
    if c = dst then true
    else if c ∈ seen then reachesLoop deps dst fuel stack seen
    else reachesLoop deps dst fuel ((deps c).reverse ++ stack) (c :: seen)

/-- Enough steps for the loop. -/
def reachesFuel (p : Pipe N) : Nat := (p.stages.map (fun s => (p.deps s).length)).sum + 2

/-- `_reaches`: core.py:341-353. -/
def reaches (p : Pipe N) (src dst : Nat) : Bool := reachesLoop p.deps dst (reachesFuel p) [src] []

/-- `add_dependency`: core.py:302-322. -/
def addDependency (p : Pipe N) (stage dependency : N) : Except Err (Pipe N) :=
  match getStage p stage with
  | .error e => .error e
  | .ok s =>
    match getStage p dependency with
    | .error e => .error e
    | .ok d =>
      if reaches p d s then .error .valueError
      else .ok { p with deps := upd p.deps s (dependsOn (p.deps s) [d]) }

/-- `remove_dependency`: core.py:324-336. -/
def removeDependency (p : Pipe N) (stage dependency : N) : Except Err (Pipe N) :=
  match getStage p stage with
  | .error e => .error e
  | .ok s =>
    match getStage p dependency with
    | .error e => .error e
    | .ok d =>
      if d ∉ p.deps s then .error .keyError
      else .ok { p with deps := upd p.deps s ((p.deps s).erase d) }

/-- The edits of a pipeline by name. -/
inductive Edit (N : Type) where
  | register (name : N) (capture : Bool)
  | insertBefore (target name : N) (explicit : Option (List N)) (capture : Bool)
  | insertAfter (target name : N) (capture : Bool)
  | replace (target : N) (name : Option N) (capture : Option Bool)
  | addDependency (stage dependency : N)
  | removeDependency (stage dependency : N)

/-- One edit. -/
def edit (p : Pipe N) : Edit N → Except Err (Pipe N)
  | .register n c => match register p n c with
    | .error e => .error e
    | .ok q => .ok q.1
  | .insertBefore t n d c => insertBefore p t n d c
  | .insertAfter t n c => insertAfter p t n c
  | .replace t n c => replace p t n c
  | .addDependency s d => addDependency p s d
  | .removeDependency s d => removeDependency p s d

/-- A history of edits; a refused edit changes nothing. -/
def edits (p : Pipe N) (es : List (Edit N)) : Pipe N :=
  es.foldl (fun p e => match edit p e with | .error _ => p | .ok q => q) p

/-! ## Specification -/

/-- `s` needs `d`, directly or through other stages. -/
abbrev Needs (p : Pipe N) : Nat → Nat → Prop := Relation.TransGen (fun s d => d ∈ p.deps s)

/-- An order of stages in which dependencies come first. -/
def DependenciesFirst (p : Pipe N) (order : List Nat) : Prop :=
  ∀ before s after, order = before ++ s :: after → ∀ d ∈ p.deps s, d ∈ before

/-- The stages called one after the other, each with the results of its dependencies in declared order, or
with the pipeline input if it has none; `results` are the results of all calls. -/
inductive Calls {R W E : Type} (p : Pipe N) (call : Nat → List R → W → Except E (R × W)) (input : R)
    (results : Nat → Option R) : List Nat → W → W → Prop
  | done (w) : Calls p call input results [] w w
  | step (s ss args r w w' w'') :
      (p.deps s = [] → args = [input]) →
      (p.deps s ≠ [] → args.map some = (p.deps s).map results) →
      call s args w = .ok (r, w') → results s = some r →
      Calls p call input results ss w' w'' → Calls p call input results (s :: ss) w w''

end FF.Pipeline
