import Verif.Orch.Engine

/-!
# Instruction passes

Models `lifetime_management_pass`, `optimization_only_pass` and the offloading passes of
`/repo/src/fastforward/_orchestration/instruction_engine.py`.
-/

namespace FF.Orch

/-- `itertools.chain(instruction.uses(), instruction.produces())` (803). -/
def Instr.touches (i : Instr) : List Ref := i.uses ++ i.produces

/-! ### `lifetime_management_pass` (784-821) -/

/-- `keep_alive` (793-796). -/
def keepAlive (is : List Instr) : List Ref :=
  is.flatMap fun i => match i with
    | .ret _ => i.uses
    | _ => []

/-- One step of the loop over references (803-805): the first index seen from the end is kept. -/
def addLast (idx : ℕ) (acc : List (Ref × ℕ)) (r : Ref) : List (Ref × ℕ) :=
  if r ∈ acc.map (·.1) then acc else acc ++ [(r, idx)]

/-- `last_use` (798-805), a dictionary in insertion order. -/
def lastUse (is : List Instr) : List (Ref × ℕ) :=
  is.zipIdx.reverse.foldl (fun acc p => p.1.touches.foldl (addLast p.2) acc) []

/-- `to_delete` at an index (812-816). -/
def toDelete (keep : List Ref) (last : List (Ref × ℕ)) (idx : ℕ) : List Ref :=
  (last.filter fun p => p.2 = idx ∧ p.1 ∉ keep).map (·.1)

/-- `lifetime_management_pass` (784-821). -/
def lifetimePass (is : List Instr) : List Instr :=
  let keep := keepAlive is
  let last := lastUse is
  is.zipIdx.flatMap fun p =>
    let d := toDelete keep last p.2
    if d.isEmpty then [p.1] else [p.1, .delete d]

/-! ### `optimization_only_pass` (824-859) -/

def Instr.isOptimize : Instr → Bool
  | .optimize .. => true
  | _ => false

/-- One iteration of the reversed loop (846-857): the retained instructions (in final order) and the required values. -/
def optStep (i : Instr) (acc : List Instr × List Ref) : List Instr × List Ref :=
  if i.isOptimize then (i :: acc.1, i.uses ++ acc.2)
  else if i.produces.any fun r => acc.2.contains r then (i :: acc.1, i.uses ++ acc.2)
  else acc

/-- `optimization_only_pass` (824-859). -/
def optimizationOnly (is : List Instr) : List Instr :=
  if is.any Instr.isOptimize then (is.foldr optStep ([], [])).1 else is

end FF.Orch
