import Verif.Orch.Passes
import Verif.Util.Dict

/-!
# Offloading passes

Models `_weight_offloading_pass`, `_activation_offloading_pass`, `_cancel_module_round_trips`, `_cancel_redundant_activation_moves` and
`_offloading_pass` of `/repo/src/fastforward/_orchestration/instruction_engine.py` (862-1083).
-/

namespace FF.Orch

/-! ### Model -/

/-- Where the parameters and buffers of each module are: `named_parameters()` and `named_buffers()` with their devices. Parameters
shared between modules are not modelled. -/
abbrev Placement := ℕ → List (String × Dev)

/-- `all_modules` (890-896): the modules of the graph's nodes, each once, in the order of the nodes. -/
def Graph.modules (g : Graph) : List ℕ := dedupe [] ((g.nodes.filter (·.isModule)).map (·.target))

/-- The wrapping of one instruction in `_weight_offloading_pass` (914-923). -/
def wrapWeights (comp stor : Dev) (i : Instr) : List Instr :=
  match i with
  | .call m true _ _ _ _ => [.moveModule (.dev comp) m, i, .moveModule (.dev stor) m]
  | .optimize m _ _ _ => [.moveModule (.dev comp) m, i, .moveModule (.dev stor) m]
  | _ => [i]

/-- `post_restore` (899-908). -/
def postRestore (mods : List ℕ) (place : Placement) : List Instr :=
  (mods.filter fun m => !(place m).isEmpty).map fun m => .moveModule (.map (place m)) m

/-- `pre_offload` (910). -/
def preOffload (stor : Dev) (mods : List ℕ) : List Instr := mods.map fun m => .moveModule (.dev stor) m

/-- `_weight_offloading_pass` (862-926), for the modules and their placement when the pass is applied. -/
def weightOffload (comp stor : Dev) (mods : List ℕ) (place : Placement) (is : List Instr) : List Instr :=
  preOffload stor mods ++ is.flatMap (wrapWeights comp stor) ++ postRestore mods place

/-- `isinstance(ref.unwrap_ref(), Const)` (955). -/
def Ref.constBase (r : Ref) : Bool :=
  match r.unwrap with
  | .const _ => true
  | _ => false

/-- The moves before an instruction (953-957). -/
def actsBefore (comp : Dev) (i : Instr) : List Instr :=
  (i.uses.filter fun r => !r.constBase).map fun r => .moveAct comp r

/-- One instruction of `_activation_offloading_pass` (952-966). -/
def wrapActivations (comp stor : Dev) (i : Instr) : List Instr :=
  match i with
  | .call _ _ _ _ t _ => actsBefore comp i ++ [i, .moveAct stor t]
  | .optimize .. => actsBefore comp i ++ [i]
  | _ => [i]

/-- `_activation_offloading_pass` (929-967). -/
def activationOffload (comp stor : Dev) (is : List Instr) : List Instr := is.flatMap (wrapActivations comp stor)

/-- `_is_round_trip` (1007-1015). -/
def isRoundTrip (comp stor : Dev) (a b : Instr) : Bool :=
  match a, b with
  | .moveModule (.dev d1) m1, .moveModule (.dev d2) m2 =>
    m1 == m2 && ((d1 == comp && d2 == stor) || (d1 == stor && d2 == comp))
  | _, _ => false

/-- `_cancel_module_round_trips` (1001-1026). -/
def cancelRoundTrips (comp stor : Dev) : List Instr → List Instr
  | [] => []
  | [a] => [a]
  | a :: b :: rest => if isRoundTrip comp stor a b then cancelRoundTrips comp stor rest else a :: cancelRoundTrips comp stor (b :: rest)

/-- The local state of `_cancel_redundant_activation_moves` (1044-1046): `ref_device`, `pending` (device and reference of the buffered
move) and `result`. -/
structure MoveBuffer where
  refDev : List (Ref × Dev) := []
  pending : List (Ref × Dev × Ref) := []
  result : List Instr := []

/-- `_flush` (1058-1063). -/
def MoveBuffer.flush (b : MoveBuffer) (r : Ref) : MoveBuffer :=
  match Dict.get b.pending r.unwrap with
  | none => b
  | some mv =>
    let pending := b.pending.filter fun p => p.1 ≠ r.unwrap
    if Dict.get b.refDev r.unwrap = some mv.1 then ⟨b.refDev, pending, b.result⟩
    else ⟨Dict.set b.refDev r.unwrap mv.1, pending, b.result ++ [.moveAct mv.1 mv.2]⟩

/-- `devs` (1055): the known devices of the positional arguments, each once. -/
def MoveBuffer.argDevs (b : MoveBuffer) (args : List Ref) : List Dev := dedupe [] (args.filterMap fun a => Dict.get b.refDev a.unwrap)

/-- `_infer_output_device` (1048-1056). -/
def MoveBuffer.infer (comp : Dev) (b : MoveBuffer) (i : Instr) : MoveBuffer :=
  match i with
  | .call _ true _ _ t _ => { b with refDev := Dict.set b.refDev t.unwrap comp }
  | .call _ false args _ t _ => match b.argDevs args with
    | [d] => { b with refDev := Dict.set b.refDev t.unwrap d }
    | _ => b
  | _ => b

/-- One iteration (1068-1075). -/
def MoveBuffer.step (comp : Dev) (b : MoveBuffer) (i : Instr) : MoveBuffer :=
  match i with
  | .moveAct d r => { b with pending := Dict.set b.pending r.unwrap (d, r) }
  | i =>
    let b' := i.uses.foldl MoveBuffer.flush b
    MoveBuffer.infer comp { b' with result := b'.result ++ [i] } i

/-- `_cancel_redundant_activation_moves` (1029-1083). -/
def cancelActivationMoves (comp : Dev) (is : List Instr) : List Instr :=
  let b := is.foldl (MoveBuffer.step comp) {}
  b.result ++ (b.pending.filter fun p => Dict.get b.refDev p.2.2.unwrap ≠ some p.2.1).map fun p => .moveAct p.2.1 p.2.2

/-- The two insertion passes of `_offloading_pass` (990-991). -/
def insertMoves (comp stor : Dev) (mods : List ℕ) (place : Placement) (is : List Instr) : List Instr :=
  activationOffload comp stor (weightOffload comp stor mods place is)

/-- `_offloading_pass` (970-998), as `OffloadEverything` uses it (1278-1283). -/
def offload (comp stor : Dev) (mods : List ℕ) (place : Placement) (is : List Instr) : List Instr :=
  cancelActivationMoves comp (cancelRoundTrips comp stor (insertMoves comp stor mods place is))

/-! ### Specification: execution with devices -/

/-- A value with the device of its tensors (`none`: it contains no tensors, so it can be used anywhere). A value whose tensors are on
several devices is not represented. -/
abbrev Placed (V : Type) := V × Option Dev

def onDev (d : Dev) (t : Option Dev) : Prop := t = none ∨ t = some d

instance (d : Dev) (t : Option Dev) : Decidable (onDev d t) := by unfold onDev; infer_instance

/-- `MoveModule.execute` (518-531): every parameter, or those that are named. -/
def moveParams (l : List (String × Dev)) : MoveTo → List (String × Dev)
  | .dev d => l.map fun p => (p.1, d)
  | .map m => l.map fun p => (p.1, (Dict.get m p.1).getD p.2)

variable {V W : Type}

/-- The same functions, modules and delegates, refusing to run unless all activations and the module's parameters are on device
`comp`; what they compute is then on that device. Delegates leave parameters where they are. -/
def placed (comp : Dev) (sem : Sem V W) : Sem (Placed V) (W × Placement) where
  constVal k := (sem.constVal k, none)
  item v a := (sem.item v.1 a).map (·, v.2)
  getattr v k := (sem.getattr v.1 k).map (·, v.2)
  call w c m args kwargs :=
    if (∀ v ∈ args, onDev comp v.2) ∧ (∀ kv ∈ kwargs, onDev comp kv.2.2) ∧ ∀ p ∈ w.2 m, p.2 = comp then
      (sem.call w.1 c m (args.map (·.1)) (kwargs.map fun kv => (kv.1, kv.2.1))).map (·, some comp)
    else none
  optimize w fn m bs :=
    if (∀ b ∈ bs, (∀ d ∈ b.args, ∀ v ∈ d, onDev comp v.2) ∧ ∀ kd ∈ b.kwargs, ∀ v ∈ kd.2, onDev comp v.2) ∧ ∀ p ∈ w.2 m, p.2 = comp then
      (sem.optimize w.1 fn m (bs.map fun b => ⟨b.args.map (·.map (·.1)), b.kwargs.map fun kd => (kd.1, kd.2.map (·.1))⟩)).map (·, w.2)
    else none
  move d v := (v.1, v.2.map fun _ => d)
  moveModule w dest m := (w.1, fun k => if k = m then moveParams (w.2 k) dest else w.2 k)

end FF.Orch
