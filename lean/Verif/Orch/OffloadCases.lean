import Verif.Orch.Offload
import Verif.Orch.OptOnlyProps
import Verif.Orch.ExecCases

/-! # Offloading: where it goes wrong (C23) -/

namespace FF.Orch

variable {V W : Type}

/-- Running the scheduled graph with `OffloadEverything` (`orchestration.py:80-88`), with devices. -/
def runOffloaded (sem : Sem V W) (g : Graph) (order : List ℕ) (comp stor : Dev) (w : W) (place : Placement)
    (args : List (RawInput (Placed V))) (kwargs : List (String × RawInput (Placed V))) :
    (W × Placement) × Except EErr (Option (Out (Placed V))) :=
  runProgram (placed comp sem) g.inputs (offload comp stor g.modules place (lifetimePass (optimizationOnly (schedule g order)))) (w, place)
    args kwargs

instance : DecidableEq (Out (Placed (List ℤ))) := fun a b => instDecidableEqList a b

/-- Two modules with one parameter each, on device 0. -/
def onZero : Placement := fun m => if m = 1 ∨ m = 2 ∨ m = 0 then [("weight", 0)] else []

/-- One module with a delegate. -/
def single : Graph where
  nodes := [{ id := 0, name := "a", target := 1, isModule := true, args := [.input "x"], kwargs := [], delegate := some ⟨3, [0]⟩ }]
  inputs := ["x"]
  outputs := [.node 0]

/-- **C23, deviation.** The module is not moved to the compute device: the move to storage at the beginning and the move to the compute
device before the first call are taken for a round trip. The run without offloading succeeds; with offloading the delegate is called
with a module on the storage device. This happens whenever the last module of the graph is the first one to run. -/
theorem first_module_left_behind :
    (runOptimizations toySem single [0] 7 [.single [1]] []).2 = .ok none ∧
    (runOffloaded toySem single [0] 1 0 7 onZero [.single ([1], some 0)] []).2 = .error .userError ∧
    offload 1 0 single.modules onZero (lifetimePass (optimizationOnly (schedule single [0]))) =
      [.moveAct 1 (.input "x"), .optimize 1 [.input "x"] [] ⟨3, [0]⟩, .moveModule (.dev 0) 1, .delete [.input "x"],
       .moveModule (.map [("weight", 0)]) 1] := by
  decide

/-- A module that uses two parts of another module's result. -/
def twoParts : Graph where
  nodes := [
    { id := 0, name := "a", target := 2, isModule := true, args := [.input "x"], kwargs := [] },
    { id := 1, name := "b", target := 1, isModule := true, args := [.attr (.node 0) (.idx 0), .attr (.node 0) (.idx 1)], kwargs := [],
      delegate := some ⟨3, [0]⟩ }]
  inputs := ["x"]
  outputs := [.node 1]

/-- **C23, deviation.** Two parts of one value: only the last one is moved to the compute device, because moves are buffered per value
and not per part. -/
theorem parts_overwrite_each_other :
    (runOptimizations toySem twoParts [0, 1] 7 [.single [1, 2]] []).2 = .ok none ∧
    (runOffloaded toySem twoParts [0, 1] 1 0 7 onZero [.single ([1, 2], some 0)] []).2 = .error .userError := by
  decide

/-- Two modules that use the same part of another module's result. -/
def samePart : Graph where
  nodes := [
    { id := 0, name := "a", target := 2, isModule := true, args := [.input "x"], kwargs := [] },
    { id := 1, name := "b", target := 1, isModule := true, args := [.attr (.node 0) (.idx 0)], kwargs := [], delegate := some ⟨3, [0]⟩ },
    { id := 2, name := "c", target := 0, isModule := true, args := [.attr (.node 0) (.idx 0)], kwargs := [], delegate := some ⟨3, [0]⟩ }]
  inputs := ["x"]
  outputs := [.node 1, .node 2]

/-- **C23, deviation.** One part used by two modules: it is extracted again for the second module, from the value in storage, but the
move to the compute device is dropped as redundant. -/
theorem part_extracted_again_not_moved :
    (runOptimizations toySem samePart [0, 1, 2] 7 [.single [1, 2]] []).2 = .ok none ∧
    (runOffloaded toySem samePart [0, 1, 2] 1 0 7 onZero [.single ([1, 2], some 0)] []).2 = .error .userError := by
  decide

/-- Two modules, the first of which is on the compute device. -/
def chain : Graph where
  nodes := [
    { id := 0, name := "a", target := 1, isModule := true, args := [.input "x"], kwargs := [] },
    { id := 1, name := "b", target := 2, isModule := true, args := [.node 0], kwargs := [] }]
  inputs := ["x"]
  outputs := [.node 1]

/-- **C23, deviation.** If the graph returns something, the modules are not moved back: the moves come after the instruction that ends
the run. Here both modules were on the compute device and end in storage. -/
theorem modules_not_restored :
    (runOffloaded toySem chain [0, 1] 1 0 7 (fun m => if m = 1 ∨ m = 2 then [("weight", 1)] else []) [.single ([1], some 1)] []).2 =
      .ok (some [(0, [[([8, 16], some 0)]])]) ∧
    (runOffloaded toySem chain [0, 1] 1 0 7 (fun m => if m = 1 ∨ m = 2 then [("weight", 1)] else []) [.single ([1], some 1)] []).1.2 1 =
      [("weight", 0)] := by
  decide

end FF.Orch
