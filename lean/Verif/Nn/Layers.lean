/-!
# Quantized layers

Models the quantized counterparts of layers in `src/fastforward/nn/`: `linear.py`,
`conv.py`, `normalization.py`, `embedding.py` and `activations.py`, the operators
they call (`_gen/fallback.py`) and models built from them.

Simplifications: operators are not overridden by registered kernels (C28); the
floating point operators of PyTorch are parameters of the model; tensors are
values of a type `P`, except in programs, where they are cells of a memory that
operators in place overwrite.  `max_norm` of embeddings, which overwrites the
weight, is not modelled.
-/

namespace FF.Layers

/-! ## Model -/

/-- A tensor: an ordinary one or a `QuantizedTensor`. -/
inductive Tensor (P Q : Type) where
  | plain (p : P)
  | quant (q : Q)

/-- Errors: `QuantizationError` of an operator, or an error of a quantizer. -/
inductive Err where
  | notQuantized
  | quantizer (n : Nat)
  deriving DecidableEq

/-- A quantizer: `QuantizerStub`, which returns its input, or some function. -/
inductive Qz (P Q : Type) where
  | stub
  | fn (f : Tensor P Q → Except Err (Tensor P Q))

/-- Padding of a convolution: `padding=` as numbers or as a string. -/
inductive Padding where
  | num (n : List Nat)
  | same
  | valid
  deriving DecidableEq

/-- `padding_mode=` of a convolution. -/
inductive Mode where
  | zeros
  | reflect
  | replicate
  | circular
  deriving DecidableEq

/-- The other attributes of a convolution. -/
structure ConvCfg where
  stride : List Nat
  padding : Padding
  dilation : List Nat
  groups : Nat
  deriving DecidableEq

/-- Attributes of an embedding that are passed on. -/
structure EmbCfg where
  paddingIdx : Option Nat
  scaleGradByFreq : Bool
  sparse : Bool
  deriving DecidableEq

/-- Operators of PyTorch on ordinary tensors: `torch.nn.functional.linear`,
`conv1d`/`conv2d` (by the number of dimensions), `pad` with the amounts that the
layer computes from its attributes, `layer_norm`, `embedding`, `relu`, `silu`; and
the value of a quantized tensor. -/
structure Torch (P Q : Type) where
  linear : P → P → Option P → P
  conv : Nat → P → P → Option P → ConvCfg → P
  pad : Mode → ConvCfg → P → P → P
  layerNorm : P → List Nat → Option P → Option P → Nat → P
  embedding : P → P → EmbCfg → P
  relu : P → P
  silu : P → P
  dequantize : Q → P

variable {P Q : Type}

/-- Calling a quantizer. -/
def Qz.apply (q : Qz P Q) (t : Tensor P Q) : Except Err (Tensor P Q) :=
  match q with
  | .stub => .ok t
  | .fn f => f t

/-- A layer of PyTorch. -/
inductive TLayer (P : Type) where
  | linear (w : P) (b : Option P)
  | conv (dim : Nat) (cfg : ConvCfg) (mode : Mode) (w : P) (b : Option P)
  | layerNorm (shape : List Nat) (eps : Nat) (affine : Bool) (w b : Option P)
  | embedding (cfg : EmbCfg) (w : P)
  | relu (inplace : Bool)
  | silu (inplace : Bool)

/-- A quantized layer: the attributes of the layer and its quantizers. -/
inductive QLayer (P Q : Type) where
  | linear (w : P) (b : Option P) (iq wq : Qz P Q) (bq : Option (Qz P Q)) (oq : Qz P Q)
  | conv (dim : Nat) (cfg : ConvCfg) (mode : Mode) (w : P) (b : Option P) (iq wq : Qz P Q)
      (bq : Option (Qz P Q)) (oq : Qz P Q)
  | layerNorm (shape : List Nat) (eps : Nat) (w b : Option P) (iq : Qz P Q) (wq bq : Option (Qz P Q))
      (oq : Qz P Q)
  | embedding (cfg : EmbCfg) (w : P) (wq oq : Qz P Q)
  | relu (inplace : Bool) (iq oq : Qz P Q)
  | silu (inplace : Bool) (iq oq : Qz P Q)

/-- The `forward` of layers of PyTorch.  Convolutions with a padding mode pad
first (`_conv_forward`); activations in place return what they return otherwise
(what they overwrite is in `runTorch`). -/
def TLayer.forward (t : Torch P Q) : TLayer P → P → P
  | .linear w b, x => t.linear x w b
  | .conv dim cfg mode w b, x =>
    if mode = .zeros then t.conv dim x w b cfg
    else t.conv dim (t.pad mode cfg w x) w b { cfg with padding := .num [0] }
  | .layerNorm shape eps _ w b, x => t.layerNorm x shape w b eps
  | .embedding cfg w, x => t.embedding x w cfg
  | .relu _, x => t.relu x
  | .silu _, x => t.silu x

/-- `__init_quantization__` of the layers: `linear.py` 20–29, `conv.py` 20–28 and
59–67, `normalization.py` 17–28, `embedding.py` 14–18, `activations.py` 14–18,
29–32 and 48–51. -/
def convert : TLayer P → QLayer P Q
  | .linear w b => .linear w b .stub .stub (b.map fun _ => .stub) .stub
  | .conv dim cfg mode w b => .conv dim cfg mode w b .stub .stub (b.map fun _ => .stub) .stub
  | .layerNorm shape eps affine w b =>
    .layerNorm shape eps w b .stub (if affine then some .stub else none)
      (if affine then some .stub else none) .stub
  | .embedding cfg w => .embedding cfg w .stub .stub
  | .relu _ => .relu false .stub .stub
  | .silu _ => .silu false .stub .stub

/-- The check and conversion of a parameter of type `Quantized` in generated
operators (`_gen/fallback.py` 183–197). -/
def operand (t : Torch P Q) (strict : Bool) : Tensor P Q → Except Err P
  | .plain p => if strict then .error .notQuantized else .ok p
  | .quant q => .ok (t.dequantize q)

/-- An `Optional[Quantized]` parameter (`_gen/fallback.py` 679–688). -/
def operandOpt (t : Torch P Q) (strict : Bool) : Option (Tensor P Q) → Except Err (Option P)
  | none => .ok none
  | some x => (operand t strict x).map some

/-- A `MaybeQuantized` parameter (`_gen/fallback.py` 199–201). -/
def maybeOperand (t : Torch P Q) : Tensor P Q → P
  | .plain p => p
  | .quant q => t.dequantize q

/-- `linear` (`_gen/fallback.py` 77–112). -/
def opLinear (t : Torch P Q) (strict : Bool) (x w : Tensor P Q) (b : Option (Tensor P Q)) (oq : Qz P Q) :
    Except Err (Tensor P Q) := do
  let x ← operand t strict x
  let w ← operand t strict w
  oq.apply (.plain (t.linear x w (b.map (maybeOperand t))))

/-- `conv1d` and `conv2d` (`_gen/fallback.py` 116–214). -/
def opConv (t : Torch P Q) (strict : Bool) (dim : Nat) (x w : Tensor P Q) (b : Option (Tensor P Q))
    (cfg : ConvCfg) (oq : Qz P Q) : Except Err (Tensor P Q) := do
  let x ← operand t strict x
  let w ← operand t strict w
  oq.apply (.plain (t.conv dim x w (b.map (maybeOperand t)) cfg))

/-- `layer_norm` (`_gen/fallback.py` 655–700). -/
def opLayerNorm (t : Torch P Q) (strict : Bool) (x : Tensor P Q) (shape : List Nat)
    (w b : Option (Tensor P Q)) (eps : Nat) (oq : Qz P Q) : Except Err (Tensor P Q) := do
  let x ← operand t strict x
  let w ← operandOpt t strict w
  oq.apply (.plain (t.layerNorm x shape w (b.map (maybeOperand t)) eps))

/-- `embedding` (`_gen/fallback.py` 616–651): the indices are an ordinary tensor. -/
def opEmbedding (t : Torch P Q) (strict : Bool) (x : P) (w : Tensor P Q) (cfg : EmbCfg) (oq : Qz P Q) :
    Except Err (Tensor P Q) := do
  let w ← operand t strict w
  oq.apply (.plain (t.embedding x w cfg))

/-- `relu` and `silu` (`_gen/fallback.py` 296–318, 1348–1370). -/
def opUnary (t : Torch P Q) (strict : Bool) (f : P → P) (x : Tensor P Q) (oq : Qz P Q) :
    Except Err (Tensor P Q) := do
  let x ← operand t strict x
  oq.apply (.plain (f x))

/-- `bias = self.bias_quantizer(self.bias)` if both exist (`linear.py` 35–38,
`conv.py` 35–38, `normalization.py` 36–39). -/
def parameter (p : Option P) (q : Option (Qz P Q)) : Except Err (Option (Tensor P Q)) :=
  match p, q with
  | some p, some q => (q.apply (.plain p)).map some
  | some p, none => .ok (some (.plain p))
  | none, _ => .ok none

/-- The `forward` of quantized layers: `linear.py` 31–39, `conv.py` 30–48 and
69–87, `normalization.py` 30–48, `embedding.py` 20–31, `activations.py` 34–37 and
53–56.  `strict` is the value of `ff.get_strict_quantization()`. -/
def QLayer.forward (t : Torch P Q) (strict : Bool) : QLayer P Q → Tensor P Q → Except Err (Tensor P Q)
  | .linear w b iq wq bq oq, x => do
    let x ← iq.apply x
    let w ← wq.apply (.plain w)
    let b ← parameter b bq
    opLinear t strict x w b oq
  | .conv dim cfg _ w b iq wq bq oq, x => do
    let x ← iq.apply x
    let w ← wq.apply (.plain w)
    let b ← parameter b bq
    opConv t strict dim x w b cfg oq
  | .layerNorm shape eps w b iq wq bq oq, x => do
    let x ← iq.apply x
    let w ← parameter w wq
    let b ← parameter b bq
    opLayerNorm t strict x shape w b eps oq
  | .embedding cfg w wq oq, x => do
    let w ← wq.apply (.plain w)
    opEmbedding t strict (maybeOperand t x) w cfg oq
  | .relu _ iq oq, x => do
    let x ← iq.apply x
    opUnary t strict t.relu x oq
  | .silu _ iq oq, x => do
    let x ← iq.apply x
    opUnary t strict t.silu x oq

/-- A model as a program: each step calls a layer on a variable, or an operator
with two operands that returns a new tensor (such as `x + y`), and assigns the
result to a variable. -/
inductive Step (L P : Type) where
  | layer (l : L) (x y : String)
  | bin (f : P → P → P) (x₁ x₂ y : String)

/-- The layer overwrites its input and returns it. -/
def TLayer.inplace : TLayer P → Bool
  | .relu b | .silu b => b
  | _ => false

/-- The state of a running PyTorch model: variables refer to cells of a memory. -/
structure Mem (P : Type) where
  env : String → Nat
  heap : Nat → P
  next : Nat

/-- Writing a cell. -/
def Mem.set (m : Mem P) (i : Nat) (v : P) : Mem P := { m with heap := fun j => if j = i then v else m.heap j }

/-- Letting a variable refer to a cell. -/
def Mem.bind (m : Mem P) (y : String) (i : Nat) : Mem P := { m with env := fun z => if z = y then i else m.env z }

/-- A new cell with a value, for a variable. -/
def Mem.alloc (m : Mem P) (y : String) (v : P) : Mem P :=
  { (m.set m.next v).bind y m.next with next := m.next + 1 }

/-- One step of a PyTorch model. -/
def stepTorch (t : Torch P Q) (m : Mem P) : Step (TLayer P) P → Mem P
  | .layer l x y =>
    let i := m.env x
    let v := l.forward t (m.heap i)
    if l.inplace then (m.set i v).bind y i else m.alloc y v
  | .bin f x₁ x₂ y => m.alloc y (f (m.heap (m.env x₁)) (m.heap (m.env x₂)))

/-- Running a PyTorch model and returning a variable. -/
def runTorch (t : Torch P Q) (m : Mem P) (prog : List (Step (TLayer P) P)) (r : String) : P :=
  let m := prog.foldl (stepTorch t) m
  m.heap (m.env r)

/-- The model with its layers converted (`quantize_model`, C86). -/
def convertModel (prog : List (Step (TLayer P) P)) : List (Step (QLayer P Q) P) :=
  prog.map fun
    | .layer l x y => .layer (convert l) x y
    | .bin f x₁ x₂ y => .bin f x₁ x₂ y

/-- One step of a model of quantized layers: none of them writes in place
(`self.inplace = False`, `activations.py` 32 and 51, and operators that return new
tensors).  Other operators see the values of tensors. -/
def stepQuant (t : Torch P Q) (strict : Bool) (env : String → Tensor P Q) :
    Step (QLayer P Q) P → Except Err (String → Tensor P Q)
  | .layer l x y => do
    let v ← l.forward t strict (env x)
    return fun z => if z = y then v else env z
  | .bin f x₁ x₂ y =>
    .ok fun z => if z = y then .plain (f (maybeOperand t (env x₁)) (maybeOperand t (env x₂))) else env z

/-- Running a model of quantized layers. -/
def runQuant (t : Torch P Q) (strict : Bool) (env : String → Tensor P Q) (prog : List (Step (QLayer P Q) P))
    (r : String) : Except Err (Tensor P Q) := do
  let env ← prog.foldlM (stepQuant t strict) env
  return env r

/-! ## Specification -/

/-- The tensor is a `QuantizedTensor`. -/
def Tensor.IsQuant : Tensor P Q → Prop
  | .plain _ => False
  | .quant _ => True

/-- The value of a tensor: of a quantized one, what it dequantizes to. -/
inductive Value (t : Torch P Q) : Tensor P Q → P → Prop
  | plain (p) : Value t (.plain p) p
  | quant (q) : Value t (.quant q) (t.dequantize q)

/-- Values of optional tensors. -/
inductive ValueOpt (t : Torch P Q) : Option (Tensor P Q) → Option P → Prop
  | none : ValueOpt t none none
  | some {x p} : Value t x p → ValueOpt t (some x) (some p)

/-- A parameter as it is used: nothing if there is none, as it is if there is no
quantizer for it, otherwise what its quantizer returns. -/
inductive Used : Option P → Option (Qz P Q) → Option (Tensor P Q) → Prop
  | none (q) : Used none q none
  | asIs (p) : Used (some p) none (some (.plain p))
  | quantized {p q t} : q.apply (.plain p) = .ok t → Used (some p) (some q) (some t)

/-- The layer is one that the quantized layer follows: not a convolution with
another padding than zeros. -/
def TLayer.Followed : TLayer P → Prop
  | .conv _ _ mode _ _ => mode = .zeros
  | _ => True

/-- The variables that are read in the rest of the model before they are assigned,
if `r` is returned. -/
def live {L : Type} (r : String) : List (Step L P) → String → Prop
  | [], v => v = r
  | .layer _ x y :: rest, v => v = x ∨ (v ≠ y ∧ live r rest v)
  | .bin _ x₁ x₂ y :: rest, v => v = x₁ ∨ v = x₂ ∨ (v ≠ y ∧ live r rest v)

/-- The input of a layer in place is not read afterwards, unless it has been
assigned again. -/
def InplaceDead (r : String) : List (Step (TLayer P) P) → Prop
  | [] => True
  | .layer l x y :: rest => (l.inplace = true → x ≠ y → ¬ live r rest x) ∧ InplaceDead r rest
  | .bin _ _ _ _ :: rest => InplaceDead r rest

/-! ## Lemmas -/

theorem maybeOperand_value {t : Torch P Q} {x : Tensor P Q} {p : P} (h : Value t x p) : maybeOperand t x = p := by
  cases h <;> rfl

theorem maybeOperand_valueOpt {t : Torch P Q} {x : Option (Tensor P Q)} {p : Option P} (h : ValueOpt t x p) :
    x.map (maybeOperand t) = p := by
  cases h with
  | none => rfl
  | some h => simp only [Option.map_some, maybeOperand_value h]

theorem operand_ok {t : Torch P Q} {strict : Bool} {x : Tensor P Q} {p : P} (h : Value t x p)
    (hs : strict = true → x.IsQuant) : operand t strict x = .ok p := by
  cases h with
  | plain =>
    cases strict with
    | false => rfl
    | true => exact (hs rfl).elim
  | quant => rfl

theorem operand_error {t : Torch P Q} {strict : Bool} {x : Tensor P Q}
    (hs : ¬ (strict = true → x.IsQuant)) : operand t strict x = .error .notQuantized := by
  cases strict with
  | false => exact (hs (fun h => by cases h)).elim
  | true =>
    cases x with
    | plain => rfl
    | quant => exact (hs (fun _ => trivial)).elim

theorem parameter_used {p : Option P} {q : Option (Qz P Q)} {t : Option (Tensor P Q)} (h : Used p q t) :
    parameter p q = .ok t := by
  cases h with
  | none => rfl
  | asIs => rfl
  | quantized h => simp only [parameter, h, Except.map]

/-- The stubs of a converted layer pass everything on. -/
theorem convert_forward (t : Torch P Q) (l : TLayer P) (hl : l.Followed) (x : P) :
    (convert l : QLayer P Q).forward t false (.plain x) = .ok (.plain (l.forward t x)) := by
  cases l with
  | linear w b => cases b <;> rfl
  | conv dim cfg mode w b =>
    have hm : mode = .zeros := hl
    subst hm
    cases b <;> rfl
  | layerNorm shape eps affine w b => cases affine <;> cases w <;> cases b <;> rfl
  | embedding cfg w => rfl
  | relu b => rfl
  | silu b => rfl

/-- What holds of the memory of the original model and the variables of the
converted one while both run. -/
structure Sim (m : Mem P) (env : String → Tensor P Q) (lv : String → Prop) : Prop where
  val : ∀ v, lv v → env v = .plain (m.heap (m.env v))
  apart : ∀ u v, lv u → lv v → u ≠ v → m.env u ≠ m.env v
  old : ∀ v, lv v → m.env v < m.next

theorem sim_alloc {m : Mem P} {env : String → Tensor P Q} {lv lv' : String → Prop} {y : String} (v : P)
    (h : Sim m env lv) (hlv : ∀ z, lv' z → z ≠ y → lv z) :
    Sim (m.alloc y v) (fun z => if z = y then .plain v else env z) lv' where
  val := by
    intro z hz
    by_cases hy : z = y
    · simp [Mem.alloc, Mem.bind, Mem.set, hy]
    · have h1 := h.old z (hlv z hz hy)
      simp only [Mem.alloc, Mem.bind, Mem.set, hy, if_false, Nat.ne_of_lt h1]
      exact h.val z (hlv z hz hy)
  apart := by
    intro u w hu hw huw
    simp only [Mem.alloc, Mem.bind, Mem.set]
    by_cases hy : u = y
    · have hw' : w ≠ y := fun hc => huw (hy.trans hc.symm)
      rw [if_pos hy, if_neg hw']
      exact (Nat.ne_of_lt (h.old w (hlv w hw hw'))).symm
    · rw [if_neg hy]
      by_cases hw' : w = y
      · rw [if_pos hw']
        exact Nat.ne_of_lt (h.old u (hlv u hu hy))
      · rw [if_neg hw']
        exact h.apart u w (hlv u hu hy) (hlv w hw hw') huw
  old := by
    intro z hz
    simp only [Mem.alloc, Mem.bind, Mem.set]
    by_cases hy : z = y
    · rw [if_pos hy]; exact Nat.lt_succ_self _
    · rw [if_neg hy]; exact Nat.lt_succ_of_lt (h.old z (hlv z hz hy))

theorem sim_inplace {m : Mem P} {env : String → Tensor P Q} {lv lv' : String → Prop} {x y : String} (v : P)
    (h : Sim m env lv) (hx : lv x) (hdead : x ≠ y → ¬ lv' x) (hlv : ∀ z, lv' z → z ≠ y → lv z) :
    Sim ((m.set (m.env x) v).bind y (m.env x)) (fun z => if z = y then .plain v else env z) lv' where
  val := by
    intro z hz
    by_cases hy : z = y
    · simp [Mem.bind, Mem.set, hy]
    · have hzx : z ≠ x := by
        intro hc
        subst hc
        exact hdead hy hz
      have h1 := h.apart z x (hlv z hz hy) hx hzx
      simp only [Mem.bind, Mem.set, hy, if_false, h1]
      exact h.val z (hlv z hz hy)
  apart := by
    intro u w hu hw huw
    simp only [Mem.bind, Mem.set]
    by_cases hy : u = y
    · have hw' : w ≠ y := fun hc => huw (hy.trans hc.symm)
      rw [if_pos hy, if_neg hw']
      refine h.apart x w hx (hlv w hw hw') ?_
      intro hc
      subst hc
      exact hdead hw' hw
    · rw [if_neg hy]
      by_cases hw' : w = y
      · rw [if_pos hw']
        refine h.apart u x (hlv u hu hy) hx ?_
        intro hc
        subst hc
        exact hdead hy hu
      · rw [if_neg hw']
        exact h.apart u w (hlv u hu hy) (hlv w hw hw') huw
  old := by
    intro z hz
    simp only [Mem.bind, Mem.set]
    by_cases hy : z = y
    · rw [if_pos hy]; exact h.old x hx
    · rw [if_neg hy]; exact h.old z (hlv z hz hy)

theorem run_sim (t : Torch P Q) (r : String) : ∀ (prog : List (Step (TLayer P) P)) (m : Mem P)
    (env : String → Tensor P Q), (∀ l x y, Step.layer l x y ∈ prog → l.Followed) → InplaceDead r prog →
    Sim m env (live r prog) →
    runQuant t false env (convertModel prog) r = .ok (.plain (runTorch t m prog r)) := by
  intro prog
  induction prog with
  | nil =>
    intro m env _ _ h
    simp only [convertModel, List.map_nil, runQuant, List.foldlM_nil, bind, Except.bind, pure, Except.pure,
      runTorch, List.foldl_nil, h.val r rfl]
  | cons s rest ih =>
    intro m env hf hd h
    have hf' : ∀ l x y, Step.layer l x y ∈ rest → l.Followed := fun l x y hm => hf l x y (List.mem_cons_of_mem _ hm)
    cases s with
    | layer l x y =>
      have hx : env x = .plain (m.heap (m.env x)) := h.val x (.inl rfl)
      have hstep : stepQuant t false env (.layer (convert l) x y) =
          .ok (fun z => if z = y then .plain (l.forward t (m.heap (m.env x))) else env z) := by
        simp only [stepQuant, hx, convert_forward t l (hf l x y (List.mem_cons_self ..)), bind, Except.bind, pure,
          Except.pure]
      have hrun : runQuant t false env (convertModel (.layer l x y :: rest)) r =
          runQuant t false (fun z => if z = y then .plain (l.forward t (m.heap (m.env x))) else env z)
            (convertModel rest) r := by
        simp only [runQuant, convertModel, List.map_cons, List.foldlM_cons, hstep, bind, Except.bind]
      rw [hrun]
      have hlv : ∀ z, live r rest z → z ≠ y → live r (Step.layer l x y :: rest) z :=
        fun z hz hy => .inr ⟨hy, hz⟩
      cases hi : l.inplace with
      | false =>
        have := ih (m.alloc y (l.forward t (m.heap (m.env x)))) _ hf' hd.2 (sim_alloc _ h hlv)
        rw [this]
        simp only [runTorch, List.foldl_cons, stepTorch, hi, Bool.false_eq_true, if_false]
      | true =>
        have := ih ((m.set (m.env x) (l.forward t (m.heap (m.env x)))).bind y (m.env x)) _ hf' hd.2
          (sim_inplace _ h (.inl rfl) (hd.1 hi) hlv)
        rw [this]
        simp only [runTorch, List.foldl_cons, stepTorch, hi, if_true]
    | bin f x₁ x₂ y =>
      have h1 : env x₁ = .plain (m.heap (m.env x₁)) := h.val x₁ (.inl rfl)
      have h2 : env x₂ = .plain (m.heap (m.env x₂)) := h.val x₂ (.inr (.inl rfl))
      have hrun : runQuant t false env (convertModel (.bin f x₁ x₂ y :: rest)) r =
          runQuant t false (fun z => if z = y then .plain (f (m.heap (m.env x₁)) (m.heap (m.env x₂))) else env z)
            (convertModel rest) r := by
        simp only [runQuant, convertModel, List.map_cons, List.foldlM_cons, stepQuant, h1, h2, maybeOperand, bind,
          Except.bind]
      rw [hrun]
      have hlv : ∀ z, live r rest z → z ≠ y → live r (Step.bin f x₁ x₂ y :: rest) z :=
        fun z hz hy => .inr (.inr ⟨hy, hz⟩)
      have := ih (m.alloc y (f (m.heap (m.env x₁)) (m.heap (m.env x₂)))) _ hf' hd (sim_alloc _ h hlv)
      rw [this]
      simp only [runTorch, List.foldl_cons, stepTorch]

/-! ## Properties -/

section

variable (t : Torch P Q) (strict : Bool)

/-- **C105.** A quantized linear layer applies the linear map of its own weight and
bias as its quantizers return them to its input as its quantizer returns it, and
returns what its output quantizer makes of the result; with strict quantization
only if input and weight have been quantized, and it fails otherwise. -/
theorem linear_on_quantized_operands {w : P} {b : Option P} {iq wq oq : Qz P Q} {bq : Option (Qz P Q)}
    {x x' w' : Tensor P Q} {b' : Option (Tensor P Q)} {vx vw : P} {vb : Option P}
    (hx : iq.apply x = .ok x') (hw : wq.apply (.plain w) = .ok w') (hb : Used b bq b')
    (vx_ : Value t x' vx) (vw_ : Value t w' vw) (vb_ : ValueOpt t b' vb) :
    ((strict = true → x'.IsQuant ∧ w'.IsQuant) →
      (QLayer.linear w b iq wq bq oq).forward t strict x = oq.apply (.plain (t.linear vx vw vb))) ∧
    (¬ (strict = true → x'.IsQuant ∧ w'.IsQuant) →
      (QLayer.linear w b iq wq bq oq).forward t strict x = .error .notQuantized) := by
  simp only [QLayer.forward, hx, hw, parameter_used hb, bind, Except.bind, opLinear, maybeOperand_valueOpt vb_]
  constructor
  · intro hs
    simp only [operand_ok vx_ (fun h => (hs h).1), operand_ok vw_ (fun h => (hs h).2)]
  · intro hs
    by_cases h1 : strict = true → x'.IsQuant
    · have h2 : ¬ (strict = true → w'.IsQuant) := fun h2 => hs fun h => ⟨h1 h, h2 h⟩
      simp only [operand_ok vx_ h1, operand_error h2]
    · simp only [operand_error h1]

/-- **C105.** The same of convolutions, with their stride, padding, dilation and
groups (padding with zeros). -/
theorem conv_on_quantized_operands {dim : Nat} {cfg : ConvCfg} {mode : Mode} {w : P} {b : Option P}
    {iq wq oq : Qz P Q} {bq : Option (Qz P Q)}
    {x x' w' : Tensor P Q} {b' : Option (Tensor P Q)} {vx vw : P} {vb : Option P}
    (hx : iq.apply x = .ok x') (hw : wq.apply (.plain w) = .ok w') (hb : Used b bq b')
    (vx_ : Value t x' vx) (vw_ : Value t w' vw) (vb_ : ValueOpt t b' vb) :
    ((strict = true → x'.IsQuant ∧ w'.IsQuant) →
      (QLayer.conv dim cfg mode w b iq wq bq oq).forward t strict x =
        oq.apply (.plain (t.conv dim vx vw vb cfg))) ∧
    (¬ (strict = true → x'.IsQuant ∧ w'.IsQuant) →
      (QLayer.conv dim cfg mode w b iq wq bq oq).forward t strict x = .error .notQuantized) := by
  simp only [QLayer.forward, hx, hw, parameter_used hb, bind, Except.bind, opConv, maybeOperand_valueOpt vb_]
  constructor
  · intro hs
    simp only [operand_ok vx_ (fun h => (hs h).1), operand_ok vw_ (fun h => (hs h).2)]
  · intro hs
    by_cases h1 : strict = true → x'.IsQuant
    · have h2 : ¬ (strict = true → w'.IsQuant) := fun h2 => hs fun h => ⟨h1 h, h2 h⟩
      simp only [operand_ok vx_ h1, operand_error h2]
    · simp only [operand_error h1]

/-- **C105.** The same of layer normalization, whose weight may be missing. -/
theorem layer_norm_on_quantized_operands {shape : List Nat} {eps : Nat} {w b : Option P} {iq oq : Qz P Q}
    {wq bq : Option (Qz P Q)} {x x' : Tensor P Q} {w' b' : Option (Tensor P Q)} {vx : P} {vw vb : Option P}
    (hx : iq.apply x = .ok x') (hw : Used w wq w') (hb : Used b bq b')
    (vx_ : Value t x' vx) (vw_ : ValueOpt t w' vw) (vb_ : ValueOpt t b' vb) :
    ((strict = true → x'.IsQuant ∧ ∀ u, w' = some u → u.IsQuant) →
      (QLayer.layerNorm shape eps w b iq wq bq oq).forward t strict x =
        oq.apply (.plain (t.layerNorm vx shape vw vb eps))) ∧
    (¬ (strict = true → x'.IsQuant ∧ ∀ u, w' = some u → u.IsQuant) →
      (QLayer.layerNorm shape eps w b iq wq bq oq).forward t strict x = .error .notQuantized) := by
  simp only [QLayer.forward, hx, parameter_used hw, parameter_used hb, bind, Except.bind, opLayerNorm,
    maybeOperand_valueOpt vb_]
  constructor
  · intro hs
    have hw' : operandOpt t strict w' = .ok vw := by
      cases vw_ with
      | none => rfl
      | some hv => simp only [operandOpt, operand_ok hv (fun h => (hs h).2 _ rfl), Except.map]
    simp only [operand_ok vx_ (fun h => (hs h).1), hw']
  · intro hs
    by_cases h1 : strict = true → x'.IsQuant
    · have h2 : ¬ (strict = true → ∀ u, w' = some u → u.IsQuant) := fun h2 => hs fun h => ⟨h1 h, h2 h⟩
      have hw' : operandOpt t strict w' = .error .notQuantized := by
        cases vw_ with
        | none => exact (h2 (fun _ u hu => by cases hu)).elim
        | some hv =>
          have h3 : ¬ (strict = true → Tensor.IsQuant _) := fun h3 => h2 fun h u hu => by cases hu; exact h3 h
          simp only [operandOpt, operand_error h3, Except.map]
      simp only [operand_ok vx_ h1, hw']
    · simp only [operand_error h1]

/-- **C105.** The same of embeddings, of which only the weight is quantized. -/
theorem embedding_on_quantized_operands {cfg : EmbCfg} {w : P} {wq oq : Qz P Q} {x : P} {w' : Tensor P Q} {vw : P}
    (hw : wq.apply (.plain w) = .ok w') (vw_ : Value t w' vw) :
    ((strict = true → w'.IsQuant) →
      (QLayer.embedding cfg w wq oq).forward t strict (.plain x) = oq.apply (.plain (t.embedding x vw cfg))) ∧
    (¬ (strict = true → w'.IsQuant) →
      (QLayer.embedding cfg w wq oq).forward t strict (.plain x) = .error .notQuantized) := by
  simp only [QLayer.forward, hw, bind, Except.bind, opEmbedding, maybeOperand]
  exact ⟨fun hs => by simp only [operand_ok vw_ hs], fun hs => by simp only [operand_error hs]⟩

/-- **C105.** The same of activations. -/
theorem activation_on_quantized_operands {b : Bool} {iq oq : Qz P Q} {x x' : Tensor P Q} {vx : P}
    (hx : iq.apply x = .ok x') (vx_ : Value t x' vx) :
    ((strict = true → x'.IsQuant) →
      (QLayer.relu b iq oq).forward t strict x = oq.apply (.plain (t.relu vx)) ∧
      (QLayer.silu b iq oq).forward t strict x = oq.apply (.plain (t.silu vx))) ∧
    (¬ (strict = true → x'.IsQuant) →
      (QLayer.relu b iq oq).forward t strict x = .error .notQuantized ∧
      (QLayer.silu b iq oq).forward t strict x = .error .notQuantized) := by
  simp only [QLayer.forward, hx, bind, Except.bind, opUnary]
  exact ⟨fun hs => by simp only [operand_ok vx_ hs, and_self],
    fun hs => by simp only [operand_error hs, and_self]⟩

/-- **C105 (partial).** A model computes the same after its layers have been
converted and before quantizers are put in, without strict quantization.

Missing: convolutions that do not pad with zeros (`padding_mode_lost`) and models
that read the input of an activation in place afterwards (`inplace_lost`). -/
theorem converted_model_computes_the_same_partial (prog : List (Step (TLayer P) P)) (m : Mem P) (r : String)
    (hf : ∀ l x y, Step.layer l x y ∈ prog → l.Followed) (hd : InplaceDead r prog)
    (hapart : ∀ u v, live r prog u → live r prog v → u ≠ v → m.env u ≠ m.env v)
    (hold : ∀ v, live r prog v → m.env v < m.next) :
    runQuant t false (fun v => .plain (m.heap (m.env v))) (convertModel prog) r =
      .ok (.plain (runTorch t m prog r)) :=
  run_sim t r prog m _ hf hd ⟨fun _ _ => rfl, hapart, hold⟩

end

/-! ## Deviations -/

/-- Taking every window of the length of the kernel (stride and dilation 1). -/
def slide (w : List Int) : List Int → List Int
  | [] => []
  | x :: xs =>
    if w.length ≤ (x :: xs).length then (List.zipWith (· * ·) w (x :: xs)).foldr (· + ·) 0 :: slide w xs else []

/-- Padding by one element on each side. -/
def pad1 : Mode → List Int → List Int
  | .zeros, xs => 0 :: xs ++ [0]
  | .reflect, xs => xs.getD 1 0 :: xs ++ [xs.reverse.getD 1 0]
  | .replicate, xs => xs.getD 0 0 :: xs ++ [xs.reverse.getD 0 0]
  | .circular, xs => xs.reverse.getD 0 0 :: xs ++ [xs.getD 0 0]

/-- Operators on vectors of numbers; a quantized tensor is the vector of its
codes with a scale. -/
def vectors : Torch (List Int) (List Int × Int) where
  linear x w b := [(List.zipWith (· * ·) w x).foldr (· + ·) 0 + (b.getD []).headD 0]
  conv _ x w b cfg :=
    (slide w (if cfg.padding = .num [1] then pad1 .zeros x else x)).map (· + (b.getD []).headD 0)
  pad mode _ _ x := pad1 mode x
  layerNorm x _ w b _ := List.zipWith (· + ·) (List.zipWith (· * ·) x (w.getD (x.map fun _ => 1)))
    (b.getD (x.map fun _ => 0))
  embedding x w _ := x.map fun i => w.getD i.toNat 0
  relu x := x.map (max 0)
  silu x := x
  dequantize q := q.1.map (· * q.2)

/-- **C105, deviation.** The padding mode of a convolution is lost: a convolution
that reflects its input at the borders pads with zeros once it is converted. -/
theorem padding_mode_lost :
    ∃ (cfg : ConvCfg) (w x : List Int),
      (TLayer.conv 1 cfg .reflect w none).forward vectors x = [2, 1, 2] ∧
      (convert (TLayer.conv 1 cfg .reflect w none) : QLayer (List Int) (List Int × Int)).forward vectors false
        (.plain x) = .ok (.plain [0, 1, 2]) :=
  ⟨⟨[1], .num [1], [1], 1⟩, [1, 0, 0], [1, 2, 3], by decide +kernel, rfl⟩

/-- A block with an activation in place on the path that is added again:
`y = relu_(x); return x + y`. -/
def residual : List (Step (TLayer (List Int)) (List Int)) :=
  [.layer (.relu true) "x" "y", .bin (List.zipWith (· + ·)) "x" "y" "z"]

/-- **C105, deviation.** An activation in place overwrites its input; once it is
converted, it does not, and a model that reads the input afterwards computes
something else. -/
theorem inplace_lost :
    ∃ (m : Mem (List Int)),
      runTorch vectors m residual "z" = [0, 4] ∧
      runQuant vectors false (fun v => .plain (m.heap (m.env v))) (convertModel residual) "z" =
        .ok (.plain [-3, 4]) :=
  ⟨⟨fun _ => 0, fun _ => [-3, 2], 1⟩, by decide +kernel, rfl⟩

/-- **C105, deviation.** A layer normalization without bias gets a quantizer for
it, which is never called, whatever it is. -/
theorem layer_norm_has_idle_quantizer (t : Torch P Q) (w : P) (shape : List Nat) (eps : Nat) :
    (convert (TLayer.layerNorm shape eps true (some w) none) : QLayer P Q) =
      .layerNorm shape eps (some w) none .stub (some .stub) (some .stub) .stub ∧
    ∀ strict iq wq oq bq bq' x,
      (QLayer.layerNorm shape eps (some w) none iq wq (some bq) oq).forward t strict x =
      (QLayer.layerNorm shape eps (some w) none iq wq (some bq') oq).forward t strict x :=
  ⟨rfl, fun _ _ _ _ _ _ _ => rfl⟩

/-! ## Concrete cases -/

/-- A linear layer with quantizers, with strict quantization. -/
example :
    let q : Int → Qz (List Int) (List Int × Int) := fun s => .fn fun
      | .plain p => .ok (.quant (p.map (· / s), s))
      | .quant q => .ok (.quant q)
    (q 10).apply (.plain [21, 39]) = .ok (.quant ([2, 3], 10)) ∧
    (q 2).apply (.plain [3, 4]) = .ok (.quant ([1, 2], 2)) ∧
    Used (some [5]) none (some (.plain [5] : Tensor (List Int) (List Int × Int))) ∧
    (QLayer.linear [3, 4] (some [5]) (q 10) (q 2) none (q 5)).forward vectors true (.plain [21, 39]) =
      .ok (.quant ([33], 5)) :=
  ⟨rfl, rfl, .asIs _, rfl⟩

/-- A layer normalization without weight and bias in strict mode. -/
example :
    let q : Qz (List Int) (List Int × Int) := .fn fun
      | .plain p => .ok (.quant (p, 1))
      | .quant q => .ok (.quant q)
    q.apply (.plain [1, 2]) = .ok (.quant ([1, 2], 1)) ∧ Used none none (none : Option (Tensor (List Int) (List Int × Int))) ∧
    (QLayer.layerNorm [2] 1 none none q none none .stub).forward vectors true (.plain [1, 2]) = .ok (.plain [1, 2]) :=
  ⟨rfl, .none _, rfl⟩

/-- A model with a convolution, an activation in place and a residual connection
that reads the input of the block. -/
def block : List (Step (TLayer (List Int)) (List Int)) :=
  [.layer (.conv 1 ⟨[1], .num [1], [1], 1⟩ .zeros [1, 0, 0] (some [-1])) "x" "h", .layer (.relu true) "h" "h",
    .bin (List.zipWith (· + ·)) "x" "h" "y"]

example :
    (∀ l x y, Step.layer l x y ∈ block → l.Followed) ∧ InplaceDead "y" block ∧
    (∀ u v, live "y" block u → live "y" block v → u ≠ v → (0 : Nat) ≠ 0) ∧
    runTorch vectors ⟨fun _ => 0, fun _ => [1, 2, 3], 1⟩ block "y" = [1, 2, 4] := by
  refine ⟨?_, ⟨fun h => (by cases h), fun _ h => (h rfl).elim, trivial⟩, ?_, by decide +kernel⟩
  · intro l x y h
    simp only [block, List.mem_cons, List.not_mem_nil, or_false, Step.layer.injEq, reduceCtorEq] at h
    rcases h with ⟨rfl, _, _⟩ | ⟨rfl, _, _⟩
    · rfl
    · trivial
  · intro u v hu hv huv
    have key : ∀ u, live "y" block u → u = "x" := by
      intro u hu
      simp only [block, live] at hu
      rcases hu with h | ⟨h1, h | ⟨h2, h | h | ⟨h3, h⟩⟩⟩
      · exact h
      · exact (h1 h).elim
      · exact h
      · exact (h1 h).elim
      · exact (h3 h).elim
    exact (huv ((key u hu).trans (key v hv).symm)).elim

end FF.Layers
