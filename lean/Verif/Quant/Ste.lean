/-!
# Straight-through functions

Models `quantization/ste.py`: the `ste` decorator, the autograd function it
calls and the gradients that reach a program's inputs when wrapped functions
are used anywhere in it.

Simplifications.  Tensors hold integers, addressed by flat index; the shape is
carried separately.  Programs consist of elementwise sums and products of
tensors of equal shape (no broadcasting) and of wrapped calls.  The wrapped
function is any function of the input and of one further tensor, which stands
for all further arguments; it may raise.
-/

namespace FF.Ste

/-! ## Model -/

/-- A tensor: shape and elements by flat index (`torch.Tensor`; PyTorch is
not part of the repository). -/
structure Tensor where
  shape : List Nat
  data : Nat → Int

/-- What may be raised: by the wrapped function itself, by the shape check in
`quantization/ste.py:89-90`, by PyTorch's elementwise operations. -/
inductive Err where
  | inner | shapes | operands
  deriving DecidableEq, Repr

/-- A function that may be wrapped, `quantization/ste.py:73`
(`func: Callable[Concatenate[torch.Tensor, _P], torch.Tensor]`). -/
abbrev Func := Tensor → Tensor → Option Tensor

/-- A program over tensors: inputs, elementwise sums and products, and calls
of functions decorated with `ste` (`quantization/ste.py:73-93`). -/
inductive Expr where
  | input (i : Nat)
  | add (a b : Expr)
  | mul (a b : Expr)
  | ste (f : Func) (x other : Expr)

/-- `STEAutogradFunc.forward`, `quantization/ste.py:25-37`: the second
argument is returned. -/
def forward (_input output : Tensor) : Tensor := output

/-- `STEAutogradFunc.backward`, `quantization/ste.py:39-50`: the gradient of
the first argument and that of the second (`None`). -/
def backward (g : Nat → Int) : (Nat → Int) × Option (Nat → Int) := (g, none)

/-- `wrapper`, `quantization/ste.py:86-91`.  The function is called with
gradients disabled, hence the result is a constant for autograd. -/
def wrapper (f : Func) (x other : Tensor) : Except Err Tensor :=
  match f x other with
  | none => .error .inner
  | some output =>
    if x.shape ≠ output.shape then .error .shapes
    else .ok (forward x output)

/-- An elementwise operation of PyTorch on tensors of equal shape. -/
def elementwise (op : Int → Int → Int) (a b : Tensor) : Except Err Tensor :=
  if a.shape = b.shape then .ok ⟨a.shape, fun k => op (a.data k) (b.data k)⟩
  else .error .operands

/-- Running a program on inputs; wrapped calls run `wrapper`
(`quantization/ste.py:86-91`). -/
def run (env : Nat → Tensor) : Expr → Except Err Tensor
  | .input i => .ok (env i)
  | .add a b =>
    match run env a, run env b with
    | .ok u, .ok v => elementwise (· + ·) u v
    | .error e, _ => .error e
    | .ok _, .error e => .error e
  | .mul a b =>
    match run env a, run env b with
    | .ok u, .ok v => elementwise (· * ·) u v
    | .error e, _ => .error e
    | .ok _, .error e => .error e
  | .ste f x o =>
    match run env x, run env o with
    | .ok u, .ok v => wrapper f u v
    | .error e, _ => .error e
    | .ok _, .error e => .error e

/-- The elements of the value of a program that was run (zero if it was
refused; only used for programs that ran). -/
def value (env : Nat → Tensor) (e : Expr) : Nat → Int :=
  match run env e with
  | .ok t => t.data
  | .error _ => fun _ => 0

/-- Autograd's backward pass: the gradient that input `i` accumulates when the
program's result receives gradient `g`.  Sums and products are PyTorch's own;
a wrapped call hands its input the first component of
`STEAutogradFunc.backward` (`quantization/ste.py:39-50`).  The second component
goes to `output`, which was computed under `torch.no_grad()`
(`quantization/ste.py:87-88`) and leads to no input. -/
def gradient (env : Nat → Tensor) (i : Nat) : Expr → (Nat → Int) → (Nat → Int)
  | .input j, g => if j = i then g else fun _ => 0
  | .add a b, g => fun k => gradient env i a g k + gradient env i b g k
  | .mul a b, g => fun k =>
      gradient env i a (fun k => g k * value env b k) k
      + gradient env i b (fun k => g k * value env a k) k
  | .ste _ x _, g => gradient env i x (backward g).1

/-! ## Specification -/

/-- `p` has slope `d` at `x`: it is linear with factor `d` up to terms of
second order.  Over the integers `d` is unique (`slope_unique`). -/
def HasSlope (p : Int → Int) (x d : Int) : Prop :=
  ∃ r : Int → Int, ∀ h, p (x + h) = p x + d * h + h * h * r h

/-- The inputs with element `k` of input `i` replaced by `t`. -/
def replaced (env : Nat → Tensor) (i k : Nat) (t : Int) : Nat → Tensor :=
  fun j => if j = i then ⟨(env j).shape, fun n => if n = k then t else (env j).data n⟩ else env j

/-- `Straight v e p`: `p` gives, for other inputs, the elements of program `e`
in which every wrapped call is read as "its input plus a constant", the
constant being the change the call made when the program ran with value
function `v`. -/
inductive Straight (v : Expr → Nat → Int) : Expr → ((Nat → Tensor) → Nat → Int) → Prop where
  | input (i) : Straight v (.input i) (fun env => (env i).data)
  | add {a b p q} : Straight v a p → Straight v b q →
      Straight v (.add a b) (fun env k => p env k + q env k)
  | mul {a b p q} : Straight v a p → Straight v b q →
      Straight v (.mul a b) (fun env k => p env k * q env k)
  | ste {f x o p} : Straight v x p →
      Straight v (.ste f x o) (fun env k => p env k + (v (.ste f x o) k - v x k))

/-! ## Lemmas -/

theorem slope_unique {p : Int → Int} {x d e : Int} (hd : HasSlope p x d) (he : HasSlope p x e) :
    d = e := by
  obtain ⟨r, hr⟩ := hd
  obtain ⟨s, hs⟩ := he
  -- take a step larger than the difference
  have key : ∀ h : Int, h ≠ 0 → d - e = h * (s h - r h) := by
    intro h hh
    have h1 := hr h
    have h2 := hs h
    rw [h1] at h2
    have h3 : h * (d - e) = h * (h * (s h - r h)) := by
      have e1 : h * (d - e) = d * h - e * h := by
        rw [Int.mul_sub, Int.mul_comm h d, Int.mul_comm h e]
      have e2 : h * (h * (s h - r h)) = h * h * s h - h * h * r h := by
        rw [← Int.mul_assoc, Int.mul_sub]
      omega
    exact Int.eq_of_mul_eq_mul_left hh h3
  have hpos : ((d - e).natAbs : Int) + 1 ≠ 0 := by omega
  have := key _ hpos
  have hdvd : (((d - e).natAbs : Int) + 1) ∣ (d - e) := ⟨_, this⟩
  have h0 : d - e = 0 := by
    apply Int.eq_zero_of_dvd_of_natAbs_lt_natAbs hdvd
    omega
  omega

theorem slope_const (c x : Int) : HasSlope (fun _ => c) x 0 :=
  ⟨fun _ => 0, fun h => by simp⟩

theorem slope_id (x : Int) : HasSlope (fun t => t) x 1 :=
  ⟨fun _ => 0, fun h => by simp⟩

theorem slope_add {p q : Int → Int} {x d e : Int} (hd : HasSlope p x d) (he : HasSlope q x e) :
    HasSlope (fun t => p t + q t) x (d + e) := by
  obtain ⟨r, hr⟩ := hd
  obtain ⟨s, hs⟩ := he
  refine ⟨fun h => r h + s h, fun h => ?_⟩
  show p (x + h) + q (x + h) = _
  rw [hr, hs]
  grind

theorem slope_mul {p q : Int → Int} {x d e : Int} (hd : HasSlope p x d) (he : HasSlope q x e) :
    HasSlope (fun t => p t * q t) x (d * q x + e * p x) := by
  obtain ⟨r, hr⟩ := hd
  obtain ⟨s, hs⟩ := he
  refine ⟨fun h => p x * s h + d * e + d * h * s h + r h * q x + r h * h * e
      + r h * h * h * s h, fun h => ?_⟩
  show p (x + h) * q (x + h) = _
  rw [hr, hs]
  grind

/-! ## Properties -/

/-- **C151.** A call of a wrapped function succeeds exactly if the function
itself returns a tensor of the input's shape, and then returns exactly that
tensor. -/
theorem value_unchanged (f : Func) (x other out : Tensor) :
    wrapper f x other = .ok out ↔ f x other = some out ∧ out.shape = x.shape := by
  unfold wrapper forward
  cases hf : f x other with
  | none => simp
  | some o =>
    by_cases h : x.shape = o.shape
    · simp only [h, ne_eq, not_true_eq_false, if_false, Except.ok.injEq, Option.some.injEq]
      constructor
      · rintro rfl; exact ⟨rfl, rfl⟩
      · exact fun h => h.1
    · simp only [ne_eq, h, not_false_eq_true, if_true, Option.some.injEq]
      constructor
      · intro h; cases h
      · rintro ⟨rfl, h'⟩; exact absurd h'.symm h

/-- **C151.** The shape error is raised exactly if the function returned a
tensor of another shape. -/
theorem shape_refused (f : Func) (x other : Tensor) :
    wrapper f x other = .error .shapes ↔
      ∃ out, f x other = some out ∧ out.shape ≠ x.shape := by
  unfold wrapper forward
  cases hf : f x other with
  | none => simp
  | some o =>
    by_cases h : x.shape = o.shape
    · simp [h]
    · simp only [ne_eq, h, not_false_eq_true, if_true, Option.some.injEq, exists_eq_left', true_iff]
      exact fun h' => h h'.symm

/-- **C151.** Reading every wrapped call as "input plus a constant" does not
change the value of any program that runs. -/
theorem straight_same_value (env : Nat → Tensor) (e : Expr) (p)
    (hs : Straight (value env) e p) (t : Tensor) (h : run env e = .ok t) : p env = t.data := by
  induction hs generalizing t with
  | input i =>
    cases h; rfl
  | @add a b p q _ _ iha ihb =>
    unfold run at h
    cases ha : run env a with
    | error e => simp [ha] at h
    | ok u =>
      cases hb : run env b with
      | error e => simp [ha, hb] at h
      | ok v =>
        simp only [ha, hb, elementwise] at h
        split at h
        · cases h
          simp only [iha u ha, ihb v hb]
        · cases h
  | @mul a b p q _ _ iha ihb =>
    unfold run at h
    cases ha : run env a with
    | error e => simp [ha] at h
    | ok u =>
      cases hb : run env b with
      | error e => simp [ha, hb] at h
      | ok v =>
        simp only [ha, hb, elementwise] at h
        split at h
        · cases h
          simp only [iha u ha, ihb v hb]
        · cases h
  | @ste f x o p _ ih =>
    have hv : value env (.ste f x o) = t.data := by unfold value; rw [h]
    unfold run at h
    cases hx : run env x with
    | error e => simp [hx] at h
    | ok u =>
      have hvx : value env x = u.data := by unfold value; rw [hx]
      funext k
      simp only [ih u hx, hv, hvx]
      omega

/-- **C151.** The gradient that reaches an element of an input is the
gradient of the result times the slope, in that element, of the program in
which every wrapped call is read as "input plus a constant" — for every
program that runs, whatever the wrapped functions are. -/
theorem gradient_straight_through (env : Nat → Tensor) (e : Expr) (p)
    (hs : Straight (value env) e p) (t : Tensor) (h : run env e = .ok t)
    (i k : Nat) :
    ∃ d, HasSlope (fun s => p (replaced env i k s) k) ((env i).data k) d ∧
      ∀ g : Nat → Int, gradient env i e g k = g k * d := by
  have hrep : replaced env i k ((env i).data k) = env := by
    funext j
    unfold replaced
    by_cases hj : j = i
    · subst hj
      simp only [if_true]
      have : (fun n => if n = k then (env j).data k else (env j).data n) = (env j).data := by
        funext n
        by_cases hn : n = k
        · subst hn; simp
        · simp [hn]
      rw [this]
    · simp [hj]
  induction hs generalizing t with
  | input j =>
    by_cases hj : j = i
    · subst hj
      refine ⟨1, ?_, fun g => by simp [gradient]⟩
      simpa [replaced] using slope_id ((env j).data k)
    · refine ⟨0, ?_, fun g => by simp [gradient, hj]⟩
      simpa [replaced, hj] using slope_const ((env j).data k) _
  | @add a b p q sa sb iha ihb =>
    unfold run at h
    cases ha : run env a with
    | error e => simp [ha] at h
    | ok u =>
      cases hb : run env b with
      | error e => simp [ha, hb] at h
      | ok v =>
        obtain ⟨d, hd, hgd⟩ := iha u ha
        obtain ⟨e, he, hge⟩ := ihb v hb
        refine ⟨d + e, slope_add hd he, fun g => ?_⟩
        simp only [gradient, hgd, hge, Int.mul_add]
  | @mul a b p q sa sb iha ihb =>
    unfold run at h
    cases ha : run env a with
    | error e => simp [ha] at h
    | ok u =>
      cases hb : run env b with
      | error e => simp [ha, hb] at h
      | ok v =>
        obtain ⟨d, hd, hgd⟩ := iha u ha
        obtain ⟨e, he, hge⟩ := ihb v hb
        have hm := slope_mul hd he
        simp only [hrep] at hm
        refine ⟨_, hm, fun g => ?_⟩
        have hva : value env a = u.data := by unfold value; rw [ha]
        have hvb : value env b = v.data := by unfold value; rw [hb]
        simp only [gradient, hgd, hge]
        rw [straight_same_value env a p sa u ha, straight_same_value env b q sb v hb, hva, hvb]
        grind
  | @ste f x o p sx ih =>
    unfold run at h
    cases hx : run env x with
    | error e => simp [hx] at h
    | ok u =>
      obtain ⟨d, hd, hgd⟩ := ih u hx
      refine ⟨d, ?_, fun g => by simp only [gradient, backward, hgd]⟩
      simpa using slope_add hd (slope_const (value env (.ste f x o) k - value env x k) _)

/-! ## Deviations -/

/-- Scaling by the further argument, e.g. a learned scale. -/
def scaled : Func := fun x s => some ⟨x.shape, fun k => x.data k * s.data k⟩

/-- **C151, deviation.** Further tensor arguments of a wrapped function never
receive a gradient, although the result depends on them and the function
itself is differentiable in them: a learned scale passed to a wrapped function
is silently not learned. -/
theorem further_arguments_not_learned :
    ∃ (f : Func) (env : Nat → Tensor) (d : Int),
      HasSlope (fun s => value (replaced env 1 0 s) (.ste f (.input 0) (.input 1)) 0)
        ((env 1).data 0) d ∧ d ≠ 0 ∧
      ∀ g, gradient env 1 (.ste f (.input 0) (.input 1)) g = fun _ => 0 := by
  refine ⟨scaled, fun _ => ⟨[], fun _ => 3⟩, 3, ⟨fun _ => 0, fun h => ?_⟩, by decide, fun g => ?_⟩
  · simp [value, run, wrapper, scaled, forward, replaced]
    omega
  · simp [gradient]

/-! ## Concrete cases -/

/-- Rounding down to even numbers. -/
def even : Func := fun x _ => some ⟨x.shape, fun k => x.data k / 2 * 2⟩

/-- A product of an input and its rounded version runs, and its gradient is
that of the straight-through reading: `round x + x`. -/
example : let env : Nat → Tensor := fun _ => ⟨[1], fun _ => 5⟩
    let e : Expr := .mul (.input 0) (.ste even (.input 0) (.input 0))
    (∃ t, run env e = .ok t ∧ t.data 0 = 20) ∧ gradient env 0 e (fun _ => 1) 0 = 9 := by
  refine ⟨⟨_, rfl, by decide⟩, by decide⟩

/-- Every program has its straight-through reading. -/
example (v : Expr → Nat → Int) (e : Expr) : ∃ p, Straight v e p := by
  induction e with
  | input i => exact ⟨_, .input i⟩
  | add a b iha ihb => exact ⟨_, .add iha.choose_spec ihb.choose_spec⟩
  | mul a b iha ihb => exact ⟨_, .mul iha.choose_spec ihb.choose_spec⟩
  | ste f x o ihx _ => exact ⟨_, .ste ihx.choose_spec⟩

/-- A function that drops the shape is refused. -/
example : wrapper (fun _ _ => some ⟨[], fun _ => 0⟩) ⟨[2], fun _ => 1⟩ ⟨[], fun _ => 0⟩
    = .error .shapes := rfl

end FF.Ste
