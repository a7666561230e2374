/-!
# Running passes over code

Models `PassManager` of `_autoquant/pass_manager.py`: a sequence of passes is applied to a piece of code, each to what the one before returned.

Simplifications: code is a tree of classes, texts and statements; the class hierarchy is any relation. What a transformer does to a piece of code is any
function, an exception or something that is not code (LibCST's sentinels for removed and for several nodes). Identity of code is modelled by a count of how
often it was copied. Log messages and the text of errors are left out, except the number of the failed pass.
-/

namespace FF.Passes

/-! ## Model -/

/-- A piece of code: its class, its text, the statements of its body, and how often it was copied. -/
inductive Node where
  | mk (cls : Nat) (text : Nat) (copies : Nat) (body : List Node)

namespace Node
/-- `type(cst)`. -/
def cls : Node → Nat
  | .mk c _ _ _ => c
/-- `cst.body`. -/
def body : Node → List Node
  | .mk _ _ _ b => b
/-- How often the code was copied. -/
def copies : Node → Nat
  | .mk _ _ k _ => k
/-- The code that is part of the node itself. -/
def text : Node → Nat
  | .mk _ t _ _ => t

mutual
/-- `cst.deep_clone()`, which `libcst.MetadataWrapper(cst)` calls: pass_manager.py:214. -/
def clone : Node → Node
  | .mk c t k b => .mk c t (k + 1) (cloneAll b)
/-- `deep_clone` of every statement. -/
def cloneAll : List Node → List Node
  | [] => []
  | n :: ns => clone n :: cloneAll ns
end
end Node

/-- The class of `libcst.Module`. -/
def moduleCls : Nat := 0

/-- `libcst.Module([cst])`: pass_manager.py:171. -/
def mkModule (ns : List Node) : Node := .mk moduleCls 0 0 ns

/-- What can go wrong in a pass. -/
inductive Err where
  /-- an `Exception` of the visitor or of the constructor of a class of visitors -/
  | user (e : Nat)
  /-- a `BaseException` that is no `Exception`, such as `KeyboardInterrupt` -/
  | interrupt
  /-- `ValueError`: the result has the wrong type -/
  | wrongType
  /-- `ValueError`: no statement is left -/
  | emptyModule
  /-- `NotImplementedError`: not a pass -/
  | notAPass
  deriving DecidableEq, Repr

/-- What `leave_…` of a transformer made of a piece of code. -/
inductive Made where
  /-- code -/
  | node (n : Node)
  /-- `RemovalSentinel.REMOVE` -/
  | removed
  /-- `FlattenSentinel` -/
  | several

/-- `libcst.CSTTransformer` or `libcst.CSTVisitor`. -/
structure Visitor where
  /-- a `CSTTransformer`, whose results count -/
  transformer : Bool
  /-- `len(METADATA_DEPENDENCIES) > 0` -/
  needsMetadata : Bool
  /-- what it does to a piece of code -/
  act : Node → Except Err Made

/-- `_PassT`: pass_manager.py:52-58. -/
inductive Pass where
  /-- a `CSTTransformer` or `CSTVisitor` -/
  | visitor (v : Visitor)
  /-- `MetadataTransformer(transformer, wrap_in_module)`: pass_manager.py:15-32 -/
  | metadata (v : Visitor) (wrap : Bool)
  /-- a class; calling it gives the pass -/
  | cls (inst : Pass)
  /-- a class whose constructor raises -/
  | badCls (e : Err)
  /-- anything else -/
  | other

/-- `cst.visit(visitor)` of LibCST: a visitor that is no transformer returns the code itself, and a removed module is an empty module. -/
def visit (v : Visitor) (n : Node) : Except Err Made :=
  match v.act n with
  | .error e => .error e
  | .ok m =>
    if v.transformer then
      match m with
      | .removed => if n.cls = moduleCls then .ok (.node (.mk n.cls n.text n.copies [])) else .ok .removed
      | m => .ok m
    else .ok (.node n)

section
variable (sub : Nat → Nat → Bool)

/-- pass_manager.py:208-223 `_visit_cst_same`; `sub c d` is `issubclass(c, d)`. -/
def visitSame (n : Node) (v : Visitor) (metadata : Bool) : Except Err Node :=
  match visit v (if metadata then n.clone else n) with
  | .error e => .error e
  | .ok (.node r) => if sub r.cls n.cls then .ok r else .error .wrongType
  | .ok _ => .error .wrongType

/-- pass_manager.py:165-195 `_apply_metadata_transformer`. -/
def applyMetadata (v : Visitor) (wrap : Bool) (n : Node) : Except Err Node :=
  match visitSame sub (if wrap then mkModule [n] else n) v true with
  | .error e => .error e
  | .ok r =>
    if wrap then
      if !sub r.cls moduleCls then .error .wrongType
      else match r.body with
        | [] => .error .emptyModule
        | s :: _ => if sub s.cls n.cls then .ok s else .error .wrongType
    else if sub r.cls n.cls then .ok r else .error .wrongType

/-- pass_manager.py:131-201 `_apply_pass`. -/
def applyPass : Pass → Node → Except Err Node
  | .visitor v, n => if v.needsMetadata then applyMetadata sub v true n else visitSame sub n v false
  | .metadata v w, n => applyMetadata sub v w n
  | .cls p, n => applyPass p n
  | .badCls e, _ => .error e
  | .other, _ => .error .notAPass

/-- What `PassManager.__call__` raises. -/
inductive PErr where
  /-- `PassManagerError` with the number of the pass and the cause -/
  | failed (i : Nat) (e : Err)
  /-- an exception that is no `Exception`, as it is -/
  | interrupted
  deriving DecidableEq, Repr

/-- pass_manager.py:88-112: the loop, from pass `i` on. -/
def runFrom : Nat → List Pass → Node → Except PErr Node
  | _, [], n => .ok n
  | i, p :: ps, n =>
    match applyPass sub p n with
    | .error .interrupt => .error .interrupted
    | .error e => .error (.failed i e)
    | .ok r => runFrom (i + 1) ps r

/-- pass_manager.py:79-114 `PassManager.__call__`. -/
def run (ps : List Pass) (n : Node) : Except PErr Node := runFrom sub 0 ps n
end

/-! ## Specification

What one pass does to a piece of code is observed by running it alone. `Path` lists what a sequence of passes makes of a piece of code.
-/

/-- The visitor turns the code `n` into the code `r`; `r` is `n` itself if the visitor only looks. -/
def Turns (v : Visitor) (n r : Node) : Prop :=
  (v.transformer = true ∧ v.act n = .ok (.node r)) ∨
  (v.transformer = true ∧ v.act n = .ok .removed ∧ n.cls = moduleCls ∧ r = .mk n.cls n.text n.copies []) ∨
  (v.transformer = false ∧ (∃ m, v.act n = .ok m) ∧ r = n)

/-- `r` comes out of `n` by the passes in `ps`, one after the other, where `one p a b` says that `p` alone makes `b` of `a`. -/
inductive Path (one : Pass → Node → Node → Prop) : List Pass → Node → Node → Prop
  | nil (n : Node) : Path one [] n n
  | cons {p : Pass} {ps : List Pass} {n m r : Node} : one p n m → Path one ps m r → Path one (p :: ps) n r

/-- Same code, whatever was copied: class, text and statements agree. -/
inductive SameCode : Node → Node → Prop
  | mk {c t k k' : Nat} {b b' : List Node} : b.length = b'.length →
      (∀ i (h : i < b.length) (h' : i < b'.length), SameCode b[i] b'[i]) → SameCode (.mk c t k b) (.mk c t k' b')

/-- The class hierarchy: every class is its own subclass, and subclasses of subclasses are subclasses. -/
structure Hierarchy (sub : Nat → Nat → Bool) : Prop where
  refl : ∀ c, sub c c = true
  trans : ∀ a b c, sub a b = true → sub b c = true → sub a c = true

/-! ## Lemmas -/

theorem visit_node_iff (v : Visitor) (n r : Node) : visit v n = .ok (.node r) ↔ Turns v n r := by
  unfold visit Turns
  cases ha : v.act n with
  | error e => simp
  | ok m =>
    cases ht : v.transformer with
    | false =>
      simp only [Bool.false_eq_true, if_false, false_and, false_or, true_and]
      constructor
      · intro h
        injection h with h
        injection h with h
        exact ⟨⟨m, rfl⟩, h.symm⟩
      · rintro ⟨-, h⟩
        rw [h]
    | true =>
      simp only [if_true, true_and]
      cases m with
      | node x =>
        simp
      | several => simp
      | removed =>
        by_cases hc : n.cls = moduleCls
        · rw [if_pos hc]
          simp only [Except.ok.injEq, Made.node.injEq, reduceCtorEq, false_or, true_and, hc, false_and, or_false,
            Bool.true_eq_false]
          exact eq_comm
        · rw [if_neg hc]
          simp [hc]

theorem visitSame_iff (sub : Nat → Nat → Bool) (n r : Node) (v : Visitor) (b : Bool) :
    visitSame sub n v b = .ok r ↔ Turns v (if b then n.clone else n) r ∧ sub r.cls n.cls = true := by
  unfold visitSame
  rw [← visit_node_iff]
  cases h : visit v (if b then n.clone else n) with
  | error e => simp
  | ok m =>
    cases m with
    | node x =>
      by_cases hs : sub x.cls n.cls = true
      · simp only [hs, if_true, Except.ok.injEq, Made.node.injEq]
        constructor
        · rintro rfl
          exact ⟨rfl, hs⟩
        · exact fun h => h.1
      · simp only [hs, Except.ok.injEq, Made.node.injEq]
        constructor
        · intro h; cases h
        · rintro ⟨rfl, h⟩
          exact absurd h hs
    | removed => simp
    | several => simp

theorem run_nil (sub : Nat → Nat → Bool) (n : Node) : run sub [] n = .ok n := rfl

theorem run_single_ok (sub : Nat → Nat → Bool) (p : Pass) (n r : Node) : run sub [p] n = .ok r ↔ applyPass sub p n = .ok r := by
  unfold run
  rw [runFrom]
  cases h : applyPass sub p n with
  | ok m => simp [runFrom]
  | error e => cases e <;> simp

theorem run_single_err (sub : Nat → Nat → Bool) (p : Pass) (n : Node) (e : Err) (he : e ≠ .interrupt) :
    run sub [p] n = .error (.failed 0 e) ↔ applyPass sub p n = .error e := by
  unfold run
  rw [runFrom]
  cases h : applyPass sub p n with
  | ok m => simp [runFrom]
  | error e' =>
    cases e' <;> simp
    exact fun h => he h.symm

theorem run_single_int (sub : Nat → Nat → Bool) (p : Pass) (n : Node) :
    run sub [p] n = .error .interrupted ↔ applyPass sub p n = .error .interrupt := by
  unfold run
  rw [runFrom]
  cases h : applyPass sub p n with
  | ok m => simp [runFrom]
  | error e' => cases e' <;> simp

theorem runFrom_ok (sub : Nat → Nat → Bool) (ps : List Pass) : ∀ (i : Nat) (n r : Node),
    runFrom sub i ps n = .ok r ↔ Path (fun p a b => run sub [p] a = .ok b) ps n r := by
  induction ps with
  | nil =>
    intro i n r
    rw [runFrom]
    constructor
    · intro h
      injection h with h
      subst h
      exact .nil _
    · intro h
      cases h
      rfl
  | cons p ps ih =>
    intro i n r
    rw [runFrom]
    cases h : applyPass sub p n with
    | ok m =>
      simp only []
      rw [ih]
      constructor
      · exact fun hp => .cons ((run_single_ok _ _ _ _).2 h) hp
      · intro hp
        cases hp with
        | cons ho hp =>
          have := (run_single_ok _ _ _ _).1 ho
          rw [h] at this
          injection this with this
          subst this
          exact hp
    | error e =>
      constructor
      · intro hh; cases e <;> cases hh
      · intro hp
        cases hp with
        | cons ho hp =>
          have := (run_single_ok _ _ _ _).1 ho
          rw [h] at this
          cases this

theorem runFrom_failed (sub : Nat → Nat → Bool) (ps : List Pass) : ∀ (i j : Nat) (n : Node) (e : Err),
    runFrom sub i ps n = .error (.failed j e) ↔
      ∃ k p m, j = i + k ∧ ps[k]? = some p ∧ runFrom sub i (ps.take k) n = .ok m ∧ run sub [p] m = .error (.failed 0 e) := by
  induction ps with
  | nil =>
    intro i j n e
    simp [runFrom]
  | cons p ps ih =>
    intro i j n e
    constructor
    · intro h
      rw [runFrom] at h
      cases ha : applyPass sub p n with
      | ok m =>
        rw [ha] at h
        simp only [] at h
        obtain ⟨k, q, m', hj, hq, hr, hf⟩ := (ih _ _ _ _).1 h
        refine ⟨k + 1, q, m', by omega, by simpa using hq, ?_, hf⟩
        rw [List.take_succ_cons, runFrom, ha]
        exact hr
      | error e' =>
        rw [ha] at h
        have : e' ≠ .interrupt ∧ j = i ∧ e = e' := by
          cases e' with
          | interrupt => cases h
          | user x => cases h; exact ⟨nofun, rfl, rfl⟩
          | wrongType => cases h; exact ⟨nofun, rfl, rfl⟩
          | emptyModule => cases h; exact ⟨nofun, rfl, rfl⟩
          | notAPass => cases h; exact ⟨nofun, rfl, rfl⟩
        obtain ⟨hi, rfl, rfl⟩ := this
        exact ⟨0, p, n, rfl, rfl, rfl, (run_single_err _ _ _ _ hi).2 ha⟩
    · rintro ⟨k, q, m, rfl, hq, hr, hf⟩
      cases k with
      | zero =>
        simp only [List.getElem?_cons_zero, Option.some.injEq] at hq
        subst hq
        rw [List.take_zero, runFrom] at hr
        injection hr with hr
        subst hr
        unfold run at hf
        rw [runFrom] at hf ⊢
        cases ha : applyPass sub p n with
        | ok m => rw [ha] at hf; simp [runFrom] at hf
        | error e' => rw [ha] at hf; cases e' <;> simp_all
      | succ k =>
        rw [List.take_succ_cons, runFrom] at hr
        rw [runFrom]
        cases ha : applyPass sub p n with
        | ok m' =>
          rw [ha] at hr
          simp only [] at hr ⊢
          exact (ih _ _ _ _).2 ⟨k, q, m, by omega, by simpa using hq, hr, hf⟩
        | error e' => rw [ha] at hr; cases e' <;> cases hr

theorem runFrom_interrupted (sub : Nat → Nat → Bool) (ps : List Pass) : ∀ (i : Nat) (n : Node),
    runFrom sub i ps n = .error .interrupted ↔
      ∃ k p m, ps[k]? = some p ∧ runFrom sub i (ps.take k) n = .ok m ∧ run sub [p] m = .error .interrupted := by
  induction ps with
  | nil =>
    intro i n
    simp [runFrom]
  | cons p ps ih =>
    intro i n
    constructor
    · intro h
      rw [runFrom] at h
      cases ha : applyPass sub p n with
      | ok m =>
        rw [ha] at h
        simp only [] at h
        obtain ⟨k, q, m', hq, hr, hf⟩ := (ih _ _).1 h
        refine ⟨k + 1, q, m', by simpa using hq, ?_, hf⟩
        rw [List.take_succ_cons, runFrom, ha]
        exact hr
      | error e' =>
        rw [ha] at h
        have : e' = .interrupt := by cases e' <;> simp_all
        subst this
        exact ⟨0, p, n, rfl, rfl, (run_single_int _ _ _).2 ha⟩
    · rintro ⟨k, q, m, hq, hr, hf⟩
      cases k with
      | zero =>
        simp only [List.getElem?_cons_zero, Option.some.injEq] at hq
        subst hq
        rw [List.take_zero, runFrom] at hr
        injection hr with hr
        subst hr
        rw [run_single_int] at hf
        rw [runFrom, hf]
      | succ k =>
        rw [List.take_succ_cons, runFrom] at hr
        rw [runFrom]
        cases ha : applyPass sub p n with
        | ok m' =>
          rw [ha] at hr
          simp only [] at hr ⊢
          exact (ih _ _).2 ⟨k, q, m, by simpa using hq, hr, hf⟩
        | error e' => rw [ha] at hr; cases e' <;> cases hr

theorem runFrom_ok_any (sub : Nat → Nat → Bool) (ps : List Pass) (i j : Nat) (n r : Node) :
    runFrom sub i ps n = .ok r ↔ runFrom sub j ps n = .ok r := by
  rw [runFrom_ok, runFrom_ok]

theorem clone_cls (n : Node) : n.clone.cls = n.cls := by
  cases n; rw [Node.clone]; rfl

theorem cloneAll_map (ns : List Node) : Node.cloneAll ns = ns.map Node.clone := by
  induction ns with
  | nil => rfl
  | cons n ns ih => rw [Node.cloneAll, ih]; rfl

theorem clone_module (n : Node) : (mkModule [n]).clone = .mk moduleCls 0 1 [n.clone] := by
  simp [mkModule, Node.clone, Node.cloneAll]

theorem clone_copies (n : Node) : n.clone.copies = n.copies + 1 := by
  cases n; rw [Node.clone]; rfl

mutual
theorem clone_same : ∀ n : Node, SameCode n n.clone
  | .mk c t k b => by
    rw [Node.clone]
    refine .mk (by rw [cloneAll_map, List.length_map]) ?_
    intro i h h'
    exact cloneAll_same b i h h'
theorem cloneAll_same : ∀ (b : List Node) (i : Nat) (h : i < b.length) (h' : i < (Node.cloneAll b).length),
    SameCode b[i] (Node.cloneAll b)[i]
  | [], i, h, _ => by simp at h
  | n :: ns, 0, _, _ => by
    simp only [Node.cloneAll, List.getElem_cons_zero]
    exact clone_same n
  | n :: ns, i + 1, h, h' => by
    simp only [Node.cloneAll, List.getElem_cons_succ]
    exact cloneAll_same ns i (by simpa using h) (by simpa [Node.cloneAll] using h')
end

theorem applyMetadata_wrap_iff (sub : Nat → Nat → Bool) (v : Visitor) (n r : Node) :
    applyMetadata sub v true n = .ok r ↔
      ∃ m rest, Turns v (.mk moduleCls 0 1 [n.clone]) m ∧ sub m.cls moduleCls = true ∧ m.body = r :: rest ∧
        sub r.cls n.cls = true := by
  unfold applyMetadata
  simp only [if_true]
  cases h : visitSame sub (mkModule [n]) v true with
  | error e =>
    simp only [reduceCtorEq, false_iff]
    rintro ⟨m, rest, ht, hs, -⟩
    have := (visitSame_iff sub (mkModule [n]) m v true).2 ⟨by rw [if_pos rfl, clone_module]; exact ht, hs⟩
    rw [h] at this
    cases this
  | ok x =>
    have hx := (visitSame_iff sub (mkModule [n]) x v true).1 h
    have hsx : sub x.cls moduleCls = true := hx.2
    rw [if_pos rfl, clone_module] at hx
    simp only [hsx, Bool.not_true, Bool.false_eq_true, if_false]
    constructor
    · intro hh
      cases hb : x.body with
      | nil => rw [hb] at hh; cases hh
      | cons s rest =>
        rw [hb] at hh
        by_cases hs : sub s.cls n.cls = true
        · simp only [hs, if_true] at hh
          injection hh with hh
          subst hh
          exact ⟨x, rest, hx.1, hsx, hb, hs⟩
        · simp [hs] at hh
    · rintro ⟨m, rest, ht, hs, hb, hc⟩
      have := (visitSame_iff sub (mkModule [n]) m v true).2 ⟨by rw [if_pos rfl, clone_module]; exact ht, hs⟩
      rw [h] at this
      injection this with this
      subst this
      rw [hb]
      simp [hc]

/-! ## Properties -/

/-- **C128.** The passes are applied in the order in which they are given, each to what the one before returned: a sequence of passes makes `r` of `n` iff
there are pieces of code in between such that each pass alone makes the next of the one before. -/
theorem passes_in_order (sub : Nat → Nat → Bool) (ps : List Pass) (n r : Node) :
    run sub ps n = .ok r ↔ Path (fun p a b => run sub [p] a = .ok b) ps n r :=
  runFrom_ok sub ps 0 n r

/-- **C128.** If the run fails, then the error names the pass that failed: the passes before it succeed, and it fails alone, for the reason given, on what
they returned. Passes after it play no part. -/
theorem failed_pass_named (sub : Nat → Nat → Bool) (ps : List Pass) (n : Node) (i : Nat) (e : Err) :
    run sub ps n = .error (.failed i e) ↔
      ∃ p m, ps[i]? = some p ∧ run sub (ps.take i) n = .ok m ∧ run sub [p] m = .error (.failed 0 e) := by
  unfold run
  rw [runFrom_failed]
  constructor
  · rintro ⟨k, p, m, rfl, hp, hr, hf⟩
    rw [Nat.zero_add]
    exact ⟨p, m, hp, hr, hf⟩
  · rintro ⟨p, m, hp, hr, hf⟩
    exact ⟨i, p, m, by omega, hp, hr, hf⟩

/-- **C128.** An interrupt comes through as it is, and only an interrupt does: the run is interrupted iff one of the passes is, on what the passes before it
returned. -/
theorem interrupt_comes_through (sub : Nat → Nat → Bool) (ps : List Pass) (n : Node) :
    run sub ps n = .error .interrupted ↔
      ∃ i p m, ps[i]? = some p ∧ run sub (ps.take i) n = .ok m ∧ run sub [p] m = .error .interrupted :=
  runFrom_interrupted sub ps 0 n

/-- **C128.** Running two sequences one after the other is running them joined. -/
theorem runs_compose (sub : Nat → Nat → Bool) (ps qs : List Pass) (n r : Node) :
    run sub (ps ++ qs) n = .ok r ↔ ∃ m, run sub ps n = .ok m ∧ run sub qs m = .ok r := by
  rw [passes_in_order, show (∃ m, run sub ps n = .ok m ∧ run sub qs m = .ok r) ↔
    ∃ m, Path (fun p a b => run sub [p] a = .ok b) ps n m ∧ Path (fun p a b => run sub [p] a = .ok b) qs m r from
    exists_congr fun m => by rw [passes_in_order, passes_in_order sub qs]]
  induction ps generalizing n with
  | nil =>
    constructor
    · exact fun h => ⟨n, .nil n, h⟩
    · rintro ⟨m, h1, h2⟩
      cases h1
      exact h2
  | cons p ps ih =>
    constructor
    · intro h
      cases h with
      | cons ho hp =>
        obtain ⟨m, h1, h2⟩ := (ih _).1 hp
        exact ⟨m, .cons ho h1, h2⟩
    · rintro ⟨m, h1, h2⟩
      cases h1 with
      | cons ho hp => exact .cons ho ((ih _).2 ⟨m, hp, h2⟩)

/-- **C128.** The result of a run is code of the kind that was put in, whatever the passes do. -/
theorem kind_kept {sub : Nat → Nat → Bool} (hs : Hierarchy sub) (ps : List Pass) (n r : Node) (h : run sub ps n = .ok r) :
    sub r.cls n.cls = true := by
  rw [passes_in_order] at h
  induction h with
  | nil n => exact hs.refl _
  | @cons p ps n m r ho _ ih =>
    refine hs.trans _ _ _ ih ?_
    rw [run_single_ok] at ho
    clear ih
    induction p with
    | visitor v =>
      rw [applyPass] at ho
      by_cases hm : v.needsMetadata = true
      · rw [if_pos hm] at ho
        obtain ⟨_, _, _, _, _, h⟩ := (applyMetadata_wrap_iff sub v n m).1 ho
        exact h
      · rw [if_neg hm] at ho
        exact ((visitSame_iff _ _ _ _ _).1 ho).2
    | metadata v w =>
      rw [applyPass] at ho
      cases w with
      | true =>
        obtain ⟨_, _, _, _, _, h⟩ := (applyMetadata_wrap_iff sub v n m).1 ho
        exact h
      | false =>
        unfold applyMetadata at ho
        simp only [Bool.false_eq_true, if_false] at ho
        cases hv : visitSame sub n v true with
        | error e => rw [hv] at ho; cases ho
        | ok x =>
          rw [hv] at ho
          have hc := ((visitSame_iff _ _ _ _ _).1 hv).2
          simp only [hc, if_true] at ho
          injection ho with ho
          subst ho
          exact hc
    | cls p ih =>
      rw [applyPass] at ho
      exact ih ho
    | badCls e => rw [applyPass] at ho; cases ho
    | other => rw [applyPass] at ho; cases ho

/-- **C128.** A pass that needs no metadata makes of the code what its visitor makes of it, if that is of the same kind; otherwise it fails. -/
theorem plain_pass (sub : Nat → Nat → Bool) (v : Visitor) (hv : v.needsMetadata = false) (n r : Node) :
    run sub [.visitor v] n = .ok r ↔ Turns v n r ∧ sub r.cls n.cls = true := by
  rw [run_single_ok, applyPass, hv]
  simp only [Bool.false_eq_true, if_false]
  rw [visitSame_iff]
  simp

/-- **C128 (partial).** A pass that needs metadata sees a module with a copy of the code as its only statement. If it makes a module with at most one
statement of it, then that statement is the result, provided it is of the kind that was put in. Missing: several statements, see
`statements_after_dropped` and `statement_before_replaces`. -/
theorem metadata_pass_partial (sub : Nat → Nat → Bool) (v : Visitor) (hv : v.needsMetadata = true) (n m : Node)
    (ht : Turns v (.mk moduleCls 0 1 [n.clone]) m) (hb : m.body.length ≤ 1) (r : Node) :
    run sub [.visitor v] n = .ok r ↔ sub m.cls moduleCls = true ∧ m.body = [r] ∧ sub r.cls n.cls = true := by
  rw [run_single_ok, applyPass, if_pos hv, applyMetadata_wrap_iff sub]
  constructor
  · rintro ⟨m', rest, ht', hs', hb', hc⟩
    have : m' = m := by
      have h1 := (visit_node_iff _ _ _).2 ht
      have h2 := (visit_node_iff _ _ _).2 ht'
      rw [h1] at h2
      injection h2 with h2
      injection h2 with h2
      exact h2.symm
    subst this
    refine ⟨hs', ?_, hc⟩
    rw [hb'] at hb ⊢
    cases rest with
    | nil => rfl
    | cons x xs => simp at hb
  · rintro ⟨h1, h2, h3⟩
    exact ⟨m, [], ht, h1, h2, h3⟩

/-- **C128.** What a pass that needs metadata sees is the same code: class, text and statements are those of the code put in. -/
theorem metadata_pass_sees_code (n : Node) : SameCode n n.clone := clone_same n

/-- **C128.** A class of passes stands for the pass it makes. -/
theorem class_is_instance (sub : Nat → Nat → Bool) (p : Pass) (n : Node) : run sub [.cls p] n = run sub [p] n := by
  unfold run
  rw [runFrom, runFrom, applyPass]

/-- **C128.** A visitor that is no transformer, and that raises nothing, leaves the code as it is: the result is the same code, and the very same object if
the visitor needs no metadata. -/
theorem visitors_change_nothing {sub : Nat → Nat → Bool} (hs : Hierarchy sub) (v : Visitor) (ht : v.transformer = false)
    (hok : ∀ n, ∃ m, v.act n = .ok m) (n : Node) :
    ∃ r, run sub [.visitor v] n = .ok r ∧ SameCode n r ∧ (v.needsMetadata = false → r = n) := by
  by_cases hm : v.needsMetadata = true
  · refine ⟨n.clone, ?_, clone_same n, fun h => by rw [hm] at h; cases h⟩
    rw [metadata_pass_partial sub v hm n (.mk moduleCls 0 1 [n.clone]) (.inr (.inr ⟨ht, hok _, rfl⟩)) (by simp [Node.body])]
    exact ⟨hs.refl _, rfl, by rw [clone_cls]; exact hs.refl _⟩
  · have hm' : v.needsMetadata = false := by simpa using hm
    refine ⟨n, ?_, ?_, fun _ => rfl⟩
    · rw [plain_pass sub v hm']
      exact ⟨.inr (.inr ⟨ht, hok _, rfl⟩), hs.refl _⟩
    · clear hm hm'
      exact Node.rec (motive_1 := fun n => SameCode n n)
        (motive_2 := fun b => ∀ i (h : i < b.length) (h' : i < b.length), SameCode b[i] b[i])
        (fun c t k b ih => .mk rfl ih) (fun i h _ => by simp at h)
        (fun a b iha ihb i h h' => by
          cases i with
          | zero => simpa using iha
          | succ i =>
            simp only [List.getElem_cons_succ]
            exact ihb i (by simpa using h) (by simpa using h)) n

/-- **C128.** Something that is no pass is refused, with the error that names it. -/
theorem not_a_pass_refused (sub : Nat → Nat → Bool) (ps qs : List Pass) (n m : Node) (h : run sub ps n = .ok m) :
    run sub (ps ++ .other :: qs) n = .error (.failed ps.length .notAPass) := by
  rw [failed_pass_named]
  refine ⟨.other, m, ?_, ?_, rfl⟩
  · simp
  · simpa using h

/-! ## Deviations -/

/-- **C128, deviation.** If a pass that needs metadata puts further statements after the code, they are dropped without a message: for every list of
statements the result is the same. The same pass without metadata, on a module, keeps them. -/
theorem statements_after_dropped {sub : Nat → Nat → Bool} (hs : Hierarchy sub) (n : Node) (rest : List Node) :
    run sub [.visitor ⟨true, true, fun m => .ok (.node (.mk m.cls m.text m.copies (m.body ++ rest)))⟩] n = .ok n.clone := by
  rw [run_single_ok, applyPass, if_pos rfl, applyMetadata_wrap_iff sub]
  exact ⟨_, rest, .inl ⟨rfl, rfl⟩, hs.refl _, rfl, by rw [clone_cls]; exact hs.refl _⟩

/-- **C128, deviation.** If it puts a statement of the same kind before the code, as a helper function before a function, then the helper is returned and
the code that was put in is lost. -/
theorem statement_before_replaces {sub : Nat → Nat → Bool} (hs : Hierarchy sub) (n helper : Node) (hk : sub helper.cls n.cls = true) :
    run sub [.visitor ⟨true, true, fun m => .ok (.node (.mk m.cls m.text m.copies (helper :: m.body)))⟩] n = .ok helper := by
  rw [run_single_ok, applyPass, if_pos rfl, applyMetadata_wrap_iff sub]
  exact ⟨_, _, .inl ⟨rfl, rfl⟩, hs.refl _, rfl, hk⟩

/-- **C128, deviation.** A pass that needs metadata returns a copy even if it changes nothing, so that it always counts as having altered the code, and
nodes remembered from before are not in the result. -/
theorem unchanged_code_copied {sub : Nat → Nat → Bool} (hs : Hierarchy sub) (v : Visitor) (hv : v.needsMetadata = true)
    (hid : ∀ n, v.act n = .ok (.node n)) (n : Node) : ∃ r, run sub [.visitor v] n = .ok r ∧ r ≠ n := by
  refine ⟨n.clone, ?_, ?_⟩
  · have hT : Turns v (.mk moduleCls 0 1 [n.clone]) (.mk moduleCls 0 1 [n.clone]) := by
      cases ht : v.transformer with
      | true => exact .inl ⟨ht, hid _⟩
      | false => exact .inr (.inr ⟨ht, ⟨_, hid _⟩, rfl⟩)
    rw [metadata_pass_partial sub v hv n _ hT (by simp [Node.body])]
    exact ⟨hs.refl _, rfl, by rw [clone_cls]; exact hs.refl _⟩
  · intro h
    have := clone_copies n
    rw [h] at this
    omega

/-- **C128, deviation.** The kind of the code is checked against the input of each pass only, so it may become narrower, and then a pass that would return
code of the original kind fails. -/
theorem narrowed_kind_binding : ∃ (sub : Nat → Nat → Bool) (p q : Pass) (n : Node), Hierarchy sub ∧
    (∃ r, run sub [p] n = .ok r) ∧ (∃ r, run sub [q] n = .ok r) ∧ run sub [p, q] n = .error (.failed 1 .wrongType) := by
  refine ⟨fun a b => a = b || b = 1 && a ≤ 2 && a ≥ 1, .visitor ⟨true, false, fun _ => .ok (.node (.mk 2 0 0 []))⟩,
    .visitor ⟨true, false, fun _ => .ok (.node (.mk 1 5 0 []))⟩, .mk 1 0 0 [], ⟨?_, ?_⟩, ⟨.mk 2 0 0 [], rfl⟩, ⟨.mk 1 5 0 [], rfl⟩, rfl⟩
  · intro c; simp
  · intro a b c h1 h2
    simp only [Bool.or_eq_true, Bool.and_eq_true, decide_eq_true_eq] at *
    omega

/-! ## Concrete cases -/

/-- Plain classes: every class is a subclass of itself only. -/
def flat (a b : Nat) : Bool := a == b

theorem flat_hierarchy : Hierarchy flat := ⟨fun c => by simp [flat], fun a b c h1 h2 => by simp [flat] at *; omega⟩

/-- A pass that adds one to the text. -/
def addOne : Pass := .visitor ⟨true, false, fun n => .ok (.node (.mk n.cls (n.text + 1) n.copies n.body))⟩
/-- A pass that doubles the text. -/
def double : Pass := .visitor ⟨true, false, fun n => .ok (.node (.mk n.cls (n.text * 2) n.copies n.body))⟩
/-- A pass that removes the code. -/
def remove : Pass := .visitor ⟨true, false, fun _ => .ok .removed⟩
/-- A pass that needs metadata and adds one to the text of every statement. -/
def addOneMeta : Pass :=
  .visitor ⟨true, true, fun n => .ok (.node (.mk n.cls n.text n.copies (n.body.map fun s => .mk s.cls (s.text + 1) s.copies s.body)))⟩

example : run flat [addOne, double, .cls addOne] (.mk 3 5 0 []) = .ok (.mk 3 13 0 []) := rfl
example : run flat [double, addOne] (.mk 3 5 0 []) = .ok (.mk 3 11 0 []) := rfl
example : run flat [addOneMeta, double] (.mk 3 5 0 [.mk 4 1 0 []]) = .ok (.mk 3 12 1 [.mk 4 1 1 []]) := rfl
example : run flat [addOne, remove, addOne] (.mk 3 5 0 []) = .error (.failed 1 .wrongType) := rfl
example : run flat [addOne, remove, addOne] (.mk 0 5 0 [.mk 3 0 0 []]) = .ok (.mk 0 7 0 []) := rfl
example : run flat [addOne, .metadata ⟨true, true, fun _ => .ok .removed⟩ true] (.mk 3 5 0 []) = .error (.failed 1 .emptyModule) := rfl
example : run flat [addOne, .visitor ⟨false, false, fun _ => .error .interrupt⟩] (.mk 3 5 0 []) = .error .interrupted := rfl
example : run flat [addOne, .other] (.mk 3 5 0 []) = .error (.failed 1 .notAPass) := rfl

end FF.Passes
