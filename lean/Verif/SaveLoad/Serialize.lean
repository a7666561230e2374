/-
Objects of serializable classes rebuild from their constructor arguments: serialization.py.

Simplifications:
* classes are elements of a type `C`, tuples of positional and keyword arguments elements of a type
  `A`, attribute values elements of a type `V`;
* constructors are arbitrary functions that may call the constructor of the next class (any number of
  times, with any arguments), change attributes and change the argument objects; constructors that
  raise are not modelled, as they leave no object to dump;
* `__new__` returns an object of the class;
* dumping and reading YAML gives back equal arguments, names and attributes, and the name of a class
  refers to the class.
-/
import Verif.Util.Dict

namespace FF.Serialize

variable {C A V : Type} [DecidableEq C]

/-! ## Model -/

abbrev Text := List Char

/-- An object: attributes, and the attribute `__initargs_ex__`. -/
structure Obj (A V : Type) where
  fields : Text → Option V
  initArgs : Option A

/-- The attribute `__newargs_ex__` of classes. -/
abbrev Classes (C A : Type) := C → Option A

/-- A class hierarchy.  `init` and `new` are the methods in the bodies of the classes; their first
argument is what `super()` gives.  `init` also returns what the argument objects have become. -/
structure Hier (C A V : Type) where
  /-- the method resolution order -/
  mro : C → List C
  /-- the class was decorated with `@yamlable`, or derives from such a class -/
  yamlable : C → Bool
  init : C → Option ((A → Obj A V → Obj A V × A) → A → Obj A V → Obj A V × A)
  new : C → Option ((A → Classes C A → Obj A V × Classes C A) → A → Classes C A →
    Obj A V × Classes C A)
  /-- no arguments -/
  noArgs : A
  /-- the class has `__getstate__` and `__setstate__` -/
  stateful : C → Bool
  /-- the attributes `__getstate__` keeps: nn/quantizer.py:310-338 -/
  kept : C → Text → V → Bool

/-- `__init__` along the method resolution order, with the wrapper of serialization.py:34-53 around the
methods of serializable classes. -/
def runInit (h : Hier C A V) : List C → A → Obj A V → Obj A V × A
  | [], a, o => (o, a)
  | c :: cs, a, o =>
    match h.init c with
    | none => runInit h cs a o
    | some body =>
      let fnArgs := a
      let r := body (runInit h cs) a o
      (if h.yamlable c then { r.1 with initArgs := some fnArgs } else r.1, r.2)

/-- `__new__` along the method resolution order; the wrapper sets the attribute of `args[0]`, which is
the class: serialization.py:34-53. -/
def runNew (h : Hier C A V) (cls : C) : List C → A → Classes C A → Obj A V × Classes C A
  | [], _, w => (⟨fun _ => none, none⟩, w)
  | c :: cs, a, w =>
    match h.new c with
    | none => runNew h cls cs a w
    | some body =>
      let fnArgs := a
      let r := body (runNew h cls cs) a w
      (r.1, if h.yamlable c then (fun c' => if c' = cls then some fnArgs else r.2 c') else r.2)

/-- `cls(*args)`. -/
def create (h : Hier C A V) (cls : C) (a : A) (w : Classes C A) : Obj A V × Classes C A :=
  let r := runNew h cls (h.mro cls) a w
  ((runInit h (h.mro cls) a r.1).1, r.2)

/-- A mapping `!ff.obj`. -/
structure Dump (C A V : Type) where
  name : C
  newArgs : Option A
  initArgs : Option A
  state : Option (Text → Option V)

/-- Exceptions: `RuntimeError` of the representer, `UnboundLocalError` of the constructor. -/
inductive Err where
  | noArguments
  | unbound
  deriving DecidableEq, Repr

/-- `hasattr(data, "__newargs_ex__")`: looked up in the class and its bases. -/
def lookupNew (w : Classes C A) : List C → Option A
  | [] => none
  | c :: cs => match w c with
    | some a => some a
    | none => lookupNew w cs

/-- `__getstate__`: nn/quantizer.py:310-338. -/
def getState (h : Hier C A V) (cls : C) (o : Obj A V) : Text → Option V := fun k =>
  match o.fields k with
  | some v => if h.kept cls k v then some v else none
  | none => none

/-- `_ff_obj_yaml_representer`: serialization.py:68-106. -/
def dump (h : Hier C A V) (cls : C) (o : Obj A V) (w : Classes C A) : Except Err (Dump C A V) :=
  let newArgs := lookupNew w (h.mro cls)
  if o.initArgs.isNone && newArgs.isNone then .error .noArguments
  else .ok {
    name := cls
    newArgs := newArgs
    initArgs := o.initArgs
    state := if h.stateful cls then some (getState h cls o) else none }

/-- `obj.__setstate__(state)`: nn/quantizer.py:300-308. -/
def setState (o : Obj A V) (state : Text → Option V) : Obj A V :=
  { o with fields := fun k => match state k with | some v => some v | none => o.fields k }

/-- `_ff_obj_yaml_constructor`: serialization.py:109-145. -/
def load (h : Hier C A V) (d : Dump C A V) (w : Classes C A) :
    Except Err (Obj A V × Classes C A) :=
  let newArgs := d.newArgs.getD h.noArgs
  let initArgs := d.initArgs.getD h.noArgs
  -- `obj` and the attributes of the classes
  let r1 : Option (Obj A V) × Classes C A :=
    if (h.new d.name).isSome then
      let r := runNew h d.name (h.mro d.name) newArgs w
      (some r.1, r.2)
    else (none, w)
  let r2 : Option (Obj A V) × Classes C A :=
    if (h.init d.name).isSome then
      let r := create h d.name initArgs r1.2
      (some r.1, r.2)
    else r1
  match r2.1 with
  | none => .error .unbound
  | some obj =>
    .ok (match d.state with | some s => setState obj s | none => obj, r2.2)

/-! ## Specification -/

/-- `o'` is `o` after attributes have been assigned: the recorded arguments are as they were. -/
def Touched (o o' : Obj A V) : Prop := o'.initArgs = o.initArgs

/-- The class defines `__init__` itself and is serializable; its own method is found first. -/
structure OwnInit (h : Hier C A V) (cls : C) : Prop where
  own : (h.init cls).isSome = true
  yamlable : h.yamlable cls = true
  first : ∃ rest, h.mro cls = cls :: rest

/-- No class in the hierarchy of `cls` defines `__new__`. -/
def DefaultNew (h : Hier C A V) (cls : C) : Prop := ∀ c ∈ h.mro cls, h.new c = none

/-! ## Lemmas -/

theorem runNew_default (h : Hier C A V) (cls : C) (a : A) (w : Classes C A) : ∀ {l : List C},
    (∀ c ∈ l, h.new c = none) → runNew h cls l a w = (⟨fun _ => none, none⟩, w)
  | [], _ => rfl
  | c :: cs, hl => by
    unfold runNew
    rw [hl c (by simp)]
    exact runNew_default h cls a w (fun c hc => hl c (by simp [hc]))

theorem create_default {h : Hier C A V} {cls : C} (hd : DefaultNew h cls) (a : A) (w : Classes C A) :
    create h cls a w = ((runInit h (h.mro cls) a ⟨fun _ => none, none⟩).1, w) := by
  unfold create
  rw [runNew_default h cls a w hd]

/-! ## Properties -/

/-- **C43.**  An object records the arguments of the outermost constructor call — the call of its class —
whatever its constructor does: other constructors it calls, any number of times, with other arguments,
and changes it makes to the argument objects, do not matter. -/
theorem records_outermost_arguments {h : Hier C A V} {cls : C} (ho : OwnInit h cls) (a : A)
    (w : Classes C A) : (create h cls a w).1.initArgs = some a := by
  obtain ⟨rest, hm⟩ := ho.first
  obtain ⟨body, hb⟩ := Option.isSome_iff_exists.1 ho.own
  simp only [create, hm, runInit, hb, ho.yamlable, if_true]

/-- The same for a constructor that is inherited: the first class that defines one records. -/
theorem inherited_constructor_records {h : Hier C A V} {cls : C} {pre rest : List C} {c : C}
    (hm : h.mro cls = pre ++ c :: rest) (hpre : ∀ c' ∈ pre, h.init c' = none)
    (hc : (h.init c).isSome = true) (hy : h.yamlable c = true) (a : A) (w : Classes C A) :
    (create h cls a w).1.initArgs = some a := by
  obtain ⟨body, hb⟩ := Option.isSome_iff_exists.1 hc
  have : ∀ (o : Obj A V), (runInit h (pre ++ c :: rest) a o).1.initArgs = some a := by
    clear hm
    induction pre with
    | nil =>
      intro o
      simp only [List.nil_append, runInit, hb, hy, if_true]
    | cons p pre ih =>
      intro o
      rw [List.cons_append, runInit, hpre p (by simp)]
      exact ih (fun c' hc' => hpre c' (by simp [hc'])) o
  simp only [create, hm]
  exact this _

/-- **C43.**  A class with its own `__new__` also records the arguments of the call of the class, an object dumped then has them, whatever the classes it derives from recorded
before, and nothing is recorded for another class if `__new__` only calls that of `object`. -/
theorem records_new_arguments {h : Hier C A V} {cls : C} {rest : List C} (hm : h.mro cls = cls :: rest)
    {body} (hb : h.new cls = some body) (hy : h.yamlable cls = true) (a : A) (w : Classes C A) :
    (∀ o d, dump h cls o (create h cls a w).2 = .ok d → d.newArgs = some a) ∧
    ((∀ c ∈ rest, h.new c = none) → (∀ sup a w, (body sup a w).2 = (sup a w).2) →
      ∀ c, c ≠ cls → (create h cls a w).2 c = w c) := by
  constructor
  · intro o d hd
    have hl : lookupNew (create h cls a w).2 (h.mro cls) = some a := by
      simp only [create, hm, runNew, hb, hy, if_true, lookupNew]
    simp only [dump, hl, Option.isNone_some, Bool.and_false] at hd
    cases hd
    rfl
  · intro hr hs c hc
    simp only [create, hm, runNew, hb, hy, if_true, hc, if_false, hs]
    rw [runNew_default h cls a w hr]

/-- **C43.**  Dumping an object of a class with its own `__init__` — at any time, after any assignments to
its attributes — and loading it calls the same class with the arguments it was created with; attributes
kept by `__getstate__` then get the values they had in the dumped object, the others keep those the
constructor gave them.

Missing: classes that inherit `__init__` (see the deviation). -/
theorem load_rebuilds_partial {h : Hier C A V} {cls : C} (ho : OwnInit h cls) {a : A}
    {w0 w1 w2 : Classes C A} {o : Obj A V} (ht : Touched (create h cls a w0).1 o) :
    ∃ d, dump h cls o w1 = .ok d ∧ d.name = cls ∧ d.initArgs = some a ∧
    ∃ obj w3, load h d w2 = .ok (obj, (create h cls a w3).2) ∧
      obj.initArgs = some a ∧
      ∀ k, obj.fields k =
        (match o.fields k with
         | some v => if h.stateful cls && h.kept cls k v then some v
            else (create h cls a w3).1.fields k
         | none => (create h cls a w3).1.fields k) := by
  have hrec := records_outermost_arguments ho a w0
  have hi : o.initArgs = some a := ht.trans hrec
  have hload : ∀ d : Dump C A V, d.name = cls → d.initArgs = some a → ∃ w3, load h d w2 =
      .ok (match d.state with
        | some s => setState (create h cls a w3).1 s
        | none => (create h cls a w3).1, (create h cls a w3).2) := by
    rintro ⟨n, na, ia, st⟩ rfl hia
    dsimp only at hia
    subst hia
    exact ⟨_, by simp only [load, ho.own, if_true, Option.getD_some]; rfl⟩
  refine ⟨⟨cls, lookupNew w1 (h.mro cls), o.initArgs,
    if h.stateful cls then some (getState h cls o) else none⟩, ?_, rfl, hi, ?_⟩
  · simp [dump, hi]
  · obtain ⟨w3, hw3⟩ := hload ⟨cls, lookupNew w1 (h.mro cls), o.initArgs,
      if h.stateful cls then some (getState h cls o) else none⟩ rfl hi
    refine ⟨_, w3, hw3, ?_, ?_⟩
    · have := records_outermost_arguments ho a w3
      cases h.stateful cls
      · exact this
      · exact this
    · intro k
      cases h.stateful cls with
      | false =>
        simp only [Bool.false_and]
        cases o.fields k <;> rfl
      | true =>
        simp only [if_true, setState, getState, Bool.true_and]
        cases o.fields k with
        | none => rfl
        | some v =>
          dsimp only
          cases h.kept cls k v <;> rfl

/-- **C43.**  If no class involved defines `__new__`, an object that was not touched after its creation
comes back equal, whatever else was created in between. -/
theorem load_gives_equal_object {h : Hier C A V} {cls : C} (ho : OwnInit h cls)
    (hd : DefaultNew h cls) (a : A) (w0 w1 w2 : Classes C A) :
    ∃ d, dump h cls (create h cls a w0).1 w1 = .ok d ∧
      load h d w2 = .ok ((create h cls a w0).1, w2) := by
  obtain ⟨d, h1, h2, h3, obj, w3, h4, h6, h7⟩ :=
    load_rebuilds_partial (w1 := w1) (w2 := w2) ho (o := (create h cls a w0).1) rfl
  refine ⟨d, h1, ?_⟩
  have hw : (create h cls a w3).1 = (create h cls a w0).1 := by
    rw [create_default hd, create_default hd]
  have hobj : obj = (create h cls a w0).1 := by
    have hi := records_outermost_arguments ho a w0
    have hf : obj.fields = (create h cls a w0).1.fields := by
      funext k
      rw [h7 k, hw]
      cases hk : (create h cls a w0).1.fields k with
      | none => rfl
      | some v =>
        dsimp only
        split <;> rfl
    cases obj
    cases hc : (create h cls a w0).1
    simp_all
  have hn : h.new cls = none := by
    obtain ⟨rest, hm⟩ := ho.first
    exact hd cls (by rw [hm]; simp)
  have hw2 : ∃ o', load h d w2 = .ok (o', w2) := by
    unfold load
    rw [h2]
    simp only [hn, ho.own, Option.isSome_none, if_true, create_default hd]
    exact ⟨_, rfl⟩
  obtain ⟨o', ho'⟩ := hw2
  rw [ho'] at h4
  cases h4
  rw [ho', hobj]

/-- **C43, deviation.**  An object of a class that inherits its constructor can be dumped, but loading it
always fails. -/
theorem inherited_constructor_not_loadable {h : Hier C A V} {cls : C} {pre rest : List C} {c : C}
    (hm : h.mro cls = pre ++ c :: rest) (hpre : ∀ c' ∈ pre, h.init c' = none)
    (hc : (h.init c).isSome = true) (hy : h.yamlable c = true)
    (hown : h.init cls = none) (hnew : h.new cls = none) (a : A) (w0 w1 w2 : Classes C A) :
    ∃ d, dump h cls (create h cls a w0).1 w1 = .ok d ∧ load h d w2 = .error .unbound := by
  have hi := inherited_constructor_records hm hpre hc hy a w0
  refine ⟨_, by simp only [dump, hi]; rfl, ?_⟩
  simp [load, hown, hnew]

/-! ## Concrete cases

Classes 0 < 1 < 2 < 3, each derived from the next; 2 is decorated with `@yamlable`. -/

/-- Class 1 has a constructor that calls the one of class 2 twice with other arguments, changes its
arguments and sets an attribute; class 0 inherits it.  Class 4 has a `__new__` only. -/
def demoHier : Hier Nat (List Int) Int where
  mro c := if c = 4 then [4] else [0, 1, 2, 3].drop c
  yamlable c := c ≤ 2 || c = 4
  init c :=
    if c = 1 then some (fun sup a o =>
      let o := (sup [7] o).1
      let o := (sup (0 :: a) o).1
      ({ o with fields := fun k => if k = "n".toList then some a.length else o.fields k }, 99 :: a))
    else if c = 2 then some (fun sup a o =>
      let o := (sup [] o).1
      ({ o with fields := fun k => if k = "m".toList then a.head? else o.fields k }, a))
    else none
  new c := if c = 4 then some (fun sup a w =>
      let r := sup [] w
      (⟨fun k => if k = "v".toList then a.head? else none, none⟩, r.2)) else none
  noArgs := []
  stateful c := c ≤ 2
  kept _ k _ := k = "n".toList

example : OwnInit demoHier 1 := ⟨rfl, rfl, ⟨[2, 3], rfl⟩⟩

example : DefaultNew demoHier 1 := by
  intro c hc
  have : demoHier.mro 1 = [1, 2, 3] := rfl
  rw [this] at hc
  simp at hc
  rcases hc with rfl | rfl | rfl <;> rfl

/-- The recorded arguments, and the attributes of the object. -/
example : (create demoHier 1 [5, 6] (fun _ => none)).1.initArgs = some [5, 6] ∧
    (create demoHier 1 [5, 6] (fun _ => none)).1.fields "n".toList = some 2 ∧
    (create demoHier 1 [5, 6] (fun _ => none)).1.fields "m".toList = some 0 := by
  exact ⟨rfl, rfl, rfl⟩

/-- Class 0 meets the hypotheses of the deviation. -/
example : demoHier.mro 0 = [0] ++ 1 :: [2, 3] ∧ (∀ c' ∈ [0], demoHier.init c' = none) ∧
    (demoHier.init 1).isSome = true := ⟨rfl, by simp [demoHier], rfl⟩

/-- **C43, deviation.**  Arguments of `__new__` are recorded on the class: after a second object has been
created, the first one is dumped with the arguments of the second and loads as a copy of it. -/
theorem new_arguments_overwritten :
    ∃ (h : Hier Nat (List Int) Int) (cls : Nat) (a b : List Int) (k : Text),
      let first := create h cls a (fun _ => none)
      let second := create h cls b first.2
      ∃ d obj w, dump h cls first.1 second.2 = .ok d ∧ load h d second.2 = .ok (obj, w) ∧
        first.1.fields k = some 5 ∧ obj.fields k = some 6 := by
  exact ⟨demoHier, 4, [5], [6], "v".toList, ⟨4, some [6], none, none⟩, _, _, rfl, rfl, rfl, rfl⟩

end FF.Serialize
